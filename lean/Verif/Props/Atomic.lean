import Verif.Lemmas.Reject
import Verif.Examples

/-!
# C08: what a failing `add` leaves behind

The full property (a failed `add` leaves the space unchanged) is **false** of the code; see the three
counterexamples.  The `_partial` theorems say what does hold.
-/

set_option autoImplicit false

namespace Verif
open Verif.Spec

/-- The exceptions by which `add` rejects an item before the new state is committed. -/
def RejectErr : Err → Prop
  | .cyclic => True
  | .ambiguous => True
  | .alreadyExists _ => True
  | .childNotFound _ => True
  | .parentNotFound _ => True
  | .hpNotFound _ => True
  | _ => False

theorem rejectErr_structural {e : Err} (h : RejectErr e) : e.structural := by
  cases e <;> simp_all [RejectErr, Err.structural]

/-- **C08** (partial: only what was computed at the last commit). If `add` rejects an item (name already
taken, unknown child, parent or clause hyperparameter, ambiguous or cyclic condition), then the vector
layout, the length, the clauses and conditions used for validation and the forbidden clauses are those of before;
missing: the hyperparameters and conditions themselves, which may have changed. -/
theorem C08_rejected_add_keeps_layout_partial {s s' : Space} {k : Call} {e : Err}
    (he : RejectErr e) (h : s.add k.hps k.conds k.forbs = (s', some e)) :
    s'.names = s.names ∧ (∀ n, s'.idx n = s.idx n) ∧ s'.len = s.len ∧ s'.fast = s.fast ∧
    s'.minConds = s.minConds ∧ s'.lookup = s.lookup := by
  have h2 : (s.add k.hps k.conds k.forbs).2 = some e := by rw [h]
  rw [add_structural (rejectErr_structural he)] at h2
  have h3 : s' = { s with dag := (s.dag.addAll k.hps k.conds k.forbs).1 } := by
    have h1 : (s.add k.hps k.conds k.forbs).1 = s' := by rw [h]
    rw [← h1]
    unfold Space.add
    cases hg : s.dag.addAll k.hps k.conds k.forbs with
    | mk g o =>
      rw [hg] at h2
      simp only at h2
      subst h2
      rfl
  subst h3
  exact ⟨rfl, fun _ => rfl, rfl, rfl, rfl, rfl⟩

/-- **C08** (partial: calls with one item, and not the cyclic case nor conjunctions with an unknown
parent). A rejected single item leaves the space exactly as it was. -/
theorem C08_single_item_unchanged_partial {calls : List Call} {s s' : Space} (hr : Reach calls s)
    {k : Call} (hk : k.wf) (h1 : k.hps.length + k.conds.length + k.forbs.length = 1) {e : Err}
    (he : RejectErr e) (hcyc : e ≠ .cyclic)
    (hpar : ∀ p, e = .parentNotFound p → ∃ l, k.conds = [.lit l])
    (h : s.add k.hps k.conds k.forbs = (s', some e)) : s' = s := by
  have hi := sinv_of_reach hr
  have h2 : (s.add k.hps k.conds k.forbs).2 = some e := by rw [h]
  rw [add_structural (rejectErr_structural he)] at h2
  have h3 : s' = { s with dag := (s.dag.addAll k.hps k.conds k.forbs).1 } := by
    have h1 : (s.add k.hps k.conds k.forbs).1 = s' := by rw [h]
    rw [← h1]
    unfold Space.add
    cases hg : s.dag.addAll k.hps k.conds k.forbs with
    | mk g o =>
      rw [hg] at h2
      simp only at h2
      subst h2
      rfl
  suffices hd : (s.dag.addAll k.hps k.conds k.forbs).1 = s.dag by rw [h3, hd]
  obtain ⟨hps, conds, forbs⟩ := k
  simp only at h1 h2 hpar ⊢
  cases hps with
  | cons x xs =>
    have hx : xs = [] := List.eq_nil_of_length_eq_zero (by simp at h1; omega)
    have hc : conds = [] := List.eq_nil_of_length_eq_zero (by simp at h1; omega)
    have hf : forbs = [] := List.eq_nil_of_length_eq_zero (by simp at h1; omega)
    subst hx hc hf
    cases hf : findNode s.dag.nodes x.name with
    | some y => simp [Dag.addAll, runAll, Dag.add, hf]
    | none => simp [Dag.addAll, runAll, Dag.add, hf] at h2
  | nil =>
    cases conds with
    | cons c cs =>
      have hx : cs = [] := List.eq_nil_of_length_eq_zero (by simp at h1; omega)
      have hf : forbs = [] := List.eq_nil_of_length_eq_zero (by simp at h1; omega)
      subst hx hf
      have hcw : c.wf = true := hk.2.1 c (by simp)
      obtain ⟨chp, hchp⟩ := wf_child hcw
      have e2 : s.dag.addAll [] [c] [] = s.dag.addCondition c := by
        simp only [Dag.addAll, runAll]
        cases s.dag.addCondition c with
        | mk a b => cases b <;> rfl
      rw [e2] at h2 ⊢
      simp only [Dag.addCondition] at h2 ⊢
      suffices hn : (addCondNodes s.dag.nodes c).1 = s.dag.nodes by rw [hn]
      rcases addCondNodes_cases hi.hist.ninv hchp with ⟨ns', k⟩ | ⟨k, hb⟩ | ⟨ns', p, k, hp, hb⟩ |
        ⟨ns', d, k, hd, hb⟩ | ⟨ns', k, kc⟩
      · rw [k] at h2; cases h2
      · rw [k]
      · rw [k] at h2
        simp only [Option.some.injEq] at h2
        obtain ⟨l, hl⟩ := hpar p h2.symm
        simp only [List.cons.injEq, and_true] at hl
        subst hl
        simp only [Cond.parents, Cond.dlcs, List.map_cons, List.map_nil, List.mem_singleton] at hp
        subst hp
        have hf := findNode_none.2 hb
        unfold addCondNodes
        simp only [hchp]
        split
        · rfl
        · split
          · rfl
          · simp [Cond.parents, Cond.dlcs, addCondLoop, addCondParent, hf]
      · rw [addCondNodes_ambiguous hchp hd hb]
      · rw [k] at h2
        simp only [Option.some.injEq] at h2
        exact absurd h2.symm hcyc
    | nil =>
      cases forbs with
      | nil => simp at h1
      | cons f fs =>
        have hx : fs = [] := List.eq_nil_of_length_eq_zero (by simpa using h1)
        subst hx
        cases hm : firstMissing s.dag.nodes f.names with
        | some n => simp [Dag.addAll, runAll, Dag.addForbidden, hm]
        | none =>
          by_cases hu : isUncondForb s.dag.roots f = true
          · simp [Dag.addAll, runAll, Dag.addForbidden, hm, hu] at h2
          · simp [Dag.addAll, runAll, Dag.addForbidden, hm, hu] at h2

/-- A second hyperparameter named `k` is rejected, nothing changes. -/
example : Ex.sp1.add [⟨"k", .const (.int 1), .int 1⟩] [] [] = (Ex.sp1, some (.alreadyExists "k")) := by
  have h : (Ex.sp1.add [⟨"k", .const (.int 1), .int 1⟩] [] []).2 = some (.alreadyExists "k") := by
    decide +kernel
  have h' : Ex.sp1.add [⟨"k", .const (.int 1), .int 1⟩] [] []
      = ((Ex.sp1.add [⟨"k", .const (.int 1), .int 1⟩] [] []).1, some (.alreadyExists "k")) := by
    rw [← h]
  rw [h', C08_single_item_unchanged_partial (k := ⟨[⟨"k", .const (.int 1), .int 1⟩], [], []⟩)
    Ex.reach1 (by decide +kernel) rfl (e := .alreadyExists "k") trivial (by simp) (by simp) h']

/-- **C08 fails:** of two hyperparameters of which the second is rejected, the first stays. -/
theorem C08_rejected_batch_leaves_hyperparameter :
    ∃ (s : Space) (k : Call), Built s ∧ k.wf ∧
      (s.add k.hps k.conds k.forbs).2 = some (.alreadyExists "k") ∧
      "x" ∉ s.dag.nodes.map Node.name ∧ "x" ∈ (s.add k.hps k.conds k.forbs).1.dag.nodes.map Node.name :=
  ⟨{}, ⟨[Ex.hpX, Ex.hpK, Ex.hpK], [], []⟩, ⟨[], .nil⟩, by decide +kernel, by decide +kernel,
    by decide +kernel, by decide +kernel⟩

/-- **C08 fails:** a clause that forbids the default configuration is rejected with `ForbiddenValueError`, but
stays in the space. -/
theorem C08_rejected_clause_stays :
    ∃ (s : Space) (k : Call), Built s ∧ k.wf ∧
      (s.add k.hps k.conds k.forbs).2 = some .forbidden ∧
      s.forbs.length = 0 ∧ (s.add k.hps k.conds k.forbs).1.forbs.length = 1 :=
  ⟨Ex.sp1a, ⟨[], [], [.eq Ex.hpAlg (.str "a") 0]⟩, ⟨_, Ex.reach1a⟩, by decide +kernel, by decide +kernel,
    by decide +kernel, by decide +kernel⟩

namespace Ex
def callAB : Call := ⟨[hpAlg, hpO], [.lit litO], []⟩
def spAB : Space := committed {} callAB
theorem reachAB : Reach [callAB] spAB :=
  Reach.snoc (calls := []) .nil (by decide +kernel)
    (add_of_stages [("alg", some (.str "a")), ("o", some (.str "mid"))] [some 0, some 1]
      [("alg", .str "a"), ("o", .str "mid")]
      (by decide +kernel) (by decide +kernel) (by decide +kernel)
      (by decide +kernel) (by decide +kernel) (by decide +kernel))
/-- `alg | o == "mid"`: closes the cycle alg → o → alg. -/
def condBack : Cond := .lit ⟨hpAlg, hpO, .bin .eq (.str "mid") 1⟩
end Ex

/-- **C08 fails:** a condition that is rejected with `CyclicDependancyError` stays in the space; adding an
unrelated hyperparameter afterwards raises `KeyError`, although it succeeds on the space before the
rejected call. -/
theorem C08_rejected_cycle_breaks_later_add :
    ∃ (s : Space) (c : Cond) (h : HP), Built s ∧ c.wf = true ∧ h.wf = true ∧
      (s.add [] [c] []).2 = some .cyclic ∧
      (s.add [h] [] []).2 = none ∧
      ((s.add [] [c] []).1.add [h] [] []).2 = some .keyError :=
  ⟨Ex.spAB, Ex.condBack, Ex.hpC, ⟨_, Ex.reachAB⟩, by decide +kernel, by decide +kernel, by decide +kernel,
    by decide +kernel, by decide +kernel⟩

/-- The positions after the rejected batch `[x, k, k]`, of which `x` stays behind as a node. -/
example : (Ex.spAB.add [Ex.hpX, Ex.hpK, Ex.hpK] [] []).1.names = Ex.spAB.names ∧
    (Ex.spAB.add [Ex.hpX, Ex.hpK, Ex.hpK] [] []).1.len = Ex.spAB.len := by
  have h : Ex.spAB.add [Ex.hpX, Ex.hpK, Ex.hpK] [] [] = ((Ex.spAB.add [Ex.hpX, Ex.hpK, Ex.hpK] [] []).1, some (.alreadyExists "k")) := by
    rw [← show (Ex.spAB.add [Ex.hpX, Ex.hpK, Ex.hpK] [] []).2 = some (.alreadyExists "k") by decide +kernel]
  have := C08_rejected_add_keeps_layout_partial (k := ⟨[Ex.hpX, Ex.hpK, Ex.hpK], [], []⟩) (e := .alreadyExists "k") trivial h
  exact ⟨this.1, this.2.2.1⟩

end Verif
