import Verif.Lemmas.Caught
import Verif.Model.Util
import Verif.Props.Atomic
import Verif.Examples

/-!
# C122: spaces on which calls of `add` have failed

A user may catch the exception of a failed `add` and go on.  What the failed call left behind is part of the space
that the next call commits.  The full property (such a space is one that successful calls could have built) is
**false** of the code for a condition that was entered in part; it is proved for all other failures.
-/

set_option autoImplicit false

namespace Verif
open Spec

/-- **C122** (partial: no call was rejected for an unknown parent that is not the first one of its condition).
After any history of calls of `add`, failed ones included, that ends with a call that returns, the space is the one
that a single successful call builds from the parts that stayed: of every call the longest part that fits what was
there, and all of the last call.  The hyperparameters with their indices, depths, conditions and children are the same, and so
are the clauses (up to order), the conditions used for validation, the table for changed values, the verdict on every
vector, the outcome of making a configuration from any values and the default configuration. -/
theorem C122_after_failures_partial {hist : List (Call × Option Err)} {s : Space} {k : Call}
    (h : Attempts (hist ++ [(k, none)]) s) (hh : ∀ x ∈ hist, NotHalf x.1 x.2) :
    ∃ kept, Stayed (hist.map Prod.fst) kept ∧ Fits kept k ∧ (OwnClauses (kept ++ [k]) →
      ∃ t, Reach [together (kept ++ [k])] t ∧
        s.com.map (fun x => (x.hp, x.depth, x.cond)) = t.com.map (fun x => (x.hp, x.depth, x.cond)) ∧
        s.len = t.len ∧ s.forbs.Perm t.forbs ∧ s.minConds = t.minConds ∧ s.lookup = t.lookup ∧
        (∀ n x, x ∈ s.childrenOf n ↔ x ∈ t.childrenOf n) ∧
        (∀ v al, s.check v al = t.check v al) ∧ (∀ d al, Config.ofValues s d al = Config.ofValues t d al) ∧
        s.defaultConfig = t.defaultConfig) := by
  obtain ⟨kept, h1, h2, h3, p, hl, hd⟩ := Caught.attempts_pre h hh
  refine ⟨kept, h1, h2, fun hown => ?_⟩
  obtain ⟨t, ht, hcore, hf, k1, k2, k3⟩ := Caught.combined h3 p hd hown
  have it := sinv_of_reach ht
  have hm : s.minConds = t.minConds := by rw [p.mins, it.mins, minCondsSorted_core hcore]
  refine ⟨t, ht, hcore, ?_, hf, hm, ?_, ?_, k1, k2, k3⟩
  · rw [p.len, it.len]
    simpa using congrArg List.length hcore
  · rw [hl, it.lookup, hm]
    unfold changeLookup shallowest
    rw [depthOf_core hcore]
  · intro n x
    have pt := pre_of_reach ht
    have hns : NInv s.com := p.com ▸ p.hist.ninv
    have hnt : NInv t.com := pt.com ▸ pt.hist.ninv
    have hcs : condAt s.com x = condAt t.com x := by
      rw [← p.com, ← pt.com, p.hist.cond, pt.hist.cond, (Caught.together_all (kept ++ [k])).2.1]
    change Edge s.com n x ↔ Edge t.com n x
    simp only [edge_iff_childAt, Option.isSome_iff_exists, hns.child, hnt.child, hcs]

/-- **C122** (what stays is determined by the calls). -/
theorem C122_stays_unique {ks kept kept' : List Call} (h : Stayed ks kept) (h' : Stayed ks kept') : kept = kept' :=
  Caught.stayed_unique h h'

/-- **C122** (failures that change nothing). If the call brings one item that does not fit, nothing of it stays, so
the history may as well not contain it. -/
theorem C122_one_item {before : List Call} {k : Call} {n : Nat} (h : Longest before k n) (h1 : size k = 1)
    (hf : ¬ Fits before k) : first n k = {} := by
  have hn : n = 0 := by
    have := h.le
    by_contra hne
    have : n = size k := by omega
    exact hf (by have := this ▸ h.fits; rwa [Caught.first_size] at this)
  subst hn
  simp [first]

namespace ExCa
theorem pair {α β : Type} {x : α × β} {o : β} (h : x.2 = o) : x = (x.1, o) := by rw [← h]

def hpB : HP := ⟨"b", .cat [.str "x", .str "y"], .str "x"⟩
def hpA : HP := ⟨"a", .cat [.str "x", .str "y"], .str "x"⟩
def hpQ : HP := ⟨"q", .cat [.str "x", .str "y"], .str "x"⟩

/-! A batch of which the last hyperparameter is rejected. -/
def k1 : Call := ⟨[Ex.hpAlg], [], []⟩
def k2 : Call := ⟨[Ex.hpX, Ex.hpK, Ex.hpK], [Ex.condX], []⟩
def k3 : Call := ⟨[Ex.hpC], [Ex.condK], []⟩
def s1 : Space := (({} : Space).add k1.hps k1.conds k1.forbs).1
def s2 : Space := (s1.add k2.hps k2.conds k2.forbs).1
def s3 : Space := (s2.add k3.hps k3.conds k3.forbs).1
theorem ok1 : ({} : Space).add k1.hps k1.conds k1.forbs = (s1, none) := by
  have h : (({} : Space).add k1.hps k1.conds k1.forbs).2 = none := by decide +kernel
  unfold s1
  exact pair h
theorem bad2 : s1.add k2.hps k2.conds k2.forbs = (s2, some (.alreadyExists "k")) := by
  have h : (s1.add k2.hps k2.conds k2.forbs).2 = some (.alreadyExists "k") := by decide +kernel
  unfold s2
  exact pair h
theorem ok3 : s2.add k3.hps k3.conds k3.forbs = (s3, none) := by
  have h : (s2.add k3.hps k3.conds k3.forbs).2 = none := by decide +kernel
  unfold s3
  exact pair h
theorem tried : Attempts [(k1, none), (k2, some (.alreadyExists "k")), (k3, none)] s3 :=
  .snoc (hist := [(k1, none), (k2, some (.alreadyExists "k"))])
    (.snoc (hist := [(k1, none)]) (.snoc (hist := []) .nil (by decide +kernel) ok1) (by decide +kernel) bad2)
    (by decide +kernel) ok3

/-! A conjunction of which only the second parent is unknown. -/
def half : Cond := .and [.lit ⟨hpB, Ex.hpAlg, .bin .eq (.str "a") 0⟩, .lit ⟨hpB, hpQ, .bin .eq (.str "x") 0⟩]
def h1 : Call := ⟨[Ex.hpAlg, hpB], [], []⟩
def h2 : Call := ⟨[], [half], []⟩
def h3 : Call := ⟨[hpQ], [], []⟩
def t1 : Space := (({} : Space).add h1.hps h1.conds h1.forbs).1
def t2 : Space := (t1.add h2.hps h2.conds h2.forbs).1
def t3 : Space := (t2.add h3.hps h3.conds h3.forbs).1
theorem hok1 : ({} : Space).add h1.hps h1.conds h1.forbs = (t1, none) := by
  have h : (({} : Space).add h1.hps h1.conds h1.forbs).2 = none := by decide +kernel
  unfold t1
  exact pair h
theorem hbad2 : t1.add h2.hps h2.conds h2.forbs = (t2, some (.parentNotFound "q")) := by
  have h : (t1.add h2.hps h2.conds h2.forbs).2 = some (.parentNotFound "q") := by decide +kernel
  unfold t2
  exact pair h
theorem hok3 : t2.add h3.hps h3.conds h3.forbs = (t3, none) := by
  have h : (t2.add h3.hps h3.conds h3.forbs).2 = none := by decide +kernel
  unfold t3
  exact pair h
theorem htried : Attempts [(h1, none), (h2, some (.parentNotFound "q")), (h3, none)] t3 :=
  .snoc (hist := [(h1, none), (h2, some (.parentNotFound "q"))])
    (.snoc (hist := [(h1, none)]) (.snoc (hist := []) .nil (by decide +kernel) hok1) (by decide +kernel) hbad2)
    (by decide +kernel) hok3

end ExCa

/-- The batch was rejected because of its second `k`; its `x` and its first `k` are in the space that the next call
makes, and `k` has the condition that the next call brings. -/
example : ExCa.s3.names = ["alg", "c", "x", "k"] ∧
    ∃ kept, Stayed [ExCa.k1, ExCa.k2] kept ∧ ∃ t, Reach [together (kept ++ [ExCa.k3])] t ∧
      ∀ v al, ExCa.s3.check v al = t.check v al := by
  refine ⟨by decide +kernel, ?_⟩
  obtain ⟨kept, h1, _, h3⟩ := C122_after_failures_partial
    (hist := [(ExCa.k1, none), (ExCa.k2, some (.alreadyExists "k"))]) ExCa.tried (by
      intro x hx
      simp only [List.mem_cons, List.not_mem_nil, or_false] at hx
      rcases hx with rfl | rfl <;> simp [NotHalf])
  refine ⟨kept, h1, ?_⟩
  obtain ⟨t, ht, _, _, _, _, _, _, hc, _⟩ := h3 (by
    intro f hf
    rw [allForbs_snoc, List.mem_append] at hf
    rcases hf with hf | hf
    · have := Caught.stayed_forbs h1 f hf
      simp [allForbs, ExCa.k1, ExCa.k2] at this
    · simp [ExCa.k3] at hf)
  exact ⟨t, ht, hc⟩

/-- **C122 is false of the code:** a conjunction that is rejected because its second parent is unknown stays. If that
parent is added later, the space has the rejected condition, but the parent does not have the child. No history of
successful calls builds such a space. -/
theorem C122_half_condition_stays :
    ∃ (k1 k2 k3 : Call) (s : Space), Attempts [(k1, none), (k2, some (.parentNotFound "q")), (k3, none)] s ∧
      k1.conds = [] ∧ k3.conds = [] ∧ ((findNode s.com "b").bind Node.cond).map Cond.parents = some ["alg", "q"] ∧
      s.childrenOf "alg" = ["b"] ∧ s.childrenOf "q" = [] ∧ ¬ ∃ calls, Reach calls s := by
  have e1 : ((findNode ExCa.t3.com "b").bind Node.cond).map Cond.parents = some ["alg", "q"] := by decide +kernel
  have e2 : ExCa.t3.childrenOf "q" = [] := by decide +kernel
  refine ⟨ExCa.h1, ExCa.h2, ExCa.h3, ExCa.t3, ExCa.htried, rfl, rfl, e1, by decide +kernel, e2, ?_⟩
  rintro ⟨calls, hr⟩
  have hn := reach_ninv hr
  cases hc : condAt ExCa.t3.com "b" with
  | none =>
    simp only [condAt] at hc
    rw [hc] at e1
    simp at e1
  | some c =>
    have hp : c.parents = ["alg", "q"] := by
      have hc' := hc
      simp only [condAt] at hc'
      rw [hc'] at e1
      simpa using e1
    have := (hn.child "q" "b" c).2 ⟨hc, by rw [hp]; simp⟩
    have hE : Edge ExCa.t3.com "q" "b" := edge_iff_childAt.2 (by rw [this]; rfl)
    unfold Edge at hE
    unfold Space.childrenOf at e2
    rw [e2] at hE
    simp at hE

/-- **C122** (cycles). Once a call has been rejected with `CyclicDependancyError`, every later call fails, whatever it
brings: the rejected condition stays, and there is no order in which the default values could be computed.  (On such a
space the code may raise `RecursionError` where the model raises another exception; it does not return.) -/
theorem C122_cycle_blocks {hist later : List (Call × Option Err)} {s : Space} {k : Call}
    (h : Attempts (hist ++ (k, some .cyclic) :: later) s) : ∀ x ∈ later, x.2 ≠ none := by
  generalize hz : hist ++ (k, some .cyclic) :: later = zs at h
  induction h generalizing later with
  | nil => simp at hz
  | @snoc zs s s' k' o h0 hk ha ih =>
    rcases List.eq_nil_or_concat later with rfl | ⟨l, y, rfl⟩
    · simp
    · rw [List.concat_eq_append, ← List.cons_append, ← List.append_assoc] at hz
      obtain ⟨e1, e2⟩ := List.append_inj' hz rfl
      simp only [List.cons.injEq, and_true] at e2
      subst e2
      intro x hx
      rw [List.concat_eq_append, List.mem_append, List.mem_singleton] at hx
      rcases hx with hx | rfl
      · exact ih e1 x hx
      · subst e1
        exact (((Caught.attempts_calm h0).2 k (by simp)).add ha).2

/-- The rejected condition `alg | o == "mid"` closes a cycle; after it, adding the constant fails. -/
example : ∃ s s' : Space, Attempts [(Ex.callAB, none), (⟨[], [Ex.condBack], []⟩, some .cyclic)] s ∧
    s.add [Ex.hpC] [] [] = (s', some .keyError) ∧
    ∀ (k : Call) o t, k.wf → s.add k.hps k.conds k.forbs = (t, o) → o ≠ none := by
  have hA : ({} : Space).add Ex.callAB.hps Ex.callAB.conds Ex.callAB.forbs = (Ex.spAB, none) :=
    Ex.add_of_stages [("alg", some (.str "a")), ("o", some (.str "mid"))] [some 0, some 1]
      [("alg", .str "a"), ("o", .str "mid")]
      (by decide +kernel) (by decide +kernel) (by decide +kernel)
      (by decide +kernel) (by decide +kernel) (by decide +kernel)
  have hB := ExCa.pair (show (Ex.spAB.add [] [Ex.condBack] []).2 = some .cyclic by decide +kernel)
  have hC := ExCa.pair (show ((Ex.spAB.add [] [Ex.condBack] []).1.add [Ex.hpC] [] []).2 = some .keyError by decide +kernel)
  have h0 : Attempts [(Ex.callAB, none)] Ex.spAB := .snoc (hist := []) .nil (by decide +kernel) hA
  have h1 : Attempts ([(Ex.callAB, none)] ++ [(⟨[], [Ex.condBack], []⟩, some .cyclic)]) (Ex.spAB.add [] [Ex.condBack] []).1 :=
    .snoc h0 (by decide +kernel) hB
  refine ⟨_, _, h1, hC, ?_⟩
  intro k o t hk ha
  by_contra hne
  subst hne
  exact C122_cycle_blocks (hist := [(Ex.callAB, none)]) (k := ⟨[], [Ex.condBack], []⟩) (later := [(k, none)])
    (Attempts.snoc h1 hk ha) (k, none) (by simp) rfl

end Verif
