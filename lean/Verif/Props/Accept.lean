import Verif.Lemmas.Readd
import Verif.Examples

/-!
# C07, C58: which calls of `add` are accepted
-/

set_option autoImplicit false

namespace Verif
open Verif.Spec

variable {calls : List Call} {s : Space} {k : Call}

/-- **C58.** After any history, a call of `add` (any number of hyperparameters, conditions and clauses) raises one
of the errors for arguments that do not fit exactly if the arguments do not fit: if a name is taken or occurs twice,
a condition or clause mentions an unknown hyperparameter, a child would get two unequal conditions, or the parent
relation would have a cycle. -/
theorem C58_misfit_error_iff (h : Reach calls s) (hk : k.wf) :
    (∃ e, (s.add k.hps k.conds k.forbs).2 = some e ∧ MisfitError e) ↔ ¬ Fits calls k := by
  constructor
  · rintro ⟨e, he, hm⟩ hf
    obtain ⟨g, hg, _⟩ := addAll_ok h hk hf
    rw [add_structural (misfit_structural.1 hm), hg] at he
    cases he
  · intro hf
    cases ha : s.dag.addAll k.hps k.conds k.forbs with
    | mk g o =>
      cases o with
      | none =>
        exfalso
        have hi := HInv.addAll (sinv_of_reach h).hist hk ha
        rw [← allHps_snoc, ← allConds_snoc, ← allForbs_snoc] at hi
        exact hf (fits_of_hinv hi hk.2.1)
      | some e =>
        have hm := addAll_errs h hk ha
        exact ⟨e, by rw [add_structural (misfit_structural.1 hm), ha], hm⟩

/-- **C58.** A call that succeeds fits. -/
theorem C58_success_fits (h : Reach calls s) (hk : k.wf) {s' : Space}
    (ha : s.add k.hps k.conds k.forbs = (s', none)) : Fits calls k := by
  apply Classical.byContradiction
  intro hf
  obtain ⟨e, he, _⟩ := (C58_misfit_error_iff h hk).2 hf
  rw [ha] at he
  cases he

/-- **C58.** A call that fits, with clauses over hyperparameters of the space and without an empty conjunction of
clauses, is decided by the default configuration of the resulting space alone: it succeeds exactly if that default
configuration can be built, and otherwise raises the error of building it. -/
theorem C58_fitting_call (h : Reach calls s) (hk : k.wf) (hf : Fits calls k) (hown : OwnClauses (calls ++ [k]))
    (hne : NoEmptyClause (allForbs (calls ++ [k]))) :
    ∃ s', (s.add k.hps k.conds k.forbs).1 = s' ∧
      (∀ e, (s.add k.hps k.conds k.forbs).2 = some e ↔ s'.defaultConfig = .error e) ∧
      ((s.add k.hps k.conds k.forbs).2 = none ↔ ∃ c, s'.defaultConfig = .ok c) := by
  obtain ⟨s', _, ha⟩ := add_candidate h hk hf hown hne
  refine ⟨s', by rw [ha], ?_⟩
  rw [ha]
  cases hd : s'.defaultConfig with
  | error e => simp
  | ok c => simp

/-- **C58.** A space without conditions and clauses accepts every list of valid hyperparameters with new names. -/
theorem C58_fresh_hyperparameters (h : Reach calls s) (hc : allConds calls = []) (hf : allForbs calls = []) (hps : List HP)
    (hw : ∀ x ∈ hps, x.wf = true) (hnd : ((allHps calls ++ hps).map HP.name).Nodup) :
    (s.add hps [] []).2 = none := by
  have e1 : allConds (calls ++ [⟨hps, [], []⟩]) = [] := by rw [allConds_snoc, hc]; rfl
  have e2 : allForbs (calls ++ [⟨hps, [], []⟩]) = [] := by rw [allForbs_snoc, hf]; rfl
  have hk : Call.wf ⟨hps, [], []⟩ := ⟨hw, by simp, by simp⟩
  have hac : Acyclic (ParentOf (calls ++ [⟨hps, [], []⟩])) := by
    rw [← parentRel_iff, e1, ← hc]
    exact (sinv_of_reach h).hist.acyclic
  obtain ⟨s', p, ha⟩ := add_candidate h hk
    ⟨by rw [allHps_snoc]; exact hnd, by simp, by simp, by simp, hac, by simp⟩
    (by intro f hf'; rw [e2] at hf'; cases hf') (by intro hf'; rw [e2] at hf'; cases hf')
  rw [e1, e2] at p
  obtain ⟨c, hc⟩ := plain_default p (by
    intro x hx
    rw [allHps_snoc, List.mem_append] at hx
    exact hx.elim ((reach_wf h).1 x) (hw x))
  rw [hc] at ha
  exact congrArg Prod.snd ha

/-- **C07** (partial: the conditions, also those added again, are built from the hyperparameters of the space; see
`C07_equal_condition_changes_check`). Adding again conditions that are equal to conditions added earlier, and clauses that were added earlier,
succeeds; the hyperparameters with their order are the same afterwards, the condition of each hyperparameter is equal
to the one it had, and checking vectors, building configurations from values, and the default configuration give the
same results and errors as before. -/
theorem C07_equal_condition_accepted_partial (h : Reach calls s) (hown : OwnClauses calls) (hoc : OwnConds (calls ++ [k]))
    (hk : k.wf) (hr : Repeats calls k) :
    ∃ s', s.add k.hps k.conds k.forbs = (s', none) ∧ s'.com.map Node.hp = s.com.map Node.hp ∧
      (∀ n c, condAt s.com n = some c → ∃ c', condAt s'.com n = some c' ∧ c.pyEq c' = true) ∧
      (∀ n, condAt s.com n = none → condAt s'.com n = none) ∧
      (∀ v al, s'.check v al = s.check v al) ∧
      (∀ d al, Config.ofValues s' d al = Config.ofValues s d al) ∧ s'.defaultConfig = s.defaultConfig := by
  obtain ⟨s', ha, h', hrel, k1, k2, k3⟩ := readd h hown hoc hk hr
  have hc : ∀ n, (condAt s.com n = none ∧ condAt s'.com n = none) ∨
      ∃ c c', condAt s.com n = some c ∧ condAt s'.com n = some c' ∧ c.pyEq c' = true := by
    intro n
    unfold condAt findNode
    clear k1 k2 k3 ha h'
    generalize s.com = ns at hrel
    generalize s'.com = ns' at hrel
    induction hrel with
    | nil => exact .inl ⟨rfl, rfl⟩
    | cons hx _ ih =>
      rw [List.find?_cons, List.find?_cons, hx.name]
      split
      · rcases hx.2.2 with ⟨e1, e2⟩ | ⟨c, c', e1, e2, e3, _⟩
        · exact .inl ⟨by simp [e1], by simp [e2]⟩
        · exact .inr ⟨c, c', by simp [e1], by simp [e2], e3⟩
      · exact ih
  refine ⟨s', ha, (rel_hps hrel).symm, ?_, ?_, fun v al => (k1 v al).symm, fun d al => (k2 d al).symm, k3.symm⟩
  · intro n c hn
    rcases hc n with ⟨e1, _⟩ | ⟨d, c', e1, e2, e3⟩
    · rw [e1] at hn; cases hn
    · rw [e1] at hn; cases hn; exact ⟨c', e2, e3⟩
  · intro n hn
    rcases hc n with ⟨_, e2⟩ | ⟨d, c', e1, _⟩
    · exact e2
    · rw [e1] at hn; cases hn

namespace Ex

/-- The condition of `x` with its components swapped and `2.0` for `2`. -/
def condX' : Cond := .and [.lit litX', .lit ⟨hpX, hpK, .bin .gt (.flt 2) (1/9)⟩]

def callAgain : Call := ⟨[], [condX', condO], [forb2]⟩

theorem own1 : OwnClauses [call1] := by
  intro f hf h hh
  simp only [allForbs, List.flatMap_cons, List.flatMap_nil, List.append_nil, call1, List.mem_cons,
    List.not_mem_nil, or_false] at hf
  rcases hf with rfl | rfl <;> revert h <;> decide +kernel

theorem ownAgain : OwnConds ([call1] ++ [callAgain]) := by
  intro c hc l hl
  simp only [allConds, List.flatMap_cons, List.flatMap_nil, List.append_nil, List.cons_append, List.nil_append, call1, callAgain,
    List.mem_cons, List.not_mem_nil, or_false] at hc
  rcases hc with rfl | rfl | rfl | rfl | rfl <;> revert l <;> decide +kernel

theorem ownC1 : OwnConds [call1] := by
  intro c hc l hl
  simp only [allConds, List.flatMap_cons, List.flatMap_nil, List.append_nil, call1, List.mem_cons,
    List.not_mem_nil, or_false] at hc
  rcases hc with rfl | rfl | rfl <;> revert l <;> decide +kernel

theorem repeats1 : Repeats [call1] callAgain := by
  refine ⟨rfl, ?_, ?_⟩
  · intro c hc
    simp only [callAgain, List.mem_cons, List.not_mem_nil, or_false] at hc
    rcases hc with rfl | rfl
    · exact ⟨condX, by simp [allConds, call1], by decide +kernel⟩
    · exact ⟨condO, by simp [allConds, call1], by decide +kernel⟩
  · intro f hf
    simp only [callAgain, List.mem_cons, List.not_mem_nil, or_false] at hf
    subst hf
    simp [allForbs, call1]

/-- The hypotheses of `C07_equal_condition_accepted_partial` are met by a call whose conditions are equal but not
identical to the earlier ones. -/
example : ∃ s', sp1.add [] [condX', condO] [forb2] = (s', none) ∧ s'.com.map Node.hp = sp1.com.map Node.hp := by
  obtain ⟨s', h1, h2, _⟩ := C07_equal_condition_accepted_partial reach1 own1 ownAgain (k := callAgain) (by decide +kernel) repeats1
  exact ⟨s', h1, h2⟩

/-- A call that fits, and one that does not. -/
example : Fits [call1] callAgain := C58_success_fits reach1 (by decide +kernel)
  (C07_equal_condition_accepted_partial reach1 own1 ownAgain (k := callAgain) (by decide +kernel) repeats1).choose_spec.1

example : ¬ Fits [call1] ⟨[], [.lit litX], []⟩ := by
  intro hf
  have := hf.single (.lit litX) (by simp) condX (by simp [allConds, call1]) (by decide +kernel)
  revert this
  decide +kernel

/-- The hypotheses of `C58_fitting_call` are met by a call whose default is forbidden: the error is the one of the
default configuration. -/
def callFD : Call := ⟨[hpAlg], [], [.eq hpAlg (.str "a") 0]⟩

theorem fitsFD : Fits [] callFD := by
  refine ⟨by simp [allHps, callFD], by simp [callFD], by simp [callFD], by simp [callFD], ?_, ?_⟩
  · have e : allConds ([] ++ [callFD]) = allConds [] := by simp [allConds, callFD]
    rw [← parentRel_iff, e]
    exact (sinv_of_reach Reach.nil).hist.acyclic
  · intro f hf n hn
    simp only [callFD, List.mem_cons, List.not_mem_nil, or_false] at hf
    subst hf
    simp only [Forb.names, List.mem_cons, List.not_mem_nil, or_false] at hn
    subst hn
    exact ⟨hpAlg, by simp [allHps, callFD], rfl⟩

theorem ownFD : OwnClauses ([] ++ [callFD]) := by
  intro f hf h hh
  simp only [allForbs, List.flatMap_cons, List.flatMap_nil, List.append_nil, callFD, List.mem_cons,
    List.not_mem_nil, or_false, List.nil_append] at hf
  subst hf
  revert h
  decide +kernel

theorem errFD : (({} : Space).add callFD.hps callFD.conds callFD.forbs).2 = some .forbidden := by decide +kernel

example : (({} : Space).add callFD.hps callFD.conds callFD.forbs).1.defaultConfig = .error .forbidden := by
  obtain ⟨s', h1, h2, _⟩ := C58_fitting_call Reach.nil (k := callFD) (by decide +kernel) fitsFD ownFD
    (by simp [NoEmptyClause, allForbs, callFD])
  rw [h1]
  exact (h2 _).1 errFD

/-- An empty conjunction of clauses, which fits, is not accepted: the commit fails. -/
example : (({} : Space).add [] [] [.and []]).2 = some .valueError := by decide +kernel

/-- `C58_fresh_hyperparameters` applies to a non-empty space. -/
example : (sp1a.add [hpK, hpX] [] []).2 = none :=
  C58_fresh_hyperparameters reach1a (by simp [allConds, call1a]) (by simp [allForbs, call1a]) _
    (by decide +kernel) (by decide +kernel)

end Ex

namespace ExO
open Ex

/-- A categorical `p` with three choices, and an equal one with the choices in another order; the default is the last. -/
def p : HP := ⟨"p", .cat [.str "a", .str "b", .str "c"], .str "c"⟩
def p' : HP := ⟨"p", .cat [.str "b", .str "a", .str "c"], .str "c"⟩
def q : HP := ⟨"q", .cat [.str "u", .str "v"], .str "u"⟩
def cond : Cond := .lit ⟨q, p, .bin .eq (.str "a") 0⟩
def cond' : Cond := .lit ⟨q, p', .bin .eq (.str "a") 1⟩
def callO : Call := ⟨[p, q], [cond], []⟩
def callO' : Call := ⟨[], [cond'], []⟩
def sp : Space := committed {} callO
def sp' : Space := committed sp callO'

theorem reachO : Reach [callO] sp := Reach.snoc (calls := []) .nil (by decide +kernel)
  (add_of_stages [("p", some (.str "c")), ("q", none)] [some 2, none] [("p", .str "c")]
    (by decide +kernel) (by decide +kernel) (by decide +kernel) (by decide +kernel) (by decide +kernel) (by decide +kernel))

theorem addO' : sp.add callO'.hps callO'.conds callO'.forbs = (sp', none) :=
  add_of_stages [("p", some (.str "c")), ("q", none)] [some 2, none] [("p", .str "c")]
    (by decide +kernel) (by decide +kernel) (by decide +kernel) (by decide +kernel) (by decide +kernel) (by decide +kernel)

/-- `p` and `p'` again, with default `"a"`. -/
def pa : HP := { p with default := .str "a" }
def pa' : HP := { p' with default := .str "a" }
def callA : Call := ⟨[pa, q], [.lit ⟨q, pa, .bin .eq (.str "a") 0⟩], []⟩
def callA' : Call := ⟨[], [.lit ⟨q, pa', .bin .eq (.str "a") 1⟩], []⟩
def spA : Space := committed {} callA

theorem reachA : Reach [callA] spA := Reach.snoc (calls := []) .nil (by decide +kernel)
  (add_of_stages [("p", some (.str "a")), ("q", some (.str "u"))] [some 0, some 0] [("p", .str "a"), ("q", .str "u")]
    (by decide +kernel) (by decide +kernel) (by decide +kernel) (by decide +kernel) (by decide +kernel) (by decide +kernel))

theorem repeatsO : Repeats [callO] callO' :=
  ⟨rfl, by
    intro c hc
    simp only [callO', List.mem_cons, List.not_mem_nil, or_false] at hc
    subst hc
    exact ⟨cond, by simp [allConds, callO], by decide +kernel⟩, by simp [callO']⟩

theorem repeatsA : Repeats [callA] callA' :=
  ⟨rfl, by
    intro c hc
    simp only [callA', List.mem_cons, List.not_mem_nil, or_false] at hc
    subst hc
    exact ⟨_, List.mem_singleton.2 rfl, by decide +kernel⟩, by simp [callA']⟩

end ExO

/-- **C07 fails** for conditions on an equal parent whose choices come in another order: adding such an equal condition
is accepted, and afterwards a vector that was accepted is rejected. -/
theorem C07_equal_condition_changes_check : ∃ calls s k s' v, Reach calls s ∧ OwnConds calls ∧ k.wf ∧ Repeats calls k ∧
    s.add k.hps k.conds k.forbs = (s', none) ∧ s.check v = none ∧ s'.check v ≠ none :=
  ⟨_, _, _, _, [some 0, some 0], ExO.reachO, by unfold OwnConds; decide +kernel, by decide +kernel, ExO.repeatsO, ExO.addO', by decide +kernel,
    by decide +kernel⟩

/-- **C07 fails**: adding an equal condition may also raise an error. -/
theorem C07_equal_condition_raises : ∃ calls s k, Reach calls s ∧ OwnConds calls ∧ k.wf ∧ Repeats calls k ∧
    (s.add k.hps k.conds k.forbs).2 ≠ none :=
  ⟨_, _, _, ExO.reachA, by unfold OwnConds; decide +kernel, by decide +kernel, ExO.repeatsA, by decide +kernel⟩

end Verif
