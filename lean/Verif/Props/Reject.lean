import Verif.Lemmas.Reject
import Verif.Examples

/-!
# C03, C07: which conditions are rejected
-/

set_option autoImplicit false

namespace Verif
open Verif.Spec

theorem parentRel_eq (calls : List Call) : parentRel (allConds calls) = ParentOf calls := by
  funext p c
  simp only [parentRel, ParentOf, parents_iff]

/-- **C03.** After any history of successful calls the parent relation has no cycle. -/
theorem C03_acyclic {calls : List Call} {s : Space} (h : Reach calls s) : Acyclic (ParentOf calls) := by
  rw [← parentRel_eq]
  exact (sinv_of_reach h).hist.acyclic

/-- **C03.** If a call (with any number of hyperparameters, conditions and clauses) raises
`CyclicDependancyError`, then the parent relation including the new conditions has a cycle. -/
theorem C03_cyclic_error_sound {calls : List Call} {s : Space} (h : Reach calls s) {k : Call}
    (hk : k.wf) (herr : (s.add k.hps k.conds k.forbs).2 = some .cyclic) :
    ¬ Acyclic (ParentOf (calls ++ [k])) := by
  have hi := sinv_of_reach h
  rw [add_structural (e := .cyclic) trivial] at herr
  have := addAll_cyclic hi.hist hk herr
  rw [← parentRel_eq]
  simpa [allConds] using this

/-- **C03.** Adding one condition between known hyperparameters, whose child has no different condition
yet, raises `CyclicDependancyError` exactly when the parent relation including it has a cycle. -/
theorem C03_cyclic_iff {calls : List Call} {s : Space} (h : Reach calls s) {c : Cond}
    (hc : c.wf = true)
    (hchild : ∃ n, childName c = some n ∧ Known calls n)
    (hparents : ∀ l ∈ c.dlcs, Known calls l.parent.name)
    (hsame : ∀ x ∈ allConds calls, childName x = childName c → c.pyEq x = true) :
    (s.add [] [c] []).2 = some .cyclic ↔ ¬ Acyclic (ParentOf (calls ++ [⟨[], [c], []⟩])) := by
  have hi := sinv_of_reach h
  refine ⟨fun herr => C03_cyclic_error_sound h (k := ⟨[], [c], []⟩)
    ⟨by simp, by simpa using hc, by simp⟩ herr, ?_⟩
  intro hcyc
  obtain ⟨n, hn, hkn⟩ := hchild
  obtain ⟨chp, hchp⟩ := wf_child hc
  have hname : chp.name = n := by simpa [childName, hchp] using hn
  rw [add_structural (e := .cyclic) trivial]
  have hV : ∀ n, IsNode s.dag.nodes n ↔ Known calls n := fun n => hi.hist.isNode n
  have e2 : (s.dag.addAll [] [c] []).2 = (addCondNodes s.dag.nodes c).2 := by
    simp only [Dag.addAll, runAll, Dag.addCondition]
    cases (addCondNodes s.dag.nodes c) with
    | mk a b => cases b <;> rfl
  rw [e2]
  rcases addCondNodes_cases hi.hist.ninv hchp with ⟨ns', k⟩ | ⟨k, hb⟩ | ⟨ns', p, k, hp, hb⟩ |
    ⟨ns', e, k, he, hb⟩ | ⟨ns', k, kc⟩
  · exfalso
    apply hcyc
    have := (hi.hist.addCondition hc (g' := { s.dag with nodes := ns' })
      (by simp [Dag.addCondition, k])).acyclic
    rw [← parentRel_eq]
    simpa [allConds] using this
  · exact absurd ((hV _).2 (hname ▸ hkn)) hb
  · obtain ⟨l, hl, rfl⟩ := parents_iff.1 hp
    exact absurd ((hV _).2 (hparents l hl)) hb
  · rw [hi.hist.cond] at he
    obtain ⟨h1, h2⟩ := lastCond_some he
    have := hsame e h1 (by rw [h2, hn, hname])
    rw [hb] at this; cases this
  · rw [k]

/-- `alg | x == 1.0`: would close the cycle alg → k → x → alg. -/
def Ex.litCyc : Lit := ⟨Ex.hpAlg, Ex.hpX, .bin .eq (.flt 1) (1/2)⟩

example : (Ex.sp1.add [] [.lit Ex.litCyc] []).2 = some .cyclic := by
  refine (C03_cyclic_iff Ex.reach1 (by decide +kernel) ⟨"alg", rfl, ?_⟩ ?_ ?_).2 ?_
  · exact ⟨Ex.hpAlg, by simp [allHps, Ex.call1], rfl⟩
  · intro l hl
    simp [Cond.dlcs] at hl
    subst hl
    exact ⟨Ex.hpX, by simp [allHps, Ex.call1], rfl⟩
  · intro x hx
    simp only [allConds, Ex.call1, List.flatMap_cons, List.flatMap_nil, List.append_nil,
      List.mem_cons, List.not_mem_nil, or_false] at hx
    rcases hx with rfl | rfl | rfl <;> decide +kernel
  · intro hac
    apply hac "alg"
    have hm : ∀ {c p ch}, c ∈ [Ex.condX, Ex.condK, Ex.condO, .lit Ex.litCyc] →
        childName c = some ch → (∃ l ∈ c.dlcs, l.parent.name = p) →
        ParentOf ([Ex.call1] ++ [⟨[], [.lit Ex.litCyc], []⟩]) p ch := by
      intro c p ch h1 h2 h3
      exact ⟨c, by simpa [allConds, Ex.call1, or_assoc] using h1, h2, h3⟩
    have e1 : ParentOf ([Ex.call1] ++ [⟨[], [.lit Ex.litCyc], []⟩]) "alg" "k" :=
      hm (c := Ex.condK) (by simp) rfl ⟨Ex.litK, by simp [Ex.condK, Cond.dlcs], rfl⟩
    have e2 : ParentOf ([Ex.call1] ++ [⟨[], [.lit Ex.litCyc], []⟩]) "k" "x" :=
      hm (c := Ex.condX) (by simp) rfl ⟨Ex.litX, by simp [Ex.condX, Cond.dlcs, Cond.dlcsL], rfl⟩
    have e3 : ParentOf ([Ex.call1] ++ [⟨[], [.lit Ex.litCyc], []⟩]) "x" "alg" :=
      hm (c := .lit Ex.litCyc) (by simp) rfl ⟨Ex.litCyc, by simp [Cond.dlcs], rfl⟩
    exact .cons e1 (.cons e2 (.edge e3))

/-- **C07.** A condition that differs from a condition added earlier for the same child is rejected with
`AmbiguousConditionError`. -/
theorem C07_second_condition_rejected {calls : List Call} {s : Space} (h : Reach calls s) {c x : Cond}
    (hc : c.wf = true) (hx : x ∈ allConds calls) (hch : childName x = childName c)
    (hne : c.pyEq x = false) : (s.add [] [c] []).2 = some .ambiguous := by
  have hi := sinv_of_reach h
  obtain ⟨chp, hchp⟩ := wf_child hc
  have hxn : childName x = some chp.name := by rw [hch]; simp [childName, hchp]
  rw [add_structural (e := .ambiguous) trivial]
  have e2 : (s.dag.addAll [] [c] []).2 = (addCondNodes s.dag.nodes c).2 := by
    simp only [Dag.addAll, runAll, Dag.addCondition]
    cases (addCondNodes s.dag.nodes c) with
    | mk a b => cases b <;> rfl
  rw [e2]
  cases hd : condAt s.dag.nodes chp.name with
  | none =>
    rw [hi.hist.cond, lastCond_none] at hd
    exact absurd hxn (hd x hx)
  | some d =>
    have hdx : d.pyEq x = true := by
      cases hxc : x.child? with
      | none => simp [childName, hxc] at hxn
      | some xh =>
        have e : xh.name = chp.name := by simpa [childName, hxc] using hxn
        exact hi.hist.same x hx xh hxc d (e ▸ hd)
    rw [addCondNodes_ambiguous hchp hd ?_]
    cases hcd : c.pyEq d with
    | false => rfl
    | true => rw [Cond.pyEq_trans hcd hdx] at hne; cases hne

example : (Ex.sp1.add [] [.lit Ex.litX'] []).2 = some .ambiguous :=
  C07_second_condition_rejected Ex.reach1 (x := Ex.condX) (by decide +kernel)
    (by simp [allConds, Ex.call1]) rfl (by decide +kernel)

end Verif
