import Verif.Lemmas.Subst
import Verif.Examples
import Verif.Props.Accept

/-!
# C43, C59: substitution of hyperparameters and removal of priors
-/

set_option autoImplicit false

namespace Verif
open Verif.Spec

variable {calls : List Call} {s : Space}

/-- **C43.** Substituting the hyperparameters of a literal condition, or of one conjunction of literals, by those of a
space with the same hyperparameters gives the same condition. -/
theorem C43_flat_conditions (h : Reach calls s) {c : Cond} (hw : c.wf = true) (hm : CondIn s c) (hf : Flat c) :
    substCond s c = .ok c := substCond_flat (looked h) hf hw hm

/-- **C43**, conditions, partial: for conditions nested to any depth with one type of conjunction, the substituted
condition holds under the same assignments.  Missing: And and Or nested in each other, for which it is false (next
theorem). -/
theorem C43_conditions_partial (h : Reach calls s) {c : Cond} (hw : c.wf = true) (hm : CondIn s c)
    (ht : AllAnd c ∨ AllOr c) : ∃ c', substCond s c = .ok c' ∧ ∀ a, Holds a c' ↔ Holds a c := by
  have hl := looked h
  rcases ht with ht | ht
  · cases ht with
    | lit l => exact ⟨_, substCond_lit hl hw hm, fun _ => Iff.rfl⟩
    | @and cs ht =>
      refine ⟨_, substCond_and hl hw hm, fun a => ?_⟩
      rw [holds_allAnd (.and ht), holds_allAnd (.and (by
        intro d hd
        obtain ⟨l, _, rfl⟩ := List.mem_map.1 hd
        exact .lit l))]
      simp only [Cond.dlcs, dlcsL_lits]
  · cases ht with
    | lit l => exact ⟨_, substCond_lit hl hw hm, fun _ => Iff.rfl⟩
    | @or cs ht =>
      refine ⟨_, substCond_or hl hw hm, fun a => ?_⟩
      rw [holds_allOr (.or ht), holds_allOr (.or (by
        intro d hd
        obtain ⟨l, _, rfl⟩ := List.mem_map.1 hd
        exact .lit l))]
      simp only [Cond.dlcs, dlcsL_lits]

/-- **C43.** Into any space: if the substitution succeeds, the literals of the result are, in order, about the
namesakes in the new space, with the old operators and values. -/
theorem C43_literals {c c' : Cond} (hs : substCond s c = .ok c') : List.Forall₂ (Namesake s) c.dlcs c'.dlcs :=
  substCond_namesake hs

/-- **C43.** Substituting the hyperparameters of a clause, nested to any depth, by those of a space with the same
hyperparameters gives the same clause. -/
theorem C43_clauses (h : Reach calls s) {f : Forb} (hw : f.wf = true) (hm : ForbIn s f) : substForb s f = .ok f :=
  substForb_own (looked h) hw hm

/-- **C59.** `remove_hyperparameter_priors` succeeds on every space whose conditions are literals or single
conjunctions of literals, and print differently; the result has the same hyperparameters in the same order, the same
conditions and clauses, and accepts and rejects the same vectors and values with the same errors. -/
theorem C59_remove_priors_partial (h : Reach calls s) (hoc : OwnConds calls) (hown : OwnClauses calls)
    (hp : PrintApart calls) (hf : ∀ c ∈ allConds calls, Flat c) :
    ∃ s', s.removePriors = .ok s' ∧ s'.com.map Node.hp = s.com.map Node.hp ∧
      s'.com.map Node.cond = s.com.map Node.cond ∧ s'.forbs = s.forbs ∧
      (∀ v al, s'.check v al = s.check v al) ∧ (∀ d al, Config.ofValues s' d al = Config.ofValues s d al) ∧
      s'.defaultConfig = s.defaultConfig := by
  obtain ⟨s1, s2, ha, h1, hb, h2, hcore, hperm, k1, k2, k3⟩ := rebuild h hown
  have hw := reach_wf h
  have e1 : mapExcept HP.toUniform (s.com.map Node.hp) = .ok (s.com.map Node.hp) := by
    apply mapExcept_id
    intro x hx
    exact toUniform_self (hw.1 x ((hps_perm h).mem_iff.1 hx))
  have hmem1 : ∀ x, x ∈ allHps calls → x ∈ s1.com.map Node.hp := by
    intro x hx
    apply (hps_perm h1).mem_iff.2
    simp only [allHps, List.flatMap_cons, List.flatMap_nil, List.append_nil, Space.hpCall]
    exact (hps_perm h).mem_iff.2 hx
  have e2 : substConds s1 s.conditions = .ok s.ruleCall.conds := by
    rw [conditions_eq h hp]
    apply mapExcept_id
    intro c hc
    obtain ⟨_, _, _, hc', _⟩ := mem_nodeConds h hc
    refine substCond_flat (looked h1) (hf c hc') (hw.2.1 c hc') ?_
    intro l hl
    exact ⟨hmem1 _ (hoc c hc' l hl).1, hmem1 _ (hoc c hc' l hl).2⟩
  have e3 : substForbs s1 s.forbs = .ok s.ruleCall.forbs := by
    apply substForbs_id
    intro f hf'
    have hf' := (mem_forbs h f).1 hf'
    exact substForb_own (looked h1) (hw.2.2 f hf') fun x hx => hmem1 x (hown f hf' x hx)
  have ha' : ({} : Space).add (s.com.map Node.hp) [] [] = (s1, none) := ha
  refine ⟨s2, ?_, ?_, ?_, hperm, k1, k2, k3⟩
  · simp only [Space.removePriors, e1, ha', e2, e3, hb]
  · have := congrArg (List.map (fun c : HP × Nat × Option Cond => c.1)) hcore
    simpa [Function.comp_def, Node.core] using this
  · have := congrArg (List.map (fun c : HP × Nat × Option Cond => c.2.2)) hcore
    simpa [Function.comp_def, Node.core] using this

/-- **C59.** Conditions print differently whenever no name has a bar or an opening parenthesis. -/
theorem C59_plain_names_print_apart (h : Reach calls s) (hoc : OwnConds calls)
    (hp : ∀ x ∈ allHps calls, PlainName x.name) : PrintApart calls := printApart_of_plain h hoc hp

namespace Ex

def hp01 (n : Name) : HP := ⟨n, .cat [.int 0, .int 1], .int 0⟩
def is1 (n m : Name) : Lit := ⟨hp01 n, hp01 m, .bin .eq (.int 1) 1⟩

/-- `x` is active if `p` is 1, and one of `q` and `r` is. -/
def condMix : Cond := .and [.lit (is1 "x" "p"), .or [.lit (is1 "x" "q"), .lit (is1 "x" "r")]]
def callMix : Call := ⟨[hp01 "p", hp01 "q", hp01 "r", hp01 "x"], [condMix], []⟩
def spMix : Space := committed {} callMix

theorem reachMix : Reach [callMix] spMix :=
  Reach.snoc (calls := []) .nil (by decide +kernel)
    (add_of_stages [("p", some (.int 0)), ("q", some (.int 0)), ("r", some (.int 0)), ("x", none)]
      [some 0, some 0, some 0, none] [("p", .int 0), ("q", .int 0), ("r", .int 0)]
      (by decide +kernel) (by decide +kernel) (by decide +kernel) (by decide +kernel) (by decide +kernel)
      (by decide +kernel))

/-- What the substitution makes of it. -/
def condFlat : Cond := .and [.lit (is1 "x" "p"), .lit (is1 "x" "q"), .lit (is1 "x" "r")]

theorem condIn_mix : CondIn spMix condMix := by
  intro l hl
  have : ∀ l ∈ condMix.dlcs, l.parent ∈ callMix.hps ∧ l.child ∈ callMix.hps := by decide +kernel
  have e : allHps [callMix] = callMix.hps := by simp [allHps]
  have hm : ∀ x ∈ callMix.hps, x ∈ spMix.com.map Node.hp := by
    intro x hx
    exact (hps_perm reachMix).mem_iff.2 (e ▸ hx)
  exact ⟨hm _ (this l hl).1, hm _ (this l hl).2⟩

theorem hps_mix : spMix.com.map Node.hp = callMix.hps := by decide +kernel

def callMix1 : Call := ⟨callMix.hps, [], []⟩
def spMix1 : Space := committed {} callMix1
def callMix2 : Call := ⟨[], [condFlat], []⟩
def spMix2 : Space := committed spMix1 callMix2

theorem addMix1 : ({} : Space).add callMix1.hps callMix1.conds callMix1.forbs = (spMix1, none) :=
  add_of_stages [("p", some (.int 0)), ("q", some (.int 0)), ("r", some (.int 0)), ("x", some (.int 0))]
    [some 0, some 0, some 0, some 0] [("p", .int 0), ("q", .int 0), ("r", .int 0), ("x", .int 0)]
    (by decide +kernel) (by decide +kernel) (by decide +kernel) (by decide +kernel) (by decide +kernel)
    (by decide +kernel)

theorem reachMix1 : Reach [callMix1] spMix1 := Reach.snoc (calls := []) .nil (by decide +kernel) addMix1

theorem addMix2 : spMix1.add callMix2.hps callMix2.conds callMix2.forbs = (spMix2, none) :=
  add_of_stages [("p", some (.int 0)), ("q", some (.int 0)), ("r", some (.int 0)), ("x", none)]
    [some 0, some 0, some 0, none] [("p", .int 0), ("q", .int 0), ("r", .int 0)]
    (by decide +kernel) (by decide +kernel) (by decide +kernel) (by decide +kernel) (by decide +kernel)
    (by decide +kernel)

theorem conditions_mix : spMix.conditions = [condMix] := by rfl

theorem removeMix : spMix.removePriors = .ok spMix2 := by
  have e1 : mapExcept HP.toUniform (spMix.com.map Node.hp) = .ok callMix1.hps := by
    rw [hps_mix]
    apply mapExcept_id
    intro x hx
    exact toUniform_self ((reach_wf reachMix).1 x (by simpa [allHps] using hx))
  have hin : CondIn spMix1 condMix := by
    intro l hl
    have : ∀ l ∈ condMix.dlcs, l.parent ∈ callMix1.hps ∧ l.child ∈ callMix1.hps := by decide +kernel
    have e : spMix1.com.map Node.hp = callMix1.hps := by decide +kernel
    rw [e]
    exact this l hl
  have e2 : substConds spMix1 spMix.conditions = .ok callMix2.conds := by
    rw [conditions_mix]
    simp only [substConds, mapExcept]
    rw [show substCond spMix1 condMix = .ok condFlat from
      substCond_and (looked reachMix1) (by decide +kernel) hin]
    rfl
  have e3 : substForbs spMix1 spMix.forbs = .ok callMix2.forbs := by rfl
  have a1 : ({} : Space).add callMix1.hps [] [] = (spMix1, none) := addMix1
  have a2 : spMix1.add [] callMix2.conds callMix2.forbs = (spMix2, none) := addMix2
  simp only [Space.removePriors, e1, a1, e2, e3, a2]

/-- The hypotheses of `C59_remove_priors_partial` are met by the space of `Ex.reach1`. -/
theorem apart1 : PrintApart [call1] := C59_plain_names_print_apart reach1 ownC1 (by
  intro x hx
  have : ∀ x ∈ call1.hps, '|' ∉ x.name.toList ∧ '(' ∉ x.name.toList := by decide +kernel
  exact this x (by simpa [allHps] using hx))

theorem flat1 : ∀ c ∈ allConds [call1], Flat c := by
  intro c hc
  simp only [allConds, List.flatMap_cons, List.flatMap_nil, List.append_nil, call1, List.mem_cons,
    List.not_mem_nil, or_false] at hc
  rcases hc with rfl | rfl | rfl
  · exact .and [litX, litX']
  · exact .lit litK
  · exact .lit litO

example : ∃ s', sp1.removePriors = .ok s' := by
  obtain ⟨s', h, _⟩ := C59_remove_priors_partial reach1 ownC1 own1 apart1 flat1
  exact ⟨s', h⟩

/-- `C43_clauses` and `C43_flat_conditions` apply to the clauses and conditions of this space. -/
theorem members1 {x : HP} (hx : x ∈ call1.hps) : x ∈ sp1.com.map Node.hp :=
  (hps_perm reach1).mem_iff.2 (by simpa [allHps] using hx)

example : substForb sp1 forb1 = .ok forb1 := C43_clauses reach1 (by decide +kernel) (by
  intro h hh
  have : ∀ h ∈ clauseHps forb1, h ∈ call1.hps := by decide +kernel
  exact members1 (this h hh))

example : substCond sp1 condX = .ok condX := C43_flat_conditions reach1 (by decide +kernel) (by
  intro l hl
  have : ∀ l ∈ condX.dlcs, l.parent ∈ call1.hps ∧ l.child ∈ call1.hps := by decide +kernel
  exact ⟨members1 (this l hl).1, members1 (this l hl).2⟩) (.and [litX, litX'])

/-- `C43_conditions_partial` applies to a nested condition. -/
def condNest : Cond := .or [.lit (is1 "x" "p"), .or [.lit (is1 "x" "q"), .lit (is1 "x" "r")]]

example : ∃ c', substCond spMix condNest = .ok c' ∧ ∀ a, Holds a c' ↔ Holds a condNest := by
  refine C43_conditions_partial reachMix (by decide +kernel) ?_ (.inr ?_)
  · intro l hl
    have : ∀ l ∈ condNest.dlcs, l.parent ∈ callMix.hps ∧ l.child ∈ callMix.hps := by decide +kernel
    rw [hps_mix]
    exact this l hl
  · refine .or ?_
    intro c hc
    simp only [List.mem_cons, List.not_mem_nil, or_false] at hc
    rcases hc with rfl | rfl
    · exact .lit _
    · refine .or ?_
      intro c hc
      simp only [List.mem_cons, List.not_mem_nil, or_false] at hc
      rcases hc with rfl | rfl <;> exact .lit _

/-- Two conditions that print as `a | b | c == 1`. -/
def condP1 : Cond := .lit (is1 "a" "b | c")
def condP2 : Cond := .lit (is1 "a | b" "c")
def callP : Call := ⟨[hp01 "a", hp01 "b | c", hp01 "a | b", hp01 "c"], [condP1, condP2], []⟩
def spP : Space := committed {} callP

theorem reachP : Reach [callP] spP :=
  Reach.snoc (calls := []) .nil (by decide +kernel)
    (add_of_stages [("b | c", some (.int 0)), ("c", some (.int 0)), ("a", none), ("a | b", none)]
      [some 0, some 0, none, none] [("b | c", .int 0), ("c", .int 0)]
      (by decide +kernel) (by decide +kernel) (by decide +kernel) (by decide +kernel) (by decide +kernel)
      (by decide +kernel))

end Ex

/-- **C43** is false for And and Or nested in each other: the condition `p is 1 and (q is 1 or r is 1)` becomes
`p is 1 and q is 1 and r is 1`. -/
theorem C43_mixed_conjunction_changes_meaning : ∃ (calls : List Call) (s : Space) (c c' : Cond) (a : Assign),
    Reach calls s ∧ c ∈ allConds calls ∧ c.wf = true ∧ CondIn s c ∧ substCond s c = .ok c' ∧
    Holds a c ∧ ¬ Holds a c' := by
  refine ⟨[Ex.callMix], Ex.spMix, Ex.condMix, Ex.condFlat, fun n => if n = "r" then some 0 else some 1, Ex.reachMix,
    by simp [allConds, Ex.callMix], by decide +kernel, Ex.condIn_mix, ?_, ?_, ?_⟩
  · exact substCond_and (looked Ex.reachMix) (by decide +kernel) Ex.condIn_mix
  · refine .and ?_
    intro c hc
    simp only [List.mem_cons, List.not_mem_nil, or_false] at hc
    rcases hc with rfl | rfl
    · exact .lit (by simp [LitHolds, Ex.is1, Ex.hp01])
    · exact .or List.mem_cons_self (.lit (by simp [LitHolds, Ex.is1, Ex.hp01]))
  · rintro ⟨⟩
    rename_i hh
    have := hh (.lit (Ex.is1 "x" "r")) (by simp)
    cases this with
    | lit h => simp [LitHolds, Ex.is1, Ex.hp01] at h

/-- Conditions of different children that print alike are listed once by `space.conditions`, so the other one is lost
in everything that is made from this list (removal of priors, serialisation). -/
theorem C59_conditions_that_print_alike : ∃ (calls : List Call) (s : Space), Reach calls s ∧
    (∃ c ∈ allConds calls, ∃ d ∈ allConds calls, childName c ≠ childName d ∧ c.render = d.render) ∧
    s.conditions.length = 1 ∧ (s.com.filterMap Node.cond).length = 2 :=
  ⟨_, _, Ex.reachP, ⟨Ex.condP1, by simp [allConds, Ex.callP], Ex.condP2, by simp [allConds, Ex.callP], by decide +kernel,
    by decide +kernel⟩, by decide +kernel, by decide +kernel⟩

/-- **C59** is false for such conditions: a vector is valid in the space, and invalid after the removal of priors. -/
theorem C59_mixed_conjunction_changes_validity : ∃ (calls : List Call) (s s' : Space) (v : Vec),
    Reach calls s ∧ s.removePriors = .ok s' ∧ s.check v = none ∧ s'.check v ≠ none :=
  ⟨_, _, _, [some 1, some 1, some 0, some 0], Ex.reachMix, Ex.removeMix, by decide +kernel, by decide +kernel⟩

example : List.Forall₂ (Namesake Ex.sp1) Ex.condX.dlcs Ex.condX.dlcs := C43_literals (c := Ex.condX) (by
  refine C43_flat_conditions Ex.reach1 (by decide +kernel) ?_ (.and [Ex.litX, Ex.litX'])
  intro l hl
  have : ∀ l ∈ Ex.condX.dlcs, l.parent ∈ Ex.call1.hps ∧ l.child ∈ Ex.call1.hps := by decide +kernel
  exact ⟨Ex.members1 (this l hl).1, Ex.members1 (this l hl).2⟩)

end Verif
