import Verif.Lemmas.Holds
import Verif.Lemmas.Reach

/-!
# The groups of conditional hyperparameters (`minimum_conditions`)
-/

set_option autoImplicit false

namespace Verif
open Verif.Spec

/-- One step of `minConditions`. -/
def groupStep (gs : List CNode) (x : Node) : List CNode :=
  match x.cond with
  | none => gs
  | some c => addToGroups gs x.name c

theorem minConditions_eq (ns : Nodes) : minConditions ns = ns.foldl groupStep [] := rfl

/-- What is known about the groups after the nodes `ns`. -/
structure GroupsOk (ns : Nodes) (gs : List CNode) : Prop where
  /-- every conditional node is in a group with an equivalent condition -/
  covers : ∀ x ∈ ns, ∀ c, x.cond = some c → ∃ g ∈ gs, x.name ∈ g.kids ∧
    (g.cond = c ∨ g.cond.equivOnParent c = true)
  /-- every member of a group is such a node -/
  members : ∀ g ∈ gs, ∀ n ∈ g.kids, ∃ x ∈ ns, x.name = n ∧ ∃ c, x.cond = some c ∧
    (g.cond = c ∨ g.cond.equivOnParent c = true)
  /-- the condition of a group is the condition of one of its members -/
  leader : ∀ g ∈ gs, ∃ x ∈ ns, x.name ∈ g.kids ∧ x.cond = some g.cond

theorem addToGroups_mem {n : Name} {c : Cond} : ∀ (gs : List CNode),
    (∃ g ∈ addToGroups gs n c, n ∈ g.kids ∧ (g.cond = c ∨ g.cond.equivOnParent c = true)) ∧
    (∀ g ∈ gs, ∃ g' ∈ addToGroups gs n c, g'.cond = g.cond ∧ ∀ m ∈ g.kids, m ∈ g'.kids) ∧
    (∀ g' ∈ addToGroups gs n c,
      (g' = ⟨c, [n]⟩) ∨ (g' ∈ gs) ∨
      ∃ g ∈ gs, g' = { g with kids := g.kids ++ [n] } ∧ g.cond.equivOnParent c = true) := by
  intro gs
  induction gs with
  | nil => simp [addToGroups]
  | cons g gs ih =>
    obtain ⟨h1, h2, h3⟩ := ih
    unfold addToGroups
    by_cases he : g.cond.equivOnParent c = true
    · rw [if_pos he]
      refine ⟨⟨_, List.mem_cons_self .., by simp, .inr he⟩, ?_, ?_⟩
      · intro g1 hg1
        rcases List.mem_cons.1 hg1 with rfl | hg1
        · exact ⟨_, List.mem_cons_self .., rfl, fun m hm => by simp [hm]⟩
        · exact ⟨g1, by simp [hg1], rfl, fun m hm => hm⟩
      · intro g' hg'
        rcases List.mem_cons.1 hg' with rfl | hg'
        · exact .inr (.inr ⟨g, by simp, rfl, he⟩)
        · exact .inr (.inl (by simp [hg']))
    · rw [if_neg he]
      refine ⟨?_, ?_, ?_⟩
      · obtain ⟨g', hg', k⟩ := h1
        exact ⟨g', by simp [hg'], k⟩
      · intro g1 hg1
        rcases List.mem_cons.1 hg1 with rfl | hg1
        · exact ⟨g1, by simp, rfl, fun m hm => hm⟩
        · obtain ⟨g', hg', k⟩ := h2 g1 hg1
          exact ⟨g', by simp [hg'], k⟩
      · intro g' hg'
        rcases List.mem_cons.1 hg' with rfl | hg'
        · exact .inr (.inl (by simp))
        · rcases h3 g' hg' with k | k | ⟨g1, k1, k2⟩
          · exact .inl k
          · exact .inr (.inl (by simp [k]))
          · exact .inr (.inr ⟨g1, by simp [k1], k2⟩)

theorem groupsOk_step {ns : Nodes} {gs : List CNode} (h : GroupsOk ns gs) (x : Node) :
    GroupsOk (ns ++ [x]) (groupStep gs x) := by
  unfold groupStep
  cases hx : x.cond with
  | none =>
    refine ⟨?_, ?_, ?_⟩
    · intro y hy c hc
      rcases List.mem_append.1 hy with hy | hy
      · exact h.covers y hy c hc
      · simp at hy; subst hy; rw [hx] at hc; cases hc
    · intro g hg n hn
      obtain ⟨y, hy, k⟩ := h.members g hg n hn
      exact ⟨y, by simp [hy], k⟩
    · intro g hg
      obtain ⟨y, hy, k⟩ := h.leader g hg
      exact ⟨y, by simp [hy], k⟩
  | some c =>
    obtain ⟨h1, h2, h3⟩ := addToGroups_mem (n := x.name) (c := c) gs
    refine ⟨?_, ?_, ?_⟩
    · intro y hy d hd
      rcases List.mem_append.1 hy with hy | hy
      · obtain ⟨g, hg, k1, k2⟩ := h.covers y hy d hd
        obtain ⟨g', hg', e, hk⟩ := h2 g hg
        exact ⟨g', hg', hk _ k1, by rw [e]; exact k2⟩
      · simp at hy; subst hy; rw [hx] at hd; cases hd
        exact h1
    · intro g hg n hn
      rcases h3 g hg with rfl | hg | ⟨g0, hg0, rfl, he⟩
      · simp at hn; subst hn
        exact ⟨x, by simp, rfl, c, hx, .inl rfl⟩
      · obtain ⟨y, hy, k⟩ := h.members g hg n hn
        exact ⟨y, by simp [hy], k⟩
      · rcases List.mem_append.1 hn with hn | hn
        · obtain ⟨y, hy, k⟩ := h.members g0 hg0 n hn
          exact ⟨y, by simp [hy], k⟩
        · simp at hn; subst hn
          exact ⟨x, by simp, rfl, c, hx, .inr he⟩
    · intro g hg
      rcases h3 g hg with rfl | hg | ⟨g0, hg0, rfl, he⟩
      · exact ⟨x, by simp, by simp, hx⟩
      · obtain ⟨y, hy, k⟩ := h.leader g hg
        exact ⟨y, by simp [hy], k⟩
      · obtain ⟨y, hy, k1, k2⟩ := h.leader g0 hg0
        exact ⟨y, by simp [hy], by simp [k1], k2⟩

theorem groupsOk_foldl (xs : Nodes) : ∀ (ns : Nodes) (gs : List CNode), GroupsOk ns gs →
    GroupsOk (ns ++ xs) (xs.foldl groupStep gs) := by
  induction xs with
  | nil => intro ns gs h; simpa using h
  | cons x xs ih =>
    intro ns gs h
    have := ih (ns ++ [x]) (groupStep gs x) (groupsOk_step h x)
    simpa using this

theorem groupsOk_min (ns : Nodes) : GroupsOk ns (minConditions ns) := by
  rw [minConditions_eq]
  have := groupsOk_foldl ns [] [] ⟨by simp, by simp, by simp⟩
  simpa using this

theorem groupsOk_sorted (ns : Nodes) : GroupsOk ns (minCondsSorted ns) := by
  have h := groupsOk_min ns
  unfold minCondsSorted
  refine ⟨?_, ?_, ?_⟩
  · intro x hx c hc
    obtain ⟨g, hg, k⟩ := h.covers x hx c hc
    exact ⟨g, mem_sortBy.2 hg, k⟩
  · intro g hg
    exact h.members g (mem_sortBy.1 hg)
  · intro g hg
    exact h.leader g (mem_sortBy.1 hg)

/-! ## The loop of `check_configuration` -/

/-- What one step of the loop asks for. -/
def stepOk (s : Space) (v : Vec) (c : CNode) : Prop :=
  (c.cond.satVec s.idx v = true → ∀ n ∈ c.kids, s.legalAt v n = true) ∧
  (c.cond.satVec s.idx v = false → ∀ n ∈ c.kids, v.at (s.idx n) = none)

theorem legalAt_set {s : Space} {v : Vec} {n : Name} (h : s.legalAt v n = true) :
    ∃ q, v.at (s.idx n) = some q := by
  unfold Space.legalAt at h
  split at h
  · exact ⟨_, by assumption⟩
  · cases h

theorem checkConds_none {s : Space} {v : Vec} : ∀ {l : List CNode},
    checkConds s v false l = none ↔ ∀ c ∈ l, stepOk s v c := by
  intro l
  induction l with
  | nil => simp [checkConds]
  | cons c cs ih =>
    rw [List.forall_mem_cons, ← ih]
    conv => lhs; unfold checkConds
    unfold stepOk
    by_cases hs : c.cond.satVec s.idx v = true
    · simp only [hs, if_true, true_implies, Bool.true_eq_false, false_implies, and_true]
      cases hf : firstWith (fun e => !isSet e) s v c.kids with
      | some n =>
        simp only [reduceCtorEq, false_iff, not_and]
        intro h
        have hm := List.mem_of_find?_eq_some hf
        have hp := List.find?_some hf
        obtain ⟨q, hq⟩ := legalAt_set (h n hm)
        simp [hq, isSet] at hp
      | none =>
        simp only
        cases hl : c.kids.find? (fun n => !s.legalAt v n) with
        | some n =>
          simp only [reduceCtorEq, false_iff, not_and]
          intro h
          have hm := List.mem_of_find?_eq_some hl
          have hp := List.find?_some hl
          simp [h n hm] at hp
        | none =>
          simp only
          have : ∀ n ∈ c.kids, s.legalAt v n = true := by
            intro n hn
            have := List.find?_eq_none.1 hl n hn
            simpa using this
          exact ⟨fun h => ⟨this, h⟩, fun h => h.2⟩
    · simp only [hs, if_false, Bool.false_eq_true, false_implies, true_and, true_implies]
      cases hf : firstWith isSet s v c.kids with
      | some n =>
        have hm := List.mem_of_find?_eq_some hf
        have hp := List.find?_some hf
        have hne : ¬ ∀ n ∈ c.kids, v.at (s.idx n) = none := by
          intro h
          rw [h n hm] at hp
          simp [isSet] at hp
        simp only
        constructor
        · intro h
          split at h
          · split at h <;> cases h
          · cases h
        · intro h
          exact absurd h.1 hne
      | none =>
        simp only
        have : ∀ n ∈ c.kids, v.at (s.idx n) = none := by
          intro n hn
          have := List.find?_eq_none.1 hf n hn
          cases hv : v.at (s.idx n) with
          | none => rfl
          | some q => simp [hv, isSet] at this
        exact ⟨fun h => ⟨this, h⟩, fun h => h.2⟩

end Verif
