import Verif.Lemmas.Reach

/-!
# The sort of the clauses is stable

The commit sorts the clauses by what they print as and then splits them.  Sorting them again in the order in which they are
listed changes nothing, also if some of them print alike.
-/

set_option autoImplicit false

namespace Verif

section

variable {α : Type} {le : α → α → Bool} {p : α → Bool}

theorem insBy_filter (htr : ∀ a b c, le a b = true → le b c = true → le a c = true) (x : α) : ∀ (l : List α),
    l.Pairwise (fun a b => le a b = true) →
    (insBy le x l).filter p = if p x then insBy le x (l.filter p) else l.filter p := by
  intro l
  induction l with
  | nil => intro _; cases hp : p x <;> simp [insBy, hp]
  | cons y ys ih =>
    intro h
    have h' := List.pairwise_cons.1 h
    have hu : insBy le x (y :: ys) = if le x y then x :: y :: ys else y :: insBy le x ys := rfl
    rw [hu]
    by_cases hxy : le x y = true
    · rw [if_pos hxy]
      cases hp : p x with
      | false => simp [hp]
      | true =>
        rw [List.filter_cons_of_pos hp]
        simp only [if_true]
        cases hq : (y :: ys).filter p with
        | nil => simp [insBy]
        | cons z zs =>
          have hz : z ∈ y :: ys := (List.mem_filter.1 (hq ▸ List.mem_cons_self : z ∈ (y :: ys).filter p)).1
          have : le x z = true := by
            rcases List.mem_cons.1 hz with rfl | hz
            · exact hxy
            · exact htr _ _ _ hxy (h'.1 z hz)
          simp [insBy, this]
    · rw [if_neg hxy]
      cases hq : p y with
      | false =>
        rw [List.filter_cons_of_neg (by simp [hq]), ih h'.2, List.filter_cons_of_neg (by simp [hq])]
      | true =>
        rw [List.filter_cons_of_pos hq, ih h'.2, List.filter_cons_of_pos hq]
        cases hp : p x with
        | false => simp
        | true => simp [insBy, hxy]

/-- Sorting and then choosing is choosing and then sorting. -/
theorem sortBy_filter (htot : ∀ a b, le a b = true ∨ le b a = true)
    (htr : ∀ a b c, le a b = true → le b c = true → le a c = true) (l : List α) :
    (sortBy le l).filter p = sortBy le (l.filter p) := by
  induction l with
  | nil => rfl
  | cons x xs ih =>
    show (insBy le x (sortBy le xs)).filter p = _
    rw [insBy_filter htr x _ (sortBy_pairwise htot htr xs), ih]
    cases hp : p x with
    | true => rw [List.filter_cons_of_pos hp]; rfl
    | false => rw [List.filter_cons_of_neg (by simp [hp])]; rfl

theorem sortBy_sorted {l : List α} (h : l.Pairwise (fun a b => le a b = true)) : sortBy le l = l := by
  induction l with
  | nil => rfl
  | cons x xs ih =>
    have h' := List.pairwise_cons.1 h
    show insBy le x (sortBy le xs) = _
    rw [ih h'.2]
    cases xs with
    | nil => rfl
    | cons y ys => simp [insBy, h'.1 y List.mem_cons_self]

end

/-- The order of the clauses. -/
def forbLe (a b : Forb) : Bool := decide (a.render ≤ b.render)

theorem forbLe_total (a b : Forb) : forbLe a b = true ∨ forbLe b a = true := by
  unfold forbLe
  rcases String.le_total a.render b.render with h | h
  · exact .inl (by simpa using h)
  · exact .inr (by simpa using h)

theorem forbLe_trans (a b c : Forb) (h1 : forbLe a b = true) (h2 : forbLe b c = true) : forbLe a c = true := by
  unfold forbLe at *
  exact decide_eq_true (String.le_trans (of_decide_eq_true h1) (of_decide_eq_true h2))

theorem forbLe_antisymm {a b : Forb} (h1 : forbLe a b = true) (h2 : forbLe b a = true) : a.render = b.render :=
  String.le_antisymm (of_decide_eq_true h1) (of_decide_eq_true h2)

/-! ## What a successful call does to the clauses -/

theorem addForbidden_lists {g g' : Dag} {f : Forb} (h : g.addForbidden f = (g', none)) :
    g'.roots = g.roots ∧ g'.uncond = g.uncond ++ [f].filter (isUncondForb g.roots) ∧
      g'.condF = g.condF ++ [f].filter (fun f => !isUncondForb g.roots f) := by
  unfold Dag.addForbidden at h
  split at h
  · simp at h
  · split at h
    · rename_i hu
      simp only [Prod.mk.injEq, and_true] at h
      subst h
      simp [hu]
    · rename_i hu
      simp only [Prod.mk.injEq, and_true] at h
      subst h
      simp [hu]

theorem addForbiddens_lists : ∀ (fs : List Forb) {g g' : Dag}, runAll Dag.addForbidden g fs = (g', none) →
    g'.roots = g.roots ∧ g'.uncond = g.uncond ++ fs.filter (isUncondForb g.roots) ∧
      g'.condF = g.condF ++ fs.filter (fun f => !isUncondForb g.roots f) := by
  intro fs
  induction fs with
  | nil => intro g g' h; simp only [runAll, Prod.mk.injEq, and_true] at h; subst h; simp
  | cons f fs ih =>
    intro g g' h
    unfold runAll at h
    cases h1 : g.addForbidden f with
    | mk g1 e =>
      rw [h1] at h
      cases e with
      | some e => simp at h
      | none =>
        obtain ⟨a1, a2, a3⟩ := addForbidden_lists h1
        obtain ⟨b1, b2, b3⟩ := ih h
        rw [a1] at b1 b2 b3
        refine ⟨b1, ?_, ?_⟩
        · rw [b2, a2, List.append_assoc, ← List.filter_append]; rfl
        · rw [b3, a3, List.append_assoc, ← List.filter_append]; rfl

theorem addConditions_lists : ∀ (cs : List Cond) {g g' : Dag}, runAll Dag.addCondition g cs = (g', none) →
    g'.roots = g.roots ∧ g'.uncond = g.uncond ∧ g'.condF = g.condF := by
  intro cs
  induction cs with
  | nil => intro g g' h; simp only [runAll, Prod.mk.injEq, and_true] at h; subst h; simp
  | cons c cs ih =>
    intro g g' h
    unfold runAll at h
    cases h1 : g.addCondition c with
    | mk g1 e =>
      rw [h1] at h
      cases e with
      | some e => simp at h
      | none =>
        obtain ⟨b1, b2, b3⟩ := ih h
        unfold Dag.addCondition at h1
        simp only [Prod.mk.injEq] at h1
        rw [← h1.1] at b1 b2 b3
        exact ⟨b1, b2, b3⟩

theorem commit_lists {s s' : Space} {g : Dag} (h : s.commit g = (s', none)) :
    s'.dag.roots = rootNames s'.com ∧
    s'.dag.uncond = (sortForbs (g.uncond ++ g.condF)).filter (isUncondForb s'.dag.roots) ∧
    s'.dag.condF = (sortForbs (g.uncond ++ g.condF)).filter (fun f => !isUncondForb s'.dag.roots f) := by
  unfold Space.commit at h
  simp only at h
  split at h
  · simp at h
  · simp only [Prod.mk.injEq, and_true] at h
    subst h
    exact ⟨rfl, rfl, rfl⟩

/-- The dag before the commit, and what the commit makes of its clauses. -/
theorem add_lists {s s' : Space} {hs : List HP} {cs : List Cond} {fs : List Forb} (h : s.add hs cs fs = (s', none)) :
    ∃ g, s.dag.addAll hs cs fs = (g, none) ∧ s'.dag.roots = rootNames s'.com ∧
    s'.dag.uncond = (sortForbs (g.uncond ++ g.condF)).filter (isUncondForb s'.dag.roots) ∧
    s'.dag.condF = (sortForbs (g.uncond ++ g.condF)).filter (fun f => !isUncondForb s'.dag.roots f) := by
  unfold Space.add at h
  cases h1 : s.dag.addAll hs cs fs with
  | mk g e =>
    rw [h1] at h
    cases e with
    | some e => simp at h
    | none =>
      simp only at h
      cases h2 : s.commit g with
      | mk s1 e1 =>
        rw [h2] at h
        cases e1 with
        | some e => simp at h
        | none =>
          simp only at h
          split at h
          · simp at h
          · simp only [Prod.mk.injEq, and_true] at h
            subst h
            obtain ⟨k1, k2, k3⟩ := commit_lists h2
            exact ⟨g, rfl, k1, k2, k3⟩

/-- The clauses of a space are sorted, those on unconditional hyperparameters and the others. -/
theorem clauses_sorted {calls : List Call} {s : Space} (h : Reach calls s) :
    s.dag.uncond.Pairwise (fun a b => forbLe a b = true) ∧ s.dag.condF.Pairwise (fun a b => forbLe a b = true) := by
  cases h with
  | nil => exact ⟨.nil, .nil⟩
  | snoc _ _ hadd =>
    obtain ⟨g, -, -, h1, h2⟩ := add_lists hadd
    have := sortBy_pairwise forbLe_total forbLe_trans (g.uncond ++ g.condF)
    rw [h1, h2]
    exact ⟨this.filter _, this.filter _⟩

/-- If the clauses of a space are added, in the order in which they are listed, to a space without clauses in which no
hyperparameter has a condition, and the same hyperparameters end up unconditional, then they are listed in that order. -/
theorem readd_clauses {calls : List Call} {s s1 s2 : Space} {cs : List Cond} (h : Reach calls s)
    (hu : s1.forbs = []) (hr : ∀ f ∈ s.forbs, isUncondForb s1.dag.roots f = true)
    (ha : s1.add [] cs s.forbs = (s2, none)) (he : s2.dag.roots = s.dag.roots) : s2.forbs = s.forbs := by
  obtain ⟨g, hg, -, e1, e2⟩ := add_lists ha
  unfold Dag.addAll at hg
  simp only [runAll] at hg
  cases hc : runAll Dag.addCondition s1.dag cs with
  | mk g1 e =>
    rw [hc] at hg
    cases e with
    | some e => simp at hg
    | none =>
      simp only at hg
      obtain ⟨c1, c2, c3⟩ := addConditions_lists cs hc
      obtain ⟨d1, d2, d3⟩ := addForbiddens_lists s.forbs hg
      have hnil : s1.dag.uncond = [] ∧ s1.dag.condF = [] := by
        have := hu
        unfold Space.forbs at this
        simpa using this
      have hf1 : s.forbs.filter (isUncondForb g1.roots) = s.forbs := by
        rw [c1, List.filter_eq_self]
        exact hr
      have hf2 : s.forbs.filter (fun f => !isUncondForb g1.roots f) = [] := by
        rw [c1, List.filter_eq_nil_iff]
        intro f hf
        simp [hr f hf]
      rw [d2, d3, c2, c3, hnil.1, hnil.2, hf1, hf2, he] at e1 e2
      simp only [List.nil_append, List.append_nil] at e1 e2
      obtain ⟨p1, p2⟩ := clauses_sorted h
      have i := sinv_of_reach h
      have u1 : s.forbs.filter (isUncondForb s.dag.roots) = s.dag.uncond := by
        unfold Space.forbs
        rw [List.filter_append, List.filter_eq_self.2 i.uncond, List.filter_eq_nil_iff.2 (fun f hf => by simp [i.condF f hf])]
        simp
      have u2 : s.forbs.filter (fun f => !isUncondForb s.dag.roots f) = s.dag.condF := by
        unfold Space.forbs
        rw [List.filter_append, List.filter_eq_nil_iff.2 (fun f hf => by simp [i.uncond f hf]),
          List.filter_eq_self.2 (fun f hf => by simp [i.condF f hf])]
        simp
      have t1 : s2.dag.uncond = s.dag.uncond := by
        rw [e1]
        show (sortBy forbLe s.forbs).filter _ = _
        rw [sortBy_filter forbLe_total forbLe_trans, u1, sortBy_sorted p1]
      have t2 : s2.dag.condF = s.dag.condF := by
        rw [e2]
        show (sortBy forbLe s.forbs).filter _ = _
        rw [sortBy_filter forbLe_total forbLe_trans, u2, sortBy_sorted p2]
      unfold Space.forbs
      rw [t1, t2]

end Verif
