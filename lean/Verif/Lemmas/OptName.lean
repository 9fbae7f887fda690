import Verif.Props.Forbid

/-!
# The merged clauses that mention a given hyperparameter
-/

set_option autoImplicit false

namespace Verif
open Verif.Spec

/-- The key of a group mentions the name. -/
def keyHas (n : Name) (k : Name × List (Name × Rat)) : Bool := decide (n = k.1) || (k.2.map Prod.fst).contains n

theorem optInsert_filter (n : Name) {fs : List EqPart} {l : EqPart} : ∀ acc,
    (optInsert fs l acc).filter (fun kg => keyHas n kg.1) =
      if keyHas n (optKey fs l) then optInsert fs l (acc.filter (fun kg => keyHas n kg.1))
      else acc.filter (fun kg => keyHas n kg.1)
  | [] => by
    simp only [optInsert, List.filter_cons, List.filter_nil]
  | (k, g) :: rest => by
    simp only [optInsert]
    by_cases hk : k = optKey fs l
    · subst hk
      rw [if_pos rfl]
      by_cases h : keyHas n (optKey fs l) = true
      · simp [List.filter_cons, h, optInsert]
      · simp [List.filter_cons, h]
    · rw [if_neg hk]
      simp only [List.filter_cons, optInsert_filter n rest]
      by_cases h : keyHas n k = true <;> by_cases h' : keyHas n (optKey fs l) = true <;> simp [h, h', optInsert, hk]

/-- The names in a list of parts. -/
def partsHave (n : Name) (p : List EqPart) : Bool := p.any (fun e => decide (e.hp.name = n))

theorem keyHas_split {n : Name} {p fs : List EqPart} {l : EqPart} (h : splitLast p = some (fs, l)) :
    keyHas n (optKey fs l) = partsHave n p := by
  rw [splitLast_some h, Bool.eq_iff_iff]
  simp only [keyHas, optKey, List.map_map, partsHave, List.any_append, List.any_cons, List.any_nil,
    Bool.or_false, Bool.or_eq_true, decide_eq_true_eq, List.contains_iff_mem, List.mem_map, List.any_eq_true,
    Function.comp]
  constructor
  · rintro (h | ⟨e, he, h⟩)
    · exact .inr (of_decide_eq_true h).symm
    · exact .inl ⟨e, he, h⟩
  · rintro (⟨e, he, h⟩ | h)
    · exact .inr ⟨e, he, h⟩
    · exact .inl (decide_eq_true h.symm)

theorem optGroups_filter (n : Name) : ∀ {ps : List (List EqPart)} {acc gs}, optGroups ps acc = .ok gs →
    optGroups (ps.filter (partsHave n)) (acc.filter (fun kg => keyHas n kg.1)) =
      .ok (gs.filter (fun kg => keyHas n kg.1))
  | [], acc, gs, h => by
    simp only [optGroups, Except.ok.injEq] at h
    subst h; rfl
  | p :: ps, acc, gs, h => by
    simp only [optGroups] at h
    split at h
    · cases h
    · rename_i fs l hs
      have ih := optGroups_filter n h
      rw [optInsert_filter] at ih
      have hk := keyHas_split (n := n) hs
      rw [hk] at ih
      simp only [List.filter_cons]
      by_cases hp : partsHave n p = true
      · rw [if_pos hp] at ih ⊢
        simp only [optGroups, hs]
        exact ih
      · rw [if_neg hp] at ih ⊢
        exact ih

theorem mapExcept_filter {α β : Type} {f : α → Except Err β} {P : α → Bool} {Q : β → Bool} :
    ∀ {l : List α} {r : List β}, (∀ x ∈ l, ∀ y, f x = .ok y → Q y = P x) → mapExcept f l = .ok r →
      mapExcept f (l.filter P) = .ok (r.filter Q)
  | [], r, _, h => by simp only [mapExcept, Except.ok.injEq] at h; subst h; rfl
  | x :: xs, r, hq, h => by
    simp only [mapExcept] at h
    split at h
    · cases h
    · rename_i y hy
      split at h
      · cases h
      · rename_i ys hys
        simp only [Except.ok.injEq] at h
        subst h
        have ih := mapExcept_filter (fun z hz => hq z (List.mem_cons_of_mem _ hz)) hys
        have hxy := hq x (by simp) y hy
        simp only [List.filter_cons, hxy]
        by_cases hp : P x = true
        · simp [hp, mapExcept, hy, ih]
        · simp [hp, ih]

theorem names_and_map (ps : List EqPart) :
    Forb.namesL (ps.map (fun p => Forb.eq p.hp p.value p.vval)) = ps.map (fun p => p.hp.name) := by
  induction ps with
  | nil => rfl
  | cons p ps ih => simp [Forb.namesL, Forb.names, ih]

theorem namesL_append (a b : List Forb) : Forb.namesL (a ++ b) = Forb.namesL a ++ Forb.namesL b := by
  induction a with
  | nil => rfl
  | cons c a ih => simp [Forb.namesL, ih]

/-- The names in the clause emitted for a group are those of its key. -/
theorem optEmit_names {n : Name} {kg : (Name × List (Name × Rat)) × OptGroup} (hk : KeyRight kg)
    {f : Forb} (h : optEmit kg.2 = .ok f) : decide (n ∈ f.names) = keyHas n kg.1 := by
  rw [Bool.eq_iff_iff]
  have hfirst : (kg.1.2.map Prod.fst) = kg.2.firsts.map (fun p => p.hp.name) := by
    rw [hk.1, List.map_map]; rfl
  simp only [keyHas, hfirst, decide_eq_true_eq, Bool.or_eq_true, List.contains_iff_mem]
  unfold optEmit at h
  simp only at h
  split at h
  · rename_i l hl
    cases h
    have := hk.2 l (by rw [hl]; simp)
    simp only [Forb.names, namesL_append, names_and_map, Forb.namesL, List.append_nil, List.mem_append,
      List.mem_singleton, ← this]
    exact or_comm
  · cases h
  · rename_i l ls hne hl
    simp only [bind, Except.bind] at h
    split at h
    · cases h
    · rename_i c hc
      cases h
      have := hk.2 l (by rw [hl]; simp)
      unfold mkForbIn at hc
      split at hc
      · simp only [Except.ok.injEq] at hc
        subst hc
        simp only [Forb.names, namesL_append, names_and_map, Forb.namesL, List.append_nil, List.mem_append,
          List.mem_singleton, ← this]
        exact or_comm
      · cases hc

theorem eqConj_names {n : Name} {f : Forb} {ps : List EqPart} (h : f.eqConj? = some ps) :
    decide (n ∈ f.names) = partsHave n ps := by
  rw [eqConj_some h, Bool.eq_iff_iff]
  simp only [Forb.names, names_and_map, decide_eq_true_eq, partsHave, List.any_eq_true, List.mem_map]

theorem partsHave_sort {n : Name} {le : EqPart → EqPart → Bool} {ps : List EqPart} :
    partsHave n (sortBy le ps) = partsHave n ps := by
  rw [Bool.eq_iff_iff]
  simp only [partsHave, List.any_eq_true, mem_sortBy]

theorem optGroups_keys : ∀ {ps : List (List EqPart)} {acc gs}, (∀ kg ∈ acc, KeyRight kg) →
    optGroups ps acc = .ok gs → ∀ kg ∈ gs, KeyRight kg
  | [], acc, gs, hk, h => by
    simp only [optGroups, Except.ok.injEq] at h
    subst h
    exact hk
  | p :: ps, acc, gs, hk, h => by
    simp only [optGroups] at h
    split at h
    · cases h
    · exact optGroups_keys (optInsert_keys hk) h

theorem filterMap_eqConj (n : Name) : ∀ fs : List Forb,
    (fs.filter (fun f => decide (n ∈ f.names))).filterMap Forb.eqConj? =
      (fs.filterMap Forb.eqConj?).filter (partsHave n)
  | [] => rfl
  | f :: fs => by
    have ih := filterMap_eqConj n fs
    cases hc : f.eqConj? with
    | none =>
      rw [List.filterMap_cons_none hc]
      by_cases h : n ∈ f.names
      · simp only [List.filter_cons, h, decide_true, if_true, List.filterMap_cons_none hc, ih]
      · simp only [List.filter_cons, h, decide_false, Bool.false_eq_true, if_false, ih]
    | some ps =>
      have := eqConj_names (n := n) hc
      rw [List.filterMap_cons_some hc]
      by_cases h : n ∈ f.names
      · simp only [h, decide_true] at this
        simp only [List.filter_cons, h, decide_true, if_true, List.filterMap_cons_some hc, ih, ← this]
      · simp only [h, decide_false] at this
        simp only [List.filter_cons, h, decide_false, Bool.false_eq_true, if_false, ih, ← this]

/-- Optimising the clauses that mention `n` gives the optimised clauses that mention `n`. -/
theorem optimizedForbs_lookup {idx : Name → Nat} {fs fast : List Forb} (n : Name)
    (h : optimizedForbs idx fs = .ok fast) :
    optimizedForbs idx (fs.filter (fun f => decide (n ∈ f.names))) = .ok (forbLookup fast n) := by
  unfold optimizedForbs at h ⊢
  simp only at h ⊢
  split at h
  · cases h
  · rename_i gs hgs
    split at h
    · cases h
    · rename_i cs hcs
      simp only [Except.ok.injEq] at h
      subst h
      have h1 := optGroups_filter n hgs
      simp only [List.filter_nil] at h1
      have hmap : ((fs.filter (fun f => decide (n ∈ f.names))).filterMap Forb.eqConj?).map
          (sortBy (fun a b => decide (idx a.hp.name ≤ idx b.hp.name))) =
          ((fs.filterMap Forb.eqConj?).map
            (sortBy (fun a b => decide (idx a.hp.name ≤ idx b.hp.name)))).filter (partsHave n) := by
        rw [filterMap_eqConj, List.filter_map]
        congr 1
        refine List.filter_congr ?_
        intro p _
        simp only [Function.comp, partsHave_sort]
      rw [hmap, h1]
      have hkeys := optGroups_keys (by simp) hgs
      have h2 := mapExcept_filter (P := fun kg => keyHas n kg.1) (Q := fun f => decide (n ∈ f.names))
        (fun kg hkg y hy => optEmit_names (hkeys kg hkg) hy) hcs
      simp only [h2, forbLookup, List.filter_append, List.filter_filter, Except.ok.injEq,
        List.append_cancel_right_eq]
      refine List.filter_congr ?_
      intro f _
      exact Bool.and_comm _ _

variable {calls : List Call} {s : Space}

/-- The clauses that the lookup lists for `n` forbid a vector exactly when one of the added clauses that mention `n`
does. -/
theorem lookup_forbids (h : Reach calls s) (hown : OwnClauses calls) {v : Vec} {a : Assign}
    (hv : Represents s v a) (n : Name) :
    ((forbLookup s.fast n).any (fun f => f.onVec s.idx v)) = true ↔
      ∃ f ∈ allForbs calls, (∃ x ∈ clauseHps f, x.name = n) ∧ Forbids a f := by
  have hi := sinv_of_reach h
  have hmem : ∀ f, f ∈ s.dag.uncond ++ s.dag.condF ↔ f ∈ allForbs calls :=
    fun f => hi.hist.forbs.mem_iff
  have hn : ∀ f : Forb, n ∈ f.names ↔ ∃ x ∈ clauseHps f, x.name = n := by
    intro f; rw [names_eq, List.mem_map]
  have hsub : ∀ f ∈ (s.dag.uncond ++ s.dag.condF).filter (fun f => decide (n ∈ f.names)),
      f ∈ allForbs calls := fun f hf => (hmem f).1 (List.mem_filter.1 hf).1
  rw [forb_any_iff, optimizedForbs_on (reach_hp_inj h)
    (fun f hf => hown f (hsub f hf)) (fun f hf => hi.hist.forbWf f (hsub f hf))
    (optimizedForbs_lookup n hi.fast)]
  constructor
  · rintro ⟨f, hf, hfa⟩
    have hf' := hsub f hf
    exact ⟨f, hf', (hn f).1 (of_decide_eq_true (List.mem_filter.1 hf).2),
      (forbids_represents h hv hf').1 hfa⟩
  · rintro ⟨f, hf, hm, hfa⟩
    exact ⟨f, List.mem_filter.2 ⟨(hmem f).2 hf, decide_eq_true ((hn f).2 hm)⟩,
      (forbids_represents h hv hf).2 hfa⟩

end Verif
