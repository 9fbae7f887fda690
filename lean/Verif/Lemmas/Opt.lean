import Verif.Lemmas.Holds

/-!
# The merged forbidden clauses
-/

set_option autoImplicit false

namespace Verif
open Verif.Spec

/-- An equals clause as a part forbids its value. -/
def partOn (a : Assign) (p : EqPart) : Prop := a p.hp.name = some p.vval

theorem eqPart_some {f : Forb} {p : EqPart} (h : f.eqPart? = some p) : f = .eq p.hp p.value p.vval := by
  cases f <;> simp [Forb.eqPart?] at h
  subst h; rfl

theorem eqParts_some : ∀ {cs : List Forb} {ps : List EqPart}, eqParts cs = some ps →
    cs = ps.map (fun p => .eq p.hp p.value p.vval)
  | [], ps, h => by simp [eqParts] at h; subst h; rfl
  | c :: cs, ps, h => by
    simp only [eqParts] at h
    split at h
    · rename_i p qs hp hq
      cases h
      rw [List.map_cons, ← eqParts_some hq, ← eqPart_some hp]
    · cases h

theorem eqConj_some {f : Forb} {ps : List EqPart} (h : f.eqConj? = some ps) :
    f = .and (ps.map (fun p => .eq p.hp p.value p.vval)) := by
  cases f <;> simp [Forb.eqConj?] at h
  rw [eqParts_some h]

theorem forbids_parts {a : Assign} {ps : List EqPart} :
    Forbids a (.and (ps.map (fun p => .eq p.hp p.value p.vval))) ↔ ∀ p ∈ ps, partOn a p := by
  rw [forbids_and]
  constructor
  · intro h p hp
    exact forbids_eq.1 (h _ (List.mem_map.2 ⟨p, hp, rfl⟩))
  · intro h f hf
    obtain ⟨p, hp, rfl⟩ := List.mem_map.1 hf
    exact forbids_eq.2 (h p hp)

theorem splitLast_some {α : Type} : ∀ {l fs : List α} {x : α}, splitLast l = some (fs, x) →
    l = fs ++ [x]
  | [], fs, x, h => by simp [splitLast] at h
  | [y], fs, x, h => by simp [splitLast] at h; obtain ⟨rfl, rfl⟩ := h; rfl
  | y :: z :: l, fs, x, h => by
    simp only [splitLast] at h
    split at h
    · rename_i fs' l' hs
      simp only [Option.some.injEq, Prod.mk.injEq] at h
      obtain ⟨rfl, rfl⟩ := h
      rw [splitLast_some hs]; rfl
    · cases h

/-- A group forbids: all of the firsts and one of the lasts. -/
def groupOn (a : Assign) (g : OptGroup) : Prop := (∀ p ∈ g.firsts, partOn a p) ∧ ∃ p ∈ g.lasts, partOn a p

theorem firsts_congr {a : Assign} : ∀ {fs fs' : List EqPart},
    fs.map (fun x => (x.hp.name, x.vval)) = fs'.map (fun x => (x.hp.name, x.vval)) →
    ((∀ p ∈ fs, partOn a p) ↔ ∀ p ∈ fs', partOn a p)
  | [], [], _ => Iff.rfl
  | [], _ :: _, h => by simp at h
  | _ :: _, [], h => by simp at h
  | f :: fs, f' :: fs', h => by
    simp only [List.map_cons, List.cons.injEq, Prod.mk.injEq] at h
    have := firsts_congr (a := a) h.2
    rw [List.forall_mem_cons, List.forall_mem_cons, this]
    simp only [partOn, h.1.1, h.1.2]

/-- Every group is stored under its key. -/
def KeyRight (kg : (Name × List (Name × Rat)) × OptGroup) : Prop :=
  kg.1.2 = kg.2.firsts.map (fun x => (x.hp.name, x.vval)) ∧ ∀ l ∈ kg.2.lasts, l.hp.name = kg.1.1

theorem optInsert_keys {fs : List EqPart} {l : EqPart} :
    ∀ {acc}, (∀ kg ∈ acc, KeyRight kg) → ∀ kg ∈ optInsert fs l acc, KeyRight kg
  | [], _ => by
    intro kg hkg
    simp only [optInsert, List.mem_singleton] at hkg
    subst hkg
    exact ⟨rfl, by simp [optKey]⟩
  | (k, g) :: rest, h => by
    have hr : ∀ kg ∈ rest, KeyRight kg := fun kg hkg => h kg (List.mem_cons_of_mem _ hkg)
    have h0 := h (k, g) (by simp)
    intro kg hkg
    simp only [optInsert] at hkg
    split at hkg
    · rename_i hk
      rcases List.mem_cons.1 hkg with rfl | hkg
      · refine ⟨h0.1, ?_⟩
        intro p hp
        simp only [List.mem_append, List.mem_singleton] at hp
        rcases hp with hp | rfl
        · exact h0.2 p hp
        · simp [hk, optKey]
      · exact hr kg hkg
    · rcases List.mem_cons.1 hkg with rfl | hkg
      · exact h0
      · exact optInsert_keys hr kg hkg

theorem optInsert_on {a : Assign} {fs : List EqPart} {l : EqPart} :
    ∀ {acc}, (∀ kg ∈ acc, KeyRight kg) →
      ((∃ kg ∈ optInsert fs l acc, groupOn a kg.2) ↔
        (∃ kg ∈ acc, groupOn a kg.2) ∨ ((∀ p ∈ fs, partOn a p) ∧ partOn a l))
  | [], _ => by simp [optInsert, groupOn]
  | (k, g) :: rest, h => by
    have hr : ∀ kg ∈ rest, KeyRight kg := fun kg hkg => h kg (List.mem_cons_of_mem _ hkg)
    have h0 := h (k, g) (by simp)
    simp only [optInsert]
    split
    · rename_i hk
      have hf : (∀ p ∈ g.firsts, partOn a p) ↔ ∀ p ∈ fs, partOn a p := by
        apply firsts_congr
        have := h0.1
        simp only [hk, optKey] at this
        exact this.symm
      simp only [List.exists_mem_cons_iff, groupOn, List.mem_append, List.mem_singleton, ← hf]
      constructor
      · rintro (⟨h1, p, hp | rfl, h2⟩ | h)
        · exact .inl (.inl ⟨h1, p, hp, h2⟩)
        · exact .inr ⟨h1, h2⟩
        · exact .inl (.inr h)
      · rintro ((⟨h1, p, hp, h2⟩ | h) | ⟨h1, h2⟩)
        · exact .inl ⟨h1, p, .inl hp, h2⟩
        · exact .inr h
        · exact .inl ⟨h1, l, .inr rfl, h2⟩
    · simp only [List.exists_mem_cons_iff, optInsert_on hr, or_assoc]

/-- What the parts of the clauses of one space satisfy: they are about the hyperparameters `H` and carry
the vector value of their value. -/
def PartOk (H : List HP) (p : EqPart) : Prop :=
  p.hp ∈ H ∧ p.hp.kind.legalValue p.value = true ∧ p.hp.kind.toVec p.value = some p.vval

def GroupOk (H : List HP) (g : OptGroup) : Prop :=
  (∀ p ∈ g.firsts, PartOk H p) ∧ (∀ p ∈ g.lasts, PartOk H p)

theorem optInsert_ok {H : List HP} {fs : List EqPart} {l : EqPart} (hf : ∀ p ∈ fs, PartOk H p)
    (hl : PartOk H l) : ∀ {acc}, (∀ kg ∈ acc, GroupOk H kg.2 ∧ kg.2.lasts ≠ []) →
      ∀ kg ∈ optInsert fs l acc, GroupOk H kg.2 ∧ kg.2.lasts ≠ []
  | [], _ => by
    intro kg hkg
    simp only [optInsert, List.mem_singleton] at hkg
    subst hkg
    exact ⟨⟨hf, by simpa using hl⟩, by simp⟩
  | (k, g) :: rest, h => by
    have hr := fun kg hkg => h kg (List.mem_cons_of_mem (k, g) hkg)
    have h0 := h (k, g) (by simp)
    intro kg hkg
    simp only [optInsert] at hkg
    split at hkg
    · rcases List.mem_cons.1 hkg with rfl | hkg
      · refine ⟨⟨h0.1.1, ?_⟩, by simp⟩
        intro p hp
        simp only [List.mem_append, List.mem_singleton] at hp
        rcases hp with hp | rfl
        · exact h0.1.2 p hp
        · exact hl
      · exact hr kg hkg
    · rcases List.mem_cons.1 hkg with rfl | hkg
      · exact h0
      · exact optInsert_ok hf hl hr kg hkg

/-- The loop over the conjunctions. -/
theorem optGroups_on {a : Assign} {H : List HP} : ∀ {ps : List (List EqPart)} {acc gs},
    (∀ p ∈ ps, ∀ e ∈ p, PartOk H e) →
    (∀ kg ∈ acc, KeyRight kg) → (∀ kg ∈ acc, GroupOk H kg.2 ∧ kg.2.lasts ≠ []) →
    optGroups ps acc = .ok gs →
    (∀ kg ∈ gs, KeyRight kg ∧ GroupOk H kg.2 ∧ kg.2.lasts ≠ []) ∧
    ((∃ kg ∈ gs, groupOn a kg.2) ↔ (∃ kg ∈ acc, groupOn a kg.2) ∨ ∃ p ∈ ps, ∀ e ∈ p, partOn a e)
  | [], acc, gs, _, hk, hg, h => by
    simp only [optGroups, Except.ok.injEq] at h
    subst h
    exact ⟨fun kg hkg => ⟨hk kg hkg, hg kg hkg⟩, by simp⟩
  | p :: ps, acc, gs, hp, hk, hg, h => by
    simp only [optGroups] at h
    split at h
    · cases h
    · rename_i fs l hs
      have he := splitLast_some hs
      subst he
      have hpp := hp (fs ++ [l]) (by simp)
      have := optGroups_on (a := a) (fun q hq => hp q (List.mem_cons_of_mem _ hq))
        (optInsert_keys (fs := fs) (l := l) hk)
        (optInsert_ok (fun e he => hpp e (by simp [he])) (hpp l (by simp)) hg) h
      refine ⟨this.1, ?_⟩
      rw [this.2, optInsert_on hk]
      simp only [List.exists_mem_cons_iff, List.mem_append, List.mem_singleton, or_imp, forall_and,
        forall_eq, or_assoc]

theorem filterMap_vvals {H : List HP} {h : HP} : ∀ {ls : List EqPart},
    (∀ p ∈ ls, p.hp = h ∧ PartOk H p) →
    (ls.map (fun p => p.value)).filterMap h.kind.toVec = ls.map (fun p => p.vval)
  | [], _ => rfl
  | p :: ls, hp => by
    have h0 := hp p (by simp)
    have : h.kind.toVec p.value = some p.vval := by rw [← h0.1]; exact h0.2.2.2
    rw [List.map_cons, List.filterMap_cons_some this, List.map_cons,
      filterMap_vvals (fun q hq => hp q (List.mem_cons_of_mem _ hq))]

/-- The clause emitted for a group forbids what the group forbids. -/
theorem optEmit_on {a : Assign} {H : List HP} (hinj : ∀ x ∈ H, ∀ y ∈ H, x.name = y.name → x = y)
    {kg : (Name × List (Name × Rat)) × OptGroup} (hk : KeyRight kg) (hg : GroupOk H kg.2) {f : Forb}
    (h : optEmit kg.2 = .ok f) : Forbids a f ↔ groupOn a kg.2 := by
  unfold optEmit at h
  simp only at h
  split at h
  · rename_i l hl
    cases h
    rw [forbids_and]
    unfold groupOn
    simp only [hl, List.mem_append, List.mem_map, List.mem_singleton, or_imp, forall_and, forall_eq,
      exists_eq_left, forbids_eq, forall_exists_index, and_imp, forall_apply_eq_imp_iff₂, partOn]
  · cases h
  · rename_i l ls hne hl
    simp only [bind, Except.bind] at h
    split at h
    · cases h
    · rename_i c hc
      cases h
      have hall : ∀ p ∈ kg.2.lasts, p.hp = l.hp ∧ PartOk H p := by
        intro p hp
        refine ⟨?_, hg.2 p hp⟩
        have hlm : l ∈ kg.2.lasts := by rw [hl]; simp
        exact hinj _ (hg.2 p hp).1 _ (hg.2 l hlm).1 (by rw [hk.2 p hp, hk.2 l hlm])
      unfold mkForbIn at hc
      split at hc
      · simp only [Except.ok.injEq] at hc
        subst hc
        rw [hl] at hall
        rw [filterMap_vvals hall, forbids_and]
        unfold groupOn
        simp only [List.mem_append, List.mem_map, List.mem_singleton, or_imp, forall_and, forall_eq,
          forbids_eq, forall_exists_index, and_imp, forall_apply_eq_imp_iff₂, forbids_isIn,
          exists_exists_and_eq_and, partOn]
        refine and_congr Iff.rfl ?_
        rw [hl]
        constructor
        · rintro ⟨p, hp, e⟩; exact ⟨p, hp, by rw [(hall p hp).1]; exact e⟩
        · rintro ⟨p, hp, e⟩; exact ⟨p, hp, by rw [← (hall p hp).1]; exact e⟩
      · cases hc

theorem mapExcept_on {α β : Type} {f : α → Except Err β} : ∀ {l : List α} {r : List β},
    mapExcept f l = .ok r → (∀ y ∈ r, ∃ x ∈ l, f x = .ok y) ∧ (∀ x ∈ l, ∃ y ∈ r, f x = .ok y)
  | [], r, h => by simp only [mapExcept, Except.ok.injEq] at h; subst h; simp
  | x :: xs, r, h => by
    simp only [mapExcept] at h
    split at h
    · cases h
    · rename_i y hy
      split at h
      · cases h
      · rename_i ys hys
        simp only [Except.ok.injEq] at h
        subst h
        obtain ⟨h1, h2⟩ := mapExcept_on hys
        constructor
        · intro z hz
          rcases List.mem_cons.1 hz with rfl | hz
          · exact ⟨x, by simp, hy⟩
          · obtain ⟨w, hw, e⟩ := h1 z hz; exact ⟨w, by simp [hw], e⟩
        · intro z hz
          rcases List.mem_cons.1 hz with rfl | hz
          · exact ⟨y, by simp, hy⟩
          · obtain ⟨w, hw, e⟩ := h2 z hz; exact ⟨w, by simp [hw], e⟩

theorem wfL_iff {cs : List Forb} : Forb.wfL cs = true ↔ ∀ c ∈ cs, c.wf = true := by
  induction cs with
  | nil => simp [Forb.wfL]
  | cons c cs ih => simp [Forb.wfL, ih]

/-- The optimised clauses forbid the same assignments. -/
theorem optimizedForbs_on {a : Assign} {H : List HP} {idx : Name → Nat} {fs fast : List Forb}
    (hinj : ∀ x ∈ H, ∀ y ∈ H, x.name = y.name → x = y)
    (hown : ∀ f ∈ fs, ∀ h ∈ clauseHps f, h ∈ H) (hwf : ∀ f ∈ fs, f.wf = true)
    (h : optimizedForbs idx fs = .ok fast) :
    (∃ f ∈ fast, Forbids a f) ↔ ∃ f ∈ fs, Forbids a f := by
  unfold optimizedForbs at h
  simp only at h
  split at h
  · cases h
  · rename_i gs hgs
    split at h
    · cases h
    · rename_i cs hcs
      simp only [Except.ok.injEq] at h
      subst h
      have hparts : ∀ p ∈ (fs.filterMap Forb.eqConj?).map
          (sortBy (fun a b => decide (idx a.hp.name ≤ idx b.hp.name))), ∀ e ∈ p, PartOk H e := by
        intro p hp e he
        obtain ⟨q, hq, rfl⟩ := List.mem_map.1 hp
        rw [mem_sortBy] at he
        obtain ⟨f, hf, hfq⟩ := List.mem_filterMap.1 hq
        have hfe := eqConj_some hfq
        have hem : (Forb.eq e.hp e.value e.vval) ∈ q.map (fun p => Forb.eq p.hp p.value p.vval) :=
          List.mem_map.2 ⟨e, he, rfl⟩
        have hw := hwf f hf
        rw [hfe] at hw
        simp only [Forb.wf] at hw
        have hw' := wfL_iff.1 hw _ hem
        simp only [Forb.wf, Bool.and_eq_true, decide_eq_true_eq] at hw'
        refine ⟨hown f hf e.hp ?_, hw'.1.2, hw'.2⟩
        rw [hfe]
        simp only [clauseHps]
        exact mem_clauseHpsL.2 ⟨_, hem, by simp [clauseHps]⟩
      obtain ⟨k1, k2⟩ := optGroups_on (a := a) hparts (by simp) (by simp) hgs
      obtain ⟨m1, m2⟩ := mapExcept_on hcs
      have hcs_iff : (∃ f ∈ cs, Forbids a f) ↔ ∃ kg ∈ gs, groupOn a kg.2 := by
        constructor
        · rintro ⟨f, hf, hfa⟩
          obtain ⟨kg, hkg, e⟩ := m1 f hf
          exact ⟨kg, hkg, (optEmit_on hinj (k1 kg hkg).1 (k1 kg hkg).2.1 e).1 hfa⟩
        · rintro ⟨kg, hkg, hon⟩
          obtain ⟨f, hf, e⟩ := m2 kg hkg
          exact ⟨f, hf, (optEmit_on hinj (k1 kg hkg).1 (k1 kg hkg).2.1 e).2 hon⟩
      have hpf : (∃ p ∈ (fs.filterMap Forb.eqConj?).map
          (sortBy (fun a b => decide (idx a.hp.name ≤ idx b.hp.name))), ∀ e ∈ p, partOn a e) ↔
          ∃ f ∈ fs, f.eqConj?.isSome = true ∧ Forbids a f := by
        constructor
        · rintro ⟨p, hp, hon⟩
          obtain ⟨q, hq, rfl⟩ := List.mem_map.1 hp
          obtain ⟨f, hf, hfq⟩ := List.mem_filterMap.1 hq
          refine ⟨f, hf, by simp [hfq], ?_⟩
          rw [eqConj_some hfq, forbids_parts]
          intro e he
          exact hon e (mem_sortBy.2 he)
        · rintro ⟨f, hf, hs, hfa⟩
          obtain ⟨q, hfq⟩ := Option.isSome_iff_exists.1 hs
          refine ⟨_, List.mem_map.2 ⟨q, List.mem_filterMap.2 ⟨f, hf, hfq⟩, rfl⟩, ?_⟩
          rw [eqConj_some hfq, forbids_parts] at hfa
          intro e he
          exact hfa e (mem_sortBy.1 he)
      constructor
      · rintro ⟨f, hf, hfa⟩
        rcases List.mem_append.1 hf with hf | hf
        · exact ⟨f, (List.mem_filter.1 hf).1, hfa⟩
        · have := (k2.1 (hcs_iff.1 ⟨f, hf, hfa⟩))
          simp only [List.not_mem_nil, false_and, exists_false, false_or] at this
          obtain ⟨g, hg, _, hga⟩ := hpf.1 this
          exact ⟨g, hg, hga⟩
      · rintro ⟨f, hf, hfa⟩
        cases hc : f.eqConj? with
        | none =>
          exact ⟨f, List.mem_append.2 (.inl (List.mem_filter.2 ⟨hf, by simp [hc]⟩)), hfa⟩
        | some q =>
          have := hcs_iff.2 (k2.2 (.inr (hpf.2 ⟨f, hf, by simp [hc], hfa⟩)))
          obtain ⟨g, hg, hga⟩ := this
          exact ⟨g, List.mem_append.2 (.inr hg), hga⟩

end Verif
