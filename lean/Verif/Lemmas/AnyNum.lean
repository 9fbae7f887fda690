import Verif.Lemmas.Sample
import Verif.Spec.AnyNum
import Verif.Spec.Sample
import Verif.Props.Sample

/-!
# Any arithmetic: conditions, clauses and the check
-/

set_option autoImplicit false
set_option linter.unusedSectionVars false

namespace Verif.AnyNum
open Verif Verif.Spec.Any
open Verif.Spec (Known Conditional childName At clauseHps clauseHpsL OwnClauses Tight WeaklyLayered)

variable {α β : Type} [DecidableEq α] {A : Arith α β}

/-- The entries of a vector under a layout. -/
def asg (idx : Name → Nat) (v : AVec α) : Entries α := fun n => v.at (idx n)

theorem satVecAll_iff {idx : Name → Nat} {v : AVec α} {cs : List Cond} :
    satVecAll A idx v cs = true ↔ ∀ c ∈ cs, satVec A idx v c = true := by
  induction cs with
  | nil => simp [satVecAll]
  | cons c cs ih => simp [satVecAll, ih]

theorem satVecAny_iff {idx : Name → Nat} {v : AVec α} {cs : List Cond} :
    satVecAny A idx v cs = true ↔ ∃ c ∈ cs, satVec A idx v c = true := by
  induction cs with
  | nil => simp [satVecAny]
  | cons c cs ih => simp [satVecAny, ih]

theorem onEntry_iff (l : Lit) (idx : Name → Nat) (v : AVec α) :
    onEntry A l.parent l.test (v.at (idx l.parent.name)) = true ↔ LitHolds A (asg idx v) l := by
  unfold LitHolds asg
  generalize v.at (idx l.parent.name) = e
  cases l.test with
  | bin op w x =>
    cases op <;> cases e <;> simp [onEntry]
  | isIn ws xs => cases e <;> simp [onEntry, eq_comm]

theorem holds_lit {a : Entries α} {l : Lit} : Holds A a (.lit l) ↔ LitHolds A a l :=
  ⟨fun h => by cases h; assumption, .lit⟩

theorem holds_and {a : Entries α} {cs : List Cond} : Holds A a (.and cs) ↔ ∀ c ∈ cs, Holds A a c :=
  ⟨fun h => by cases h; assumption, .and⟩

theorem holds_or {a : Entries α} {cs : List Cond} : Holds A a (.or cs) ↔ ∃ c ∈ cs, Holds A a c :=
  ⟨fun h => by cases h with | or h1 h2 => exact ⟨_, h1, h2⟩, fun ⟨_, h1, h2⟩ => .or h1 h2⟩

theorem satVec_iff (c : Cond) (idx : Name → Nat) (v : AVec α) :
    satVec A idx v c = true ↔ Holds A (asg idx v) c := by
  induction c using Cond.induct with
  | hl l => rw [holds_lit]; exact onEntry_iff l idx v
  | ha cs ih =>
    rw [holds_and]; simp only [satVec]; rw [satVecAll_iff]
    exact ⟨fun h c hc => (ih c hc).1 (h c hc), fun h c hc => (ih c hc).2 (h c hc)⟩
  | ho cs ih =>
    rw [holds_or]; simp only [satVec]; rw [satVecAny_iff]
    exact ⟨fun ⟨c, hc, h⟩ => ⟨c, hc, (ih c hc).1 h⟩, fun ⟨c, hc, h⟩ => ⟨c, hc, (ih c hc).2 h⟩⟩

theorem litHolds_congr {a b : Entries α} {l : Lit} (h : a l.parent.name = b l.parent.name) :
    LitHolds A a l ↔ LitHolds A b l := by
  unfold LitHolds; rw [h]

/-- A condition only depends on the values of its parents. -/
theorem holds_congr {a b : Entries α} (c : Cond) (h : ∀ p ∈ c.parents, a p = b p) :
    Holds A a c ↔ Holds A b c := by
  induction c using Cond.induct with
  | hl l => rw [holds_lit, holds_lit]; exact litHolds_congr (h _ (by simp [Cond.parents, Cond.dlcs]))
  | ha cs ih =>
    rw [holds_and, holds_and]
    have hh : ∀ c ∈ cs, Holds A a c ↔ Holds A b c := fun c hc => ih c hc (fun p hp => h p (by
      rw [parents_and, mem_parentsL]; exact ⟨c, hc, hp⟩))
    exact ⟨fun k c hc => (hh c hc).1 (k c hc), fun k c hc => (hh c hc).2 (k c hc)⟩
  | ho cs ih =>
    rw [holds_or, holds_or]
    have hh : ∀ c ∈ cs, Holds A a c ↔ Holds A b c := fun c hc => ih c hc (fun p hp => h p (by
      rw [parents_or, mem_parentsL]; exact ⟨c, hc, hp⟩))
    exact ⟨fun ⟨c, hc, k⟩ => ⟨c, hc, (hh c hc).1 k⟩, fun ⟨c, hc, k⟩ => ⟨c, hc, (hh c hc).2 k⟩⟩


theorem onVecAll_iff {idx : Name → Nat} {v : AVec α} {cs : List Forb} :
    onVecAll A idx v cs = true ↔ ∀ c ∈ cs, onVec A idx v c = true := by
  induction cs with
  | nil => simp [onVecAll]
  | cons c cs ih => simp [onVecAll, ih]

theorem forbids_and {a : Entries α} {fs : List Forb} : Forbids A a (.and fs) ↔ ∀ f ∈ fs, Forbids A a f :=
  ⟨fun h => by cases h; assumption, .and⟩

theorem forbids_eq {a : Entries α} {h : HP} {w : Val} {x : Rat} :
    Forbids A a (.eq h w x) ↔ a h.name = some (A.toVec h w) :=
  ⟨fun h => by cases h; assumption, .eq⟩

theorem forbids_isIn {a : Entries α} {h : HP} {ws : List Val} {xs : List Rat} :
    Forbids A a (.isIn h ws xs) ↔ ∃ w ∈ ws, a h.name = some (A.toVec h w) :=
  ⟨fun h => by cases h with | isIn h1 h2 => exact ⟨_, h1, h2⟩, fun ⟨_, h1, h2⟩ => .isIn h1 h2⟩

theorem onVec_iff (f : Forb) (idx : Name → Nat) (v : AVec α) :
    onVec A idx v f = true ↔ Forbids A (asg idx v) f := by
  induction f using Forb.induct with
  | he h w x =>
    rw [forbids_eq]; unfold asg
    simp only [onVec]
    cases v.at (idx h.name) <;> simp [eqEntry]
  | hi h ws xs =>
    rw [forbids_isIn]; unfold asg
    simp only [onVec]
    cases v.at (idx h.name) <;> simp [inEntry, eq_comm]
  | hr op l r =>
    simp only [onVec, relEntries]
    constructor
    · intro h
      split at h
      · rename_i x y hx hy
        split at h
        · rename_i u w hu hw
          exact .rel hx hy hu hw h
        · cases h
      · cases h
    · intro h
      cases h with
      | rel h1 h2 h3 h4 h5 =>
        unfold asg at h1 h2
        simp [h1, h2, h3, h4, h5]
  | ha cs ih =>
    rw [forbids_and]; simp only [onVec]; rw [onVecAll_iff]
    exact ⟨fun h c hc => (ih c hc).1 (h c hc), fun h c hc => (ih c hc).2 (h c hc)⟩


/-- A clause only depends on the values of the hyperparameters it is about. -/
theorem forbids_congr {a b : Entries α} (f : Forb) (h : ∀ x ∈ clauseHps f, a x.name = b x.name) :
    Forbids A a f ↔ Forbids A b f := by
  induction f using Forb.induct with
  | he x w q => rw [forbids_eq, forbids_eq, h x (by simp [clauseHps])]
  | hi x ws qs => rw [forbids_isIn, forbids_isIn, h x (by simp [clauseHps])]
  | hr op l r =>
    have hl := h l (by simp [clauseHps])
    have hr := h r (by simp [clauseHps])
    constructor <;> intro k <;> cases k with
    | rel h1 h2 h3 h4 h5 => exact .rel (by simp_all) (by simp_all) h3 h4 h5
  | ha cs ih =>
    rw [forbids_and, forbids_and]
    have hh : ∀ c ∈ cs, Forbids A a c ↔ Forbids A b c := fun c hc => ih c hc (fun p hp => h p (by
      simp only [clauseHps]; rw [mem_clauseHpsL]; exact ⟨c, hc, hp⟩))
    exact ⟨fun k c hc => (hh c hc).1 (k c hc), fun k c hc => (hh c hc).2 (k c hc)⟩



/-! ## Vectors of a space -/

theorem asg_of_represents {s : Space} {v : AVec α} {a : Entries α} (h : Represents s v a) {n : Name}
    (hn : n ∈ s.names) : asg s.idx v n = a n :=
  h.2 _ _ (idx_spec hn).1

/-! ## Merged clauses -/

/-- An equals clause as a part forbids its value. -/
def partOn (A : Arith α β) (a : Entries α) (p : EqPart) : Prop := a p.hp.name = some (A.toVec p.hp p.value)

theorem forbids_parts {a : Entries α} {ps : List EqPart} :
    Forbids A a (.and (ps.map (fun p => .eq p.hp p.value p.vval))) ↔ ∀ p ∈ ps, partOn A a p := by
  rw [forbids_and]
  constructor
  · intro h p hp
    exact forbids_eq.1 (h _ (List.mem_map.2 ⟨p, hp, rfl⟩))
  · intro h f hf
    obtain ⟨p, hp, rfl⟩ := List.mem_map.1 hf
    exact forbids_eq.2 (h p hp)

/-- A group forbids: all of the firsts and one of the lasts. -/
def groupOn (A : Arith α β) (a : Entries α) (g : OptGroup) : Prop := (∀ p ∈ g.firsts, partOn A a p) ∧ ∃ p ∈ g.lasts, partOn A a p

theorem firsts_congr {a : Entries α} : ∀ {fs fs' : List EqPart},
    fs.map (fun x => (x.hp.name, A.toVec x.hp x.value)) = fs'.map (fun x => (x.hp.name, A.toVec x.hp x.value)) →
    ((∀ p ∈ fs, partOn A a p) ↔ ∀ p ∈ fs', partOn A a p)
  | [], [], _ => Iff.rfl
  | [], _ :: _, h => by simp at h
  | _ :: _, [], h => by simp at h
  | f :: fs, f' :: fs', h => by
    simp only [List.map_cons, List.cons.injEq, Prod.mk.injEq] at h
    have := firsts_congr (a := a) h.2
    rw [List.forall_mem_cons, List.forall_mem_cons, this]
    simp only [partOn, h.1.1, h.1.2]

/-- Every group is stored under its key. -/
def KeyRight (A : Arith α β) (kg : (Name × List (Name × α)) × OptGroup) : Prop :=
  kg.1.2 = kg.2.firsts.map (fun x => (x.hp.name, A.toVec x.hp x.value)) ∧ ∀ l ∈ kg.2.lasts, l.hp.name = kg.1.1

theorem optInsert_keys {fs : List EqPart} {l : EqPart} :
    ∀ {acc}, (∀ kg ∈ acc, KeyRight A kg) → ∀ kg ∈ optInsert A fs l acc, KeyRight A kg
  | [], _ => by
    intro kg hkg
    simp only [optInsert, List.mem_singleton] at hkg
    subst hkg
    exact ⟨rfl, by simp [optKey]⟩
  | (k, g) :: rest, h => by
    have hr : ∀ kg ∈ rest, KeyRight A kg := fun kg hkg => h kg (List.mem_cons_of_mem _ hkg)
    have h0 := h (k, g) (by simp)
    intro kg hkg
    simp only [optInsert] at hkg
    split at hkg
    · rename_i hk
      rcases List.mem_cons.1 hkg with rfl | hkg
      · refine ⟨h0.1, ?_⟩
        intro p hp
        simp only [List.mem_append, List.mem_singleton] at hp
        rcases hp with hp | rfl
        · exact h0.2 p hp
        · simp [hk, optKey]
      · exact hr kg hkg
    · rcases List.mem_cons.1 hkg with rfl | hkg
      · exact h0
      · exact optInsert_keys hr kg hkg

theorem optInsert_on {a : Entries α} {fs : List EqPart} {l : EqPart} :
    ∀ {acc}, (∀ kg ∈ acc, KeyRight A kg) →
      ((∃ kg ∈ optInsert A fs l acc, groupOn A a kg.2) ↔
        (∃ kg ∈ acc, groupOn A a kg.2) ∨ ((∀ p ∈ fs, partOn A a p) ∧ partOn A a l))
  | [], _ => by simp [optInsert, groupOn]
  | (k, g) :: rest, h => by
    have hr : ∀ kg ∈ rest, KeyRight A kg := fun kg hkg => h kg (List.mem_cons_of_mem _ hkg)
    have h0 := h (k, g) (by simp)
    simp only [optInsert]
    split
    · rename_i hk
      have hf : (∀ p ∈ g.firsts, partOn A a p) ↔ ∀ p ∈ fs, partOn A a p := by
        apply firsts_congr
        have := h0.1
        simp only [hk, optKey] at this
        exact this.symm
      simp only [List.exists_mem_cons_iff, groupOn, List.mem_append, List.mem_singleton, ← hf]
      constructor
      · rintro (⟨h1, p, hp | rfl, h2⟩ | h)
        · exact .inl (.inl ⟨h1, p, hp, h2⟩)
        · exact .inr ⟨h1, h2⟩
        · exact .inl (.inr h)
      · rintro ((⟨h1, p, hp, h2⟩ | h) | ⟨h1, h2⟩)
        · exact .inl ⟨h1, p, .inl hp, h2⟩
        · exact .inr h
        · exact .inl ⟨h1, l, .inr rfl, h2⟩
    · simp only [List.exists_mem_cons_iff, optInsert_on hr, or_assoc]

/-- The parts of the clauses of one space are about its hyperparameters `H`. -/
def GroupOf (H : List HP) (g : OptGroup) : Prop := (∀ p ∈ g.lasts, p.hp ∈ H) ∧ g.lasts ≠ []

theorem optInsert_ok {H : List HP} {fs : List EqPart} {l : EqPart} (hl : l.hp ∈ H) :
    ∀ {acc}, (∀ kg ∈ acc, GroupOf H kg.2) → ∀ kg ∈ optInsert A fs l acc, GroupOf H kg.2
  | [], _ => by
    intro kg hkg
    simp only [optInsert, List.mem_singleton] at hkg
    subst hkg
    exact ⟨by simpa using hl, by simp⟩
  | (k, g) :: rest, h => by
    have hr := fun kg hkg => h kg (List.mem_cons_of_mem (k, g) hkg)
    have h0 := h (k, g) (by simp)
    intro kg hkg
    simp only [optInsert] at hkg
    split at hkg
    · rcases List.mem_cons.1 hkg with rfl | hkg
      · refine ⟨?_, by simp⟩
        intro p hp
        simp only [List.mem_append, List.mem_singleton] at hp
        rcases hp with hp | rfl
        · exact h0.1 p hp
        · exact hl
      · exact hr kg hkg
    · rcases List.mem_cons.1 hkg with rfl | hkg
      · exact h0
      · exact optInsert_ok hl hr kg hkg

/-- The loop over the conjunctions. -/
theorem optGroups_on {a : Entries α} {H : List HP} : ∀ {ps : List (List EqPart)} {acc gs},
    (∀ p ∈ ps, ∀ e ∈ p, e.hp ∈ H) →
    (∀ kg ∈ acc, KeyRight A kg) → (∀ kg ∈ acc, GroupOf H kg.2) →
    optGroups A ps acc = .ok gs →
    (∀ kg ∈ gs, KeyRight A kg ∧ GroupOf H kg.2) ∧
    ((∃ kg ∈ gs, groupOn A a kg.2) ↔ (∃ kg ∈ acc, groupOn A a kg.2) ∨ ∃ p ∈ ps, ∀ e ∈ p, partOn A a e)
  | [], acc, gs, _, hk, hg, h => by
    simp only [optGroups, Except.ok.injEq] at h
    subst h
    exact ⟨fun kg hkg => ⟨hk kg hkg, hg kg hkg⟩, by simp⟩
  | p :: ps, acc, gs, hp, hk, hg, h => by
    simp only [optGroups] at h
    split at h
    · cases h
    · rename_i fs l hs
      have he := splitLast_some hs
      subst he
      have hpp := hp (fs ++ [l]) (by simp)
      have := optGroups_on (a := a) (fun q hq => hp q (List.mem_cons_of_mem _ hq))
        (optInsert_keys (fs := fs) (l := l) hk)
        (optInsert_ok (hpp l (by simp)) hg) h
      refine ⟨this.1, ?_⟩
      rw [this.2, optInsert_on hk]
      simp only [List.exists_mem_cons_iff, List.mem_append, List.mem_singleton, or_imp, forall_and,
        forall_eq, or_assoc]

/-- The clause emitted for a group forbids what the group forbids. -/
theorem optEmit_on {a : Entries α} {H : List HP} (hinj : ∀ x ∈ H, ∀ y ∈ H, x.name = y.name → x = y)
    {kg : (Name × List (Name × α)) × OptGroup} (hk : KeyRight A kg) (hg : GroupOf H kg.2) {f : Forb}
    (h : optEmit A kg.2 = .ok f) : Forbids A a f ↔ groupOn A a kg.2 := by
  unfold optEmit at h
  simp only at h
  split at h
  · rename_i l hl
    cases h
    rw [forbids_and]
    unfold groupOn
    simp only [hl, List.mem_append, List.mem_map, List.mem_singleton, or_imp, forall_and, forall_eq,
      exists_eq_left, forbids_eq, forall_exists_index, and_imp, forall_apply_eq_imp_iff₂, partOn]
  · cases h
  · rename_i l ls hne hl
    split at h
    · cases h
      have hall : ∀ p ∈ kg.2.lasts, p.hp = l.hp := by
        intro p hp
        have hlm : l ∈ kg.2.lasts := by rw [hl]; simp
        exact hinj _ (hg.1 p hp) _ (hg.1 l hlm) (by rw [hk.2 p hp, hk.2 l hlm])
      rw [hl] at hall
      rw [forbids_and]
      unfold groupOn
      simp only [List.mem_append, List.mem_map, List.mem_singleton, or_imp, forall_and, forall_eq,
        forbids_eq, forall_exists_index, and_imp, forall_apply_eq_imp_iff₂, forbids_isIn,
        exists_exists_and_eq_and, partOn]
      refine and_congr Iff.rfl ?_
      rw [hl]
      constructor
      · rintro ⟨p, hp, e⟩; exact ⟨p, hp, by rw [hall p hp]; exact e⟩
      · rintro ⟨p, hp, e⟩; exact ⟨p, hp, by rw [← hall p hp]; exact e⟩
    · cases h

/-- The merged clauses forbid the same assignments. -/
theorem optimizedForbs_on {a : Entries α} {H : List HP} {idx : Name → Nat} {fs fast : List Forb}
    (hinj : ∀ x ∈ H, ∀ y ∈ H, x.name = y.name → x = y)
    (hown : ∀ f ∈ fs, ∀ h ∈ clauseHps f, h ∈ H)
    (h : optimizedForbs A idx fs = .ok fast) :
    (∃ f ∈ fast, Forbids A a f) ↔ ∃ f ∈ fs, Forbids A a f := by
  unfold optimizedForbs at h
  simp only at h
  split at h
  · cases h
  · rename_i gs hgs
    split at h
    · cases h
    · rename_i cs hcs
      simp only [Except.ok.injEq] at h
      subst h
      have hparts : ∀ p ∈ (fs.filterMap Forb.eqConj?).map
          (sortBy (fun a b => decide (idx a.hp.name ≤ idx b.hp.name))), ∀ e ∈ p, e.hp ∈ H := by
        intro p hp e he
        obtain ⟨q, hq, rfl⟩ := List.mem_map.1 hp
        rw [mem_sortBy] at he
        obtain ⟨f, hf, hfq⟩ := List.mem_filterMap.1 hq
        have hfe := eqConj_some hfq
        have hem : (Forb.eq e.hp e.value e.vval) ∈ q.map (fun p => Forb.eq p.hp p.value p.vval) :=
          List.mem_map.2 ⟨e, he, rfl⟩
        refine hown f hf e.hp ?_
        rw [hfe]
        simp only [clauseHps]
        exact mem_clauseHpsL.2 ⟨_, hem, by simp [clauseHps]⟩
      obtain ⟨k1, k2⟩ := optGroups_on (a := a) hparts (by simp) (by simp) hgs
      obtain ⟨m1, m2⟩ := mapExcept_on hcs
      have hcs_iff : (∃ f ∈ cs, Forbids A a f) ↔ ∃ kg ∈ gs, groupOn A a kg.2 := by
        constructor
        · rintro ⟨f, hf, hfa⟩
          obtain ⟨kg, hkg, e⟩ := m1 f hf
          exact ⟨kg, hkg, (optEmit_on hinj (k1 kg hkg).1 (k1 kg hkg).2 e).1 hfa⟩
        · rintro ⟨kg, hkg, hon⟩
          obtain ⟨f, hf, e⟩ := m2 kg hkg
          exact ⟨f, hf, (optEmit_on hinj (k1 kg hkg).1 (k1 kg hkg).2 e).2 hon⟩
      have hpf : (∃ p ∈ (fs.filterMap Forb.eqConj?).map
          (sortBy (fun a b => decide (idx a.hp.name ≤ idx b.hp.name))), ∀ e ∈ p, partOn A a e) ↔
          ∃ f ∈ fs, f.eqConj?.isSome = true ∧ Forbids A a f := by
        constructor
        · rintro ⟨p, hp, hon⟩
          obtain ⟨q, hq, rfl⟩ := List.mem_map.1 hp
          obtain ⟨f, hf, hfq⟩ := List.mem_filterMap.1 hq
          refine ⟨f, hf, by simp [hfq], ?_⟩
          rw [eqConj_some hfq, forbids_parts]
          intro e he
          exact hon e (mem_sortBy.2 he)
        · rintro ⟨f, hf, hs, hfa⟩
          obtain ⟨q, hfq⟩ := Option.isSome_iff_exists.1 hs
          refine ⟨_, List.mem_map.2 ⟨q, List.mem_filterMap.2 ⟨f, hf, hfq⟩, rfl⟩, ?_⟩
          rw [eqConj_some hfq, forbids_parts] at hfa
          intro e he
          exact hfa e (mem_sortBy.1 he)
      constructor
      · rintro ⟨f, hf, hfa⟩
        rcases List.mem_append.1 hf with hf | hf
        · exact ⟨f, (List.mem_filter.1 hf).1, hfa⟩
        · have := (k2.1 (hcs_iff.1 ⟨f, hf, hfa⟩))
          simp only [List.not_mem_nil, false_and, exists_false, false_or] at this
          obtain ⟨g, hg, _, hga⟩ := hpf.1 this
          exact ⟨g, hg, hga⟩
      · rintro ⟨f, hf, hfa⟩
        cases hc : f.eqConj? with
        | none =>
          exact ⟨f, List.mem_append.2 (.inl (List.mem_filter.2 ⟨hf, by simp [hc]⟩)), hfa⟩
        | some q =>
          have := hcs_iff.2 (k2.2 (.inr (hpf.2 ⟨f, hf, by simp [hc], hfa⟩)))
          obtain ⟨g, hg, hga⟩ := this
          exact ⟨g, List.mem_append.2 (.inr hg), hga⟩

/-! ## Merging succeeds -/

theorem optInsert_legal {fs : List EqPart} {l : EqPart} (hl : A.legalValue l.hp l.value = true) :
    ∀ {acc}, (∀ kg ∈ acc, ∀ p ∈ kg.2.lasts, A.legalValue p.hp p.value = true) →
      ∀ kg ∈ optInsert A fs l acc, ∀ p ∈ kg.2.lasts, A.legalValue p.hp p.value = true
  | [], _ => by
    intro kg hkg
    simp only [optInsert, List.mem_singleton] at hkg
    subst hkg
    simpa using hl
  | (k, g) :: rest, h => by
    have hr := fun kg hkg => h kg (List.mem_cons_of_mem (k, g) hkg)
    have h0 := h (k, g) (by simp)
    intro kg hkg
    simp only [optInsert] at hkg
    split at hkg
    · rcases List.mem_cons.1 hkg with rfl | hkg
      · intro p hp
        simp only [List.mem_append, List.mem_singleton] at hp
        rcases hp with hp | rfl
        · exact h0 p hp
        · exact hl
      · exact hr kg hkg
    · rcases List.mem_cons.1 hkg with rfl | hkg
      · exact h0
      · exact optInsert_legal hl hr kg hkg

theorem optGroups_ok : ∀ {ps : List (List EqPart)} {acc acc' gs}, Verif.optGroups ps acc' = .ok gs →
    (∀ p ∈ ps, ∀ e ∈ p, A.legalValue e.hp e.value = true) →
    (∀ kg ∈ acc, ∀ p ∈ kg.2.lasts, A.legalValue p.hp p.value = true) →
    ∃ gs', optGroups A ps acc = .ok gs' ∧ ∀ kg ∈ gs', ∀ p ∈ kg.2.lasts, A.legalValue p.hp p.value = true
  | [], acc, _, _, _, _, ha => ⟨acc, rfl, ha⟩
  | p :: ps, acc, acc', gs, h, hl, ha => by
    simp only [Verif.optGroups] at h
    simp only [optGroups]
    split at h
    · cases h
    · rename_i fs l hs
      have he := splitLast_some hs
      rw [hs]
      refine optGroups_ok h (fun q hq => hl q (List.mem_cons_of_mem _ hq)) (optInsert_legal ?_ ha)
      exact hl p (by simp) l (by rw [he]; simp)

theorem mapExcept_ok {γ δ : Type} {f : γ → Except Err δ} : ∀ {l : List γ}, (∀ x ∈ l, ∃ y, f x = .ok y) → ∃ r, mapExcept f l = .ok r
  | [], _ => ⟨[], rfl⟩
  | x :: xs, h => by
    obtain ⟨y, hy⟩ := h x (by simp)
    obtain ⟨r, hr⟩ := mapExcept_ok (fun z hz => h z (List.mem_cons_of_mem _ hz))
    exact ⟨y :: r, by simp only [mapExcept, hy, hr]⟩

variable {calls : List Call} {s : Space}

/-- If the values of the clauses are legal, merging succeeds. -/
theorem merges (h : Reach calls s) (hown : OwnClauses calls) (hl : LegalClauses A calls) :
    ∃ fs, optimizedForbs A s.idx s.forbs = .ok fs := by
  have hi := sinv_of_reach h
  have hf := hi.fast
  unfold Verif.optimizedForbs at hf
  unfold optimizedForbs
  simp only at hf ⊢
  split at hf
  · cases hf
  · rename_i gs hgs
    have hmem : ∀ f ∈ s.forbs, f ∈ allForbs calls := fun f hf => hi.hist.forbs.mem_iff.1 hf
    have hp : ∀ p ∈ (s.forbs.filterMap Forb.eqConj?).map (sortBy (fun a b => decide (s.idx a.hp.name ≤ s.idx b.hp.name))),
        ∀ e ∈ p, e.hp ∈ allHps calls ∧ A.legalValue e.hp e.value = true := by
      intro p hp e he
      obtain ⟨q, hq, rfl⟩ := List.mem_map.1 hp
      rw [mem_sortBy] at he
      obtain ⟨f, hf, hfq⟩ := List.mem_filterMap.1 hq
      have hfe := eqConj_some hfq
      have hem : (Forb.eq e.hp e.value e.vval) ∈ q.map (fun p => Forb.eq p.hp p.value p.vval) :=
        List.mem_map.2 ⟨e, he, rfl⟩
      refine ⟨hown f (hmem f hf) e.hp ?_, hl f (hmem f hf) e.hp e.value ?_⟩
      · rw [hfe]
        simp only [clauseHps]
        exact mem_clauseHpsL.2 ⟨_, hem, by simp [clauseHps]⟩
      · rw [hfe]
        exact .and hem .eq
    have hgs' : Verif.optGroups ((s.forbs.filterMap Forb.eqConj?).map
        (sortBy (fun a b => decide (s.idx a.hp.name ≤ s.idx b.hp.name)))) [] = .ok gs := hgs
    obtain ⟨gs', e1, e2⟩ := optGroups_ok (A := A) (acc := []) hgs' (fun p hpm e he => (hp p hpm e he).2) (by simp)
    rw [e1]
    simp only
    obtain ⟨k1, -⟩ := optGroups_on (a := fun _ => none) (fun p hpm e he => (hp p hpm e he).1) (by simp) (by simp) e1
    obtain ⟨cs, hcs⟩ := mapExcept_ok (f := fun g => optEmit A g.2) (l := gs') (by
      intro kg hkg
      obtain ⟨hk, hg, hne⟩ := k1 kg hkg
      unfold optEmit
      simp only
      split
      · exact ⟨_, rfl⟩
      · rename_i hnil; exact absurd hnil hne
      · rename_i l ls _ hll
        have : ((l :: ls).map (fun p => p.value)).all (A.legalValue l.hp) = true := by
          rw [List.all_eq_true]
          intro w hw
          obtain ⟨p, hpm, rfl⟩ := List.mem_map.1 hw
          rw [← hll] at hpm
          have hlm : l ∈ kg.2.lasts := by rw [hll]; simp
          rw [reach_hp_inj h _ (hg l hlm) _ (hg p hpm) (by rw [hk.2 p hpm, hk.2 l hlm])]
          exact e2 kg hkg p hpm
        rw [if_pos this]
        exact ⟨_, rfl⟩)
    rw [hcs]
    exact ⟨_, rfl⟩

theorem forb_any_iff {fs : List Forb} {idx : Name → Nat} {v : AVec α} :
    (fs.any (fun f => onVec A idx v f)) = true ↔ ∃ f ∈ fs, Forbids A (asg idx v) f := by
  simp only [List.any_eq_true, onVec_iff]

theorem forbids_represents (h : Reach calls s) {v : AVec α} {a : Entries α}
    (hv : Represents s v a) {f : Forb} (hf : f ∈ allForbs calls) :
    Forbids A (asg s.idx v) f ↔ Forbids A a f := by
  have hi := sinv_of_reach h
  refine forbids_congr f (fun x hx => asg_of_represents hv ?_)
  have := hi.hist.forbNames f hf x.name
    (by rw [names_eq]; exact List.mem_map.2 ⟨x, hx, rfl⟩)
  rw [hi.com] at this
  exact this

/-- Whatever the merged clauses forbid is forbidden by a clause. -/
theorem merged_sound (h : Reach calls s) (hown : OwnClauses calls) {v : AVec α} {a : Entries α} (hv : Represents s v a)
    (hf : ((fast A s).any (fun f => onVec A s.idx v f)) = true) : ∃ f ∈ allForbs calls, Forbids A a f := by
  have hi := sinv_of_reach h
  have hmem : ∀ f, f ∈ s.dag.uncond ++ s.dag.condF ↔ f ∈ allForbs calls :=
    fun f => hi.hist.forbs.mem_iff
  unfold fast at hf
  cases ho : optimizedForbs A s.idx s.forbs with
  | error e => rw [ho] at hf; simp at hf
  | ok fs =>
    rw [ho] at hf
    simp only at hf
    rw [forb_any_iff, optimizedForbs_on (reach_hp_inj h) (fun f hf => hown f ((hmem f).1 hf)) ho] at hf
    obtain ⟨f, hf, hfa⟩ := hf
    have hf' := (hmem f).1 hf
    exact ⟨f, hf', (forbids_represents h hv hf').1 hfa⟩

theorem merged_iff (h : Reach calls s) (hown : OwnClauses calls) (hl : LegalClauses A calls) {v : AVec α} {a : Entries α}
    (hv : Represents s v a) :
    ((fast A s).any (fun f => onVec A s.idx v f)) = true ↔ ∃ f ∈ allForbs calls, Forbids A a f := by
  refine ⟨merged_sound h hown hv, ?_⟩
  have hi := sinv_of_reach h
  have hmem : ∀ f, f ∈ s.dag.uncond ++ s.dag.condF ↔ f ∈ allForbs calls :=
    fun f => hi.hist.forbs.mem_iff
  obtain ⟨fs, ho⟩ := merges h hown hl
  rintro ⟨f, hf, hfa⟩
  unfold fast
  rw [ho]
  simp only
  rw [forb_any_iff, optimizedForbs_on (reach_hp_inj h) (fun f hf => hown f ((hmem f).1 hf)) ho]
  exact ⟨f, (hmem f).2 hf, (forbids_represents h hv hf).2 hfa⟩

theorem at_idx {v : AVec α} {a : Entries α} (hv : Represents s v a) {n : Name} (hn : n ∈ s.names) :
    v.at (s.idx n) = a n := asg_of_represents hv hn

theorem holds_pyEq (hsep : Separable A calls) {c d : Cond} (hc : c ∈ allConds calls) (hd : d ∈ allConds calls)
    (h : c.pyEq d = true) (a : Entries α) : Holds A a c ↔ Holds A a d :=
  hsep c hc d hd (Cond.pyEq_equiv c d h) a

/-! ## The check -/

/-- What one step of the loop asks for. -/
def stepOk (A : Arith α β) (s : Space) (v : AVec α) (c : CNode) : Prop :=
  (satVec A s.idx v c.cond = true → ∀ n ∈ c.kids, legalAt A s v n = true) ∧
  (satVec A s.idx v c.cond = false → ∀ n ∈ c.kids, v.at (s.idx n) = none)

theorem legalAt_set {v : AVec α} {n : Name} (h : legalAt A s v n = true) :
    ∃ q, v.at (s.idx n) = some q := by
  unfold legalAt at h
  split at h
  · exact ⟨_, by assumption⟩
  · cases h

theorem checkConds_none {v : AVec α} : ∀ {l : List CNode},
    checkConds A s v false l = none ↔ ∀ c ∈ l, stepOk A s v c := by
  intro l
  induction l with
  | nil => simp [checkConds]
  | cons c cs ih =>
    rw [List.forall_mem_cons, ← ih]
    conv => lhs; unfold checkConds
    unfold stepOk
    by_cases hs : satVec A s.idx v c.cond = true
    · simp only [hs, if_true, true_implies, Bool.true_eq_false, false_implies, and_true]
      cases hf : firstWith (fun e => !e.isSome) s v c.kids with
      | some n =>
        simp only [reduceCtorEq, false_iff, not_and]
        intro h
        have hm := List.mem_of_find?_eq_some hf
        have hp := List.find?_some hf
        obtain ⟨q, hq⟩ := legalAt_set (h n hm)
        simp [hq] at hp
      | none =>
        simp only
        cases hl : c.kids.find? (fun n => !legalAt A s v n) with
        | some n =>
          simp only [reduceCtorEq, false_iff, not_and]
          intro h
          have hm := List.mem_of_find?_eq_some hl
          have hp := List.find?_some hl
          simp [h n hm] at hp
        | none =>
          simp only
          have : ∀ n ∈ c.kids, legalAt A s v n = true := by
            intro n hn
            have := List.find?_eq_none.1 hl n hn
            simpa using this
          exact ⟨fun h => ⟨this, h⟩, fun h => h.2⟩
    · simp only [hs, if_false, Bool.false_eq_true, false_implies, true_and, true_implies]
      cases hf : firstWith (fun e => e.isSome) s v c.kids with
      | some n =>
        have hm := List.mem_of_find?_eq_some hf
        have hp := List.find?_some hf
        have hne : ¬ ∀ n ∈ c.kids, v.at (s.idx n) = none := by
          intro h
          rw [h n hm] at hp
          simp at hp
        simp only
        constructor
        · intro h
          split at h
          · split at h <;> cases h
          · cases h
        · intro h
          exact absurd h.1 hne
      | none =>
        simp only
        have : ∀ n ∈ c.kids, v.at (s.idx n) = none := by
          intro n hn
          have := List.find?_eq_none.1 hf n hn
          cases hv : v.at (s.idx n) with
          | none => rfl
          | some q => simp [hv] at this
        exact ⟨fun h => ⟨this, h⟩, fun h => h.2⟩

theorem holds_represents (h : Reach calls s) {v : AVec α} {a : Entries α} (hv : Represents s v a) {c : Cond}
    (hc : c ∈ allConds calls) : satVec A s.idx v c = true ↔ Holds A a c := by
  rw [satVec_iff]
  exact holds_congr c (fun p hp => asg_of_represents hv (cond_parents_known h hc hp))



theorem legalAt_iff (h : Reach calls s) {v : AVec α} {a : Entries α} (hv : Represents s v a) {n : Name}
    (hn : n ∈ s.names) :
    legalAt A s v n = true ↔ (∃ q, a n = some q) ∧
      ∀ x ∈ allHps calls, x.name = n → ∀ q, a n = some q → A.legalVec x q = true := by
  unfold legalAt
  rw [at_idx hv hn]
  obtain ⟨x, hx, e⟩ := (reach_isNode h n).1 hn
  have hp := (hp_of h).2 ⟨hx, e⟩
  rw [hp]
  cases ha : a n with
  | none => simp
  | some q =>
    simp only [Option.some.injEq, exists_eq', true_and, forall_eq']
    constructor
    · intro hl y hy hyn
      rw [reach_hp_inj h y hy x hx (hyn.trans e.symm)]
      exact hl
    · intro hl
      exact hl x hx e

theorem firstWith_none {p : Option α → Bool} {v : AVec α} {ns : List Name} :
    firstWith p s v ns = none ↔ ∀ n ∈ ns, p (v.at (s.idx n)) = false := by
  unfold firstWith
  rw [List.find?_eq_none]
  simp

/-- The condition loop accepts exactly if activity and legality of the conditional hyperparameters are
right. -/
theorem checkConds_iff (h : Reach calls s) (hsep : Separable A calls) {v : AVec α} {a : Entries α}
    (hv : Represents s v a) :
    checkConds A s v false s.minConds = none ↔ ActivityOk A calls a ∧ LegalConditional A calls a := by
  have hi := sinv_of_reach h
  have hg := groupsOk_sorted s.com
  rw [← hi.mins] at hg
  rw [checkConds_none]
  -- the condition of a group and those of its members have the same meaning
  have hmean : ∀ g ∈ s.minConds, ∀ c ∈ allConds calls,
      (g.cond = c ∨ g.cond.equivOnParent c = true) → (satVec A s.idx v g.cond = true ↔ Holds A a c) := by
    intro g hgm c hc he
    obtain ⟨y, hy, _, hyc⟩ := hg.leader g hgm
    obtain ⟨k1, _, _⟩ := node_cond h hy hyc
    rw [holds_represents h hv k1]
    rcases he with rfl | he
    · rfl
    · exact hsep _ k1 _ hc he a
  constructor
  · intro hall
    have key : ∀ x ∈ s.com, ∀ c, x.cond = some c →
        (Holds A a c → legalAt A s v x.name = true) ∧ (¬ Holds A a c → a x.name = none) := by
      intro x hx c hc
      obtain ⟨g, hgm, hk, he⟩ := hg.covers x hx c hc
      have hm := hmean g hgm c (node_cond h hx hc).1 he
      obtain ⟨h1, h2⟩ := hall g hgm
      refine ⟨fun hh => h1 (hm.2 hh) _ hk, fun hh => ?_⟩
      have : satVec A s.idx v g.cond = false := by
        cases e : satVec A s.idx v g.cond with
        | false => rfl
        | true => exact absurd (hm.1 e) hh
      rw [← at_idx hv (mem_names hx)]
      exact h2 this _ hk
    constructor
    · intro d hd n hn
      obtain ⟨x, hx, rfl, c, hc⟩ := node_of_child h hd hn
      obtain ⟨k1, k2⟩ := key x hx c hc
      obtain ⟨m1, m2, m3⟩ := node_cond h hx hc
      have hcd := holds_pyEq hsep m1 hd (m3 d hd hn) a
      rw [← hcd]
      constructor
      · rintro ⟨q, hq⟩
        by_cases hh : Holds A a c
        · exact hh
        · rw [k2 hh] at hq; cases hq
      · intro hh
        exact ((legalAt_iff h hv (mem_names hx)).1 (k1 hh)).1
    · rintro y hy ⟨d, hd, hdn⟩ q hq
      obtain ⟨x, hx, e, c, hc⟩ := node_of_child h hd hdn
      obtain ⟨k1, k2⟩ := key x hx c hc
      rw [← e] at hq
      have hh : Holds A a c := by
        by_cases hh : Holds A a c
        · exact hh
        · rw [k2 hh] at hq; cases hq
      exact ((legalAt_iff h hv (mem_names hx)).1 (k1 hh)).2 y hy e.symm q hq
  · rintro ⟨hact, hleg⟩ g hgm
    constructor
    · intro hsat n hn
      obtain ⟨x, hx, rfl, c, hc, he⟩ := hg.members g hgm n hn
      obtain ⟨m1, m2, m3⟩ := node_cond h hx hc
      have hh := (hmean g hgm c m1 he).1 hsat
      rw [legalAt_iff h hv (mem_names hx)]
      refine ⟨(hact c m1 _ m2).2 hh, ?_⟩
      intro y hy e q hq
      exact hleg y hy ⟨c, m1, by rw [e]; exact m2⟩ q (by rw [e]; exact hq)
    · intro hsat n hn
      obtain ⟨x, hx, rfl, c, hc, he⟩ := hg.members g hgm n hn
      obtain ⟨m1, m2, m3⟩ := node_cond h hx hc
      rw [at_idx hv (mem_names hx)]
      cases ha : a x.name with
      | none => rfl
      | some q =>
        have hh := (hact c m1 _ m2).1 ⟨q, ha⟩
        rw [(hmean g hgm c m1 he).2 hh] at hsat
        cases hsat

theorem rootsSet_iff (h : Reach calls s) {v : AVec α} {a : Entries α} (hv : Represents s v a) :
    firstWith (fun e => !e.isSome) s v s.dag.roots = none ↔ RootsSet calls a := by
  rw [firstWith_none]
  constructor
  · intro hall n hk hc
    have := hall n ((C06_roots_no_condition h n).2 ⟨hk, hc⟩)
    rw [at_idx hv ((reach_isNode h n).2 hk)] at this
    cases ha : a n with
    | none => simp [ha] at this
    | some q => exact ⟨q, rfl⟩
  · intro hall n hn
    obtain ⟨hk, hc⟩ := (C06_roots_no_condition h n).1 hn
    obtain ⟨q, hq⟩ := hall n hk hc
    rw [at_idx hv ((reach_isNode h n).2 hk), hq]
    rfl

/-- What `check_configuration` decides. -/
theorem check_iff (h : Reach calls s) (hsep : Separable A calls) (hown : OwnClauses calls) (hl : LegalClauses A calls) {v : AVec α}
    {a : Entries α} (hv : Represents s v a) :
    check A s v = none ↔ RootsSet calls a ∧ ActivityOk A calls a ∧ LegalConditional A calls a ∧
      NotForbidden A calls a := by
  unfold check
  rw [← rootsSet_iff h hv]
  have hf := merged_iff h hown hl hv
  have hc := checkConds_iff h hsep hv
  cases h1 : firstWith (fun e => !e.isSome) s v s.dag.roots with
  | some n => simp
  | none =>
    simp only [true_and]
    cases h2 : checkConds A s v false s.minConds with
    | some e =>
      rw [h2] at hc
      simp only [reduceCtorEq, false_iff] at hc ⊢
      exact fun k => hc ⟨k.1, k.2.1⟩
    | none =>
      rw [h2] at hc
      obtain ⟨k1, k2⟩ := hc.1 rfl
      simp only
      by_cases hb : ((fast A s).any (fun f => onVec A s.idx v f)) = true
      · rw [if_pos hb]
        obtain ⟨f, hfm, hff⟩ := hf.1 hb
        simp only [reduceCtorEq, false_iff]
        exact fun k => k.2.2 f hfm hff
      · rw [if_neg hb]
        simp only [true_iff]
        exact ⟨k1, k2, fun f hfm hff => hb (hf.2 ⟨f, hfm, hff⟩)⟩

/-- Every vector of the right length represents the assignment read off it. -/
theorem represents_asg (h : Reach calls s) {v : AVec α} (hl : v.length = s.len) :
    Represents s v (asg s.idx v) := by
  have hn := reach_ninv h
  exact ⟨hl, fun i n hin => by simp only [asg, Space.idx, idx_unique hn.nodup hin]⟩

/-! ## Active hyperparameters and the rigorous validator -/

/-- A tight condition that holds has all its parents set. -/
theorem tight_parents {a : Entries α}
    (hr : RootsSet calls a) {c : Cond} (ht : Tight calls c) (hp : ∀ p ∈ c.parents, Known calls p)
    (hh : Holds A a c) : ∀ p ∈ c.parents, ∃ q, a p = some q := by
  induction ht with
  | @pos l hne =>
    intro p hpm
    simp only [Cond.parents, Cond.dlcs, List.map_cons, List.map_nil, List.mem_singleton] at hpm
    subst hpm
    rw [holds_lit] at hh
    unfold LitHolds at hh
    cases ht : l.test with
    | isIn vs xs => rw [ht] at hh; obtain ⟨q, _, k⟩ := hh; exact ⟨_, k⟩
    | bin op w x =>
      rw [ht] at hh
      cases op with
      | eq => exact ⟨_, hh⟩
      | ne => exact absurd ⟨w, x, ht⟩ hne
      | lt => obtain ⟨q, k, _⟩ := hh; exact ⟨q, k⟩
      | gt => obtain ⟨q, k, _⟩ := hh; exact ⟨q, k⟩
  | root hc =>
    intro p hpm
    obtain ⟨l, hl, e⟩ := parents_iff.1 hpm
    exact hr p (hp p hpm) (e ▸ hc l hl)
  | @and cs _ ih =>
    intro p hpm
    rw [parents_and] at hpm
    obtain ⟨c, hc, hpc⟩ := mem_parentsL.1 hpm
    refine ih c hc (fun q hq => hp q ?_) (holds_and.1 hh c hc) p hpc
    rw [parents_and]
    exact mem_parentsL.2 ⟨c, hc, hq⟩

theorem isActive_iff (h : Reach calls s) {v : AVec α} {a : Entries α} (hv : Represents s v a)
    (ht : ∀ c ∈ allConds calls, Tight calls c) (hr : RootsSet calls a) {x : Node} (hx : x ∈ s.com) :
    isActive A s v x = true ↔ ∀ c, x.cond = some c → Holds A a c := by
  unfold isActive
  cases hc : x.cond with
  | none => simp
  | some c =>
    obtain ⟨m1, m2, m3⟩ := node_cond h hx hc
    simp only [Option.some.injEq, forall_eq']
    have hk : ∀ c ∈ allConds calls, ∀ p ∈ c.parents, Known calls p := fun c hc p hp =>
      (reach_isNode h p).1 (cond_parents_known h hc hp)
    by_cases ha : c.parents.any (fun p => !(v.at (s.idx p)).isSome) = true
    · rw [if_pos ha]
      simp only [Bool.false_eq_true, false_iff]
      intro hh
      obtain ⟨p, hp, hpn⟩ := List.any_eq_true.1 ha
      obtain ⟨q, hq⟩ := tight_parents hr (ht c m1) (hk c m1) hh p hp
      rw [at_idx hv (cond_parents_known h m1 hp), hq] at hpn
      cases hpn
    · rw [if_neg ha]
      exact holds_represents h hv m1

theorem mem_active (h : Reach calls s) {v : AVec α} {x : Node} (hx : x ∈ s.com) :
    x.name ∈ activeNames A s v ↔ isActive A s v x = true := by
  have hn := reach_ninv h
  unfold activeNames
  constructor
  · intro hm
    obtain ⟨y, hy, e⟩ := List.mem_map.1 hm
    obtain ⟨h1, h2⟩ := List.mem_filter.1 hy
    have h3 := findNode_of_mem hn.nodup h1
    have h4 := findNode_of_mem hn.nodup hx
    rw [e, h4] at h3
    cases h3
    exact h2
  · intro ha
    exact List.mem_map.2 ⟨x, List.mem_filter.2 ⟨hx, ha⟩, rfl⟩

theorem rigorousLoop_none {v : AVec α} : ∀ {l : List Node}, rigorousLoop A s v false l = none ↔
    ∀ x ∈ l, (∀ q, v.at (s.idx x.name) = some q → A.legalVec x.hp q = true) ∧
      (x.name ∈ activeNames A s v ↔ ∃ q, v.at (s.idx x.name) = some q) := by
  intro l
  induction l with
  | nil => simp [rigorousLoop]
  | cons x xs ih =>
    rw [List.forall_mem_cons, ← ih]
    conv => lhs; unfold rigorousLoop
    cases hv : v.at (s.idx x.name) with
    | none =>
      by_cases ha : x.name ∈ activeNames A s v <;> simp [ha]
    | some q =>
      by_cases hl : A.legalVec x.hp q = true
      · by_cases ha : x.name ∈ activeNames A s v <;> simp [ha, hl]
      · simp [hl]

end Verif.AnyNum
