import Verif.Lemmas.Scaled

/-!
# Logarithmic scales: conditions, clauses and the checks on a vector and its twin
-/

set_option autoImplicit false

set_option linter.unusedSectionVars false

namespace Verif.Scaled
open Verif Verif.Spec Verif.Num

variable {calls : List Call} {s : Space}

/-- What a clause satisfies. -/
structure Fine (H : List HP) (R : ℝ → Prop) (f : Forb) : Prop where
  wf : f.wf = true
  hps : ∀ h ∈ clauseHps f, h ∈ H
  vals : ∀ p ∈ clauseVals f, ValIn R p.1.kind p.2

theorem fine_and {H : List HP} {R : ℝ → Prop} {cs : List Forb} : Fine H R (.and cs) ↔ ∀ c ∈ cs, Fine H R c := by
  constructor
  · intro h c hc
    refine ⟨wfL_iff.1 (by simpa [Forb.wf] using h.wf) c hc, fun x hx => h.hps x ?_, fun p hp => h.vals p ?_⟩
    · simp only [clauseHps]; exact mem_clauseHpsL.2 ⟨c, hc, hx⟩
    · simp only [clauseVals]; exact F64.mem_clauseValsL.2 ⟨c, hc, hp⟩
  · intro h
    refine ⟨by simp only [Forb.wf]; exact wfL_iff.2 (fun c hc => (h c hc).wf), fun x hx => ?_, fun p hp => ?_⟩
    · simp only [clauseHps] at hx
      obtain ⟨c, hc, hx⟩ := mem_clauseHpsL.1 hx
      exact (h c hc).hps x hx
    · simp only [clauseVals] at hp
      obtain ⟨c, hc, hp⟩ := F64.mem_clauseValsL.1 hp
      exact (h c hc).vals p hp

/-- What the space, the scales and the set of numbers satisfy. -/
structure Cover (lg : Scales) (calls : List Call) (R : ℝ → Prop) : Prop where
  pos : ∀ h ∈ allHps calls, Pos (lg h) h.kind
  kinds : ∀ h ∈ allHps calls, KindIn R h.kind
  conds : ∀ c ∈ allConds calls, ∀ l ∈ c.dlcs, l.parent ∈ allHps calls ∧ ∀ w ∈ testVals l.test, ValIn R l.parent.kind w
  clauses : ∀ f ∈ allForbs calls, ∀ p ∈ clauseVals f, ValIn R p.1.kind p.2
  own : OwnClauses calls

/-! ## Conditions -/

theorem lit_ok {l : Lit} (h : l.wf = true) : l.parent.wf = true ∧ (match l.test with
      | .bin _ v x => l.parent.kind.legalValue v = true ∧ l.parent.kind.toVec v = some x
      | .isIn vs xs => (∀ v ∈ vs, l.parent.kind.legalValue v = true) ∧ xs = vs.filterMap l.parent.kind.toVec) := by
  unfold Lit.wf at h
  rw [Bool.and_eq_true, Bool.and_eq_true, Bool.and_eq_true] at h
  obtain ⟨⟨⟨-, -⟩, hpw⟩, ht⟩ := h
  refine ⟨hpw, ?_⟩
  cases hte : l.test with
  | bin op v x =>
    rw [hte] at ht
    simp only [Bool.and_eq_true, decide_eq_true_eq] at ht
    exact ht.1
  | isIn vs xs =>
    rw [hte] at ht
    simp only [Bool.and_eq_true, List.all_eq_true, decide_eq_true_eq] at ht
    exact ht

theorem satVec_congr (lg : Scales) (c : Cond) (idx : Name → Nat) (v : RVec) (v' : Vec)
    (h : ∀ l ∈ c.dlcs, onEntryB (lg l.parent) l.parent.kind l.test (v.at (idx l.parent.name)) =
      l.test.onEntry (v'.at (idx l.parent.name))) : satVec lg idx v c = c.satVec idx v' := by
  induction c using Cond.induct with
  | hl l => simpa [satVec, Cond.satVec] using h l (by simp [Cond.dlcs])
  | ha cs ih =>
    simp only [satVec, Cond.satVec]
    have h' : ∀ c ∈ cs, satVec lg idx v c = c.satVec idx v' := fun c hc =>
      ih c hc (fun l hl => h l (by rw [Cond.dlcs]; exact mem_dlcsL.2 ⟨c, hc, hl⟩))
    clear ih h
    induction cs with
    | nil => rfl
    | cons c cs ih =>
      simp only [satVecAll, Cond.satVecAll, h' c (by simp), ih (fun x hx => h' x (by simp [hx]))]
  | ho cs ih =>
    simp only [satVec, Cond.satVec]
    have h' : ∀ c ∈ cs, satVec lg idx v c = c.satVec idx v' := fun c hc =>
      ih c hc (fun l hl => h l (by rw [Cond.dlcs]; exact mem_dlcsL.2 ⟨c, hc, hl⟩))
    clear ih h
    induction cs with
    | nil => rfl
    | cons c cs ih =>
      simp only [satVecAny, Cond.satVecAny, h' c (by simp), ih (fun x hx => h' x (by simp [hx]))]

/-! ## Clauses -/

section Clauses
variable {H : List HP} {lg : Scales} {R : ℝ → Prop} {φ : ℝ → Rat} (hφ : Keeps R φ)
  (hH : ∀ h ∈ H, h.wf = true ∧ KindIn R h.kind ∧ Pos (lg h) h.kind)
include hφ hH

theorem onVec_twin {idx : Name → Nat} {v : RVec} {v' : Vec}
    (hs : ∀ h ∈ H, Ent (lg h) h.kind R φ (v.at (idx h.name)) (v'.at (idx h.name))) (f : Forb) (hf : Fine H R f) :
    onVec lg idx v f = f.onVec idx v' := by
  induction f using Forb.induct with
  | he h w x =>
    have hh := hf.hps h (by simp [clauseHps])
    have hwf := hf.wf
    simp only [Forb.wf, Bool.and_eq_true, decide_eq_true_eq] at hwf
    have := eqEntry_twin hφ (hH h hh).1 (hH h hh).2.2 rfl hwf.1.2 hwf.2 (hf.vals (h, w) (by simp [clauseVals])) (hs h hh)
    simp only [onVec, this]
    rfl
  | hi h ws xs =>
    have hh := hf.hps h (by simp [clauseHps])
    have hwf := hf.wf
    simp only [Forb.wf, Bool.and_eq_true, List.all_eq_true, decide_eq_true_eq] at hwf
    have := inEntry_twin hφ (hH h hh).1 (hH h hh).2.2 rfl hwf.1.2
      (fun w hw => hf.vals (h, w) (by simp only [clauseVals, List.mem_map]; exact ⟨w, hw, rfl⟩)) (hs h hh)
    simp only [onVec, this, hwf.2]
    rfl
  | hr op l r =>
    have hl := hf.hps l (by simp [clauseHps])
    have hr := hf.hps r (by simp [clauseHps])
    simp only [onVec, Forb.onVec]
    exact rel_twin hφ (hH l hl).1 (hH r hr).1 (hH l hl).2.1 (hH r hr).2.1 (hH l hl).2.2 (hH r hr).2.2 (hs l hl) (hs r hr) op
  | ha cs ih =>
    simp only [onVec, Forb.onVec]
    have h' : ∀ c ∈ cs, onVec lg idx v c = c.onVec idx v' := fun c hc => ih c hc (fine_and.1 hf c hc)
    clear ih hf
    induction cs with
    | nil => rfl
    | cons c cs ih =>
      simp only [onVecAll, Forb.onVecAll, h' c (by simp), ih (fun x hx => h' x (by simp [hx]))]

end Clauses

/-! ## Merging of clauses -/

noncomputable section

def partKeyR (lg : Scales) (p : EqPart) : Name × Option ℝ := (p.hp.name, toVec (lg p.hp) p.hp.kind p.value)

def PartFine (H : List HP) (R : ℝ → Prop) (p : EqPart) : Prop := PartOk H p ∧ ValIn R p.hp.kind p.value

def groupR (lg : Scales) (kg : (Name × List (Name × Rat)) × OptGroup) : (Name × List (Name × Option ℝ)) × OptGroup :=
  ((kg.1.1, kg.2.firsts.map (partKeyR lg)), kg.2)

end

section Merge
variable {H : List HP} {lg : Scales} {R : ℝ → Prop} (hH : ∀ h ∈ H, h.wf = true ∧ Pos (lg h) h.kind)
  (hinj : ∀ x ∈ H, ∀ y ∈ H, x.name = y.name → x = y)
include hH hinj

theorem partKey_eq {p q : EqPart} (hp : PartFine H R p) (hq : PartFine H R q) :
    partKeyR lg p = partKeyR lg q ↔ F64.partKey p = F64.partKey q := by
  unfold partKeyR F64.partKey
  simp only [Prod.mk.injEq]
  refine and_congr_right (fun hn => ?_)
  have he := hinj _ hp.1.1 _ hq.1.1 hn
  obtain ⟨a, ea⟩ := numberOf_legal hp.1.2.1
  obtain ⟨b, eb⟩ := numberOf_legal hq.1.2.1
  have h1 := hp.1.2.2
  have h2 := hq.1.2.2
  have l2 := hq.1.2.1
  rw [← he] at h2 eb l2 ⊢
  rw [kvec_eq, ea] at h1
  rw [kvec_eq, eb] at h2
  simp only [Option.map_some, Option.some.injEq] at h1 h2
  obtain ⟨g1, g2⟩ := hH _ hp.1.1
  rw [toVec_eq, toVec_eq, ea, eb]
  simp only [Option.map_some, Option.some.injEq]
  rw [encR_eq g1 g2 (numberOf_dom g2 hp.1.2.1 ea) (numberOf_dom g2 l2 eb), ← h1, ← h2, encQ_eq g1]
  exact Rat.cast_inj

theorem partKeys_eq {fs gs : List EqPart} (hf : ∀ p ∈ fs, PartFine H R p) (hg : ∀ p ∈ gs, PartFine H R p) :
    fs.map (partKeyR lg) = gs.map (partKeyR lg) ↔ fs.map F64.partKey = gs.map F64.partKey := by
  induction fs generalizing gs with
  | nil => cases gs <;> simp
  | cons p fs ih =>
    cases gs with
    | nil => simp
    | cons q gs =>
      simp only [List.map_cons, List.cons.injEq]
      rw [partKey_eq hH hinj (hf p (by simp)) (hg q (by simp)),
        ih (fun x hx => hf x (by simp [hx])) (fun x hx => hg x (by simp [hx]))]

theorem optInsert_eq {fs : List EqPart} {l : EqPart} (hf : ∀ p ∈ fs, PartFine H R p) : ∀ {acc},
    (∀ kg ∈ acc, KeyRight kg) → (∀ kg ∈ acc, ∀ p ∈ kg.2.firsts, PartFine H R p) →
    optInsert lg fs l (acc.map (groupR lg)) = (Verif.optInsert fs l acc).map (groupR lg)
  | [], _, _ => by simp [optInsert, Verif.optInsert, groupR, optKey, Verif.optKey, partKeyR]
  | (k, g) :: rest, hk, hp => by
    have ih := optInsert_eq hf (l := l) (acc := rest) (fun kg h => hk kg (by simp [h])) (fun kg h => hp kg (by simp [h]))
    have k0 := (hk (k, g) (by simp)).1
    have he : (groupR lg (k, g)).1 = optKey lg fs l ↔ k = Verif.optKey fs l := by
      have e1 : (groupR lg (k, g)).1 = (k.1, g.firsts.map (partKeyR lg)) := rfl
      have e2 : optKey lg fs l = (l.hp.name, fs.map (partKeyR lg)) := rfl
      have e3 : Verif.optKey fs l = (l.hp.name, fs.map F64.partKey) := rfl
      have e4 : k = (k.1, g.firsts.map F64.partKey) := by rw [← Prod.mk.eta (p := k)]; exact congrArg _ k0
      rw [e1, e2, e3, e4]
      simp only [Prod.mk.injEq]
      rw [partKeys_eq hH hinj (hp (k, g) (by simp)) hf]
    simp only [List.map_cons]
    have e5 : groupR lg (k, g) = ((groupR lg (k, g)).1, (groupR lg (k, g)).2) := rfl
    rw [e5]
    simp only [optInsert, Verif.optInsert]
    by_cases hc : k = Verif.optKey fs l
    · rw [if_pos (he.2 hc), if_pos hc]; simp [groupR]
    · rw [if_neg (fun h => hc (he.1 h)), if_neg hc]; simp only [List.map_cons, ih]

theorem optGroups_eq : ∀ {ps : List (List EqPart)} {acc gs}, (∀ p ∈ ps, ∀ e ∈ p, PartFine H R e) →
    (∀ kg ∈ acc, KeyRight kg) → (∀ kg ∈ acc, (∀ p ∈ kg.2.firsts, PartFine H R p) ∧ ∀ p ∈ kg.2.lasts, PartFine H R p) →
    Verif.optGroups ps acc = .ok gs → optGroups lg ps (acc.map (groupR lg)) = .ok (gs.map (groupR lg))
  | [], acc, gs, _, _, _, h => by
    simp only [Verif.optGroups, Except.ok.injEq] at h
    subst h
    rfl
  | p :: ps, acc, gs, hp, hk, hg, h => by
    simp only [Verif.optGroups] at h
    simp only [optGroups]
    split at h
    · cases h
    · rename_i fs l hs
      have he := splitLast_some hs
      have hpp := hp p (by simp)
      rw [hs]
      rw [he] at hpp
      simp only
      rw [optInsert_eq hH hinj (fun e he => hpp e (by simp [he])) hk (fun kg hkg => (hg kg hkg).1)]
      exact optGroups_eq (fun q hq => hp q (List.mem_cons_of_mem _ hq)) (optInsert_keys (fs := fs) (l := l) hk)
        (F64.optInsert_all (fun e he => hpp e (by simp [he])) (hpp l (by simp)) hg) h

/-- The clause made of a group. -/
theorem optEmit_fine {kg : (Name × List (Name × Rat)) × OptGroup} (hk : KeyRight kg)
    (hf : ∀ p ∈ kg.2.firsts, PartFine H R p) (hl : ∀ p ∈ kg.2.lasts, PartFine H R p) {f : Forb} (h : optEmit kg.2 = .ok f) :
    Fine H R f := by
  have fineEq : ∀ p, PartFine H R p → Fine H R (.eq p.hp p.value p.vval) := by
    intro p hp
    refine ⟨?_, by simpa [clauseHps] using hp.1.1, by simpa [clauseVals] using hp.2⟩
    simp [Forb.wf, (hH _ hp.1.1).1, hp.1.2.1, hp.1.2.2]
  unfold optEmit at h
  simp only at h
  split at h
  · rename_i l hl'
    cases h
    rw [hl'] at hl
    refine fine_and.2 ?_
    intro c hc
    simp only [List.mem_append, List.mem_map, List.mem_singleton] at hc
    rcases hc with ⟨p, hp, rfl⟩ | rfl
    · exact fineEq p (hf p hp)
    · exact fineEq l (hl l (by simp))
  · cases h
  · rename_i l ls hne hl'
    have hall : ∀ p ∈ kg.2.lasts, p.hp = l.hp ∧ PartFine H R p := by
      intro p hp
      have hlm : l ∈ kg.2.lasts := by rw [hl']; simp
      exact ⟨hinj _ (hl p hp).1.1 _ (hl l hlm).1.1 (by rw [hk.2 p hp, hk.2 l hlm]), hl p hp⟩
    rw [hl'] at hl hall
    have hlH := (hl l (by simp)).1.1
    simp only [bind, Except.bind] at h
    split at h
    · cases h
    · rename_i c hc
      cases h
      unfold mkForbIn at hc
      split at hc
      · rename_i hleg
        cases hc
        refine fine_and.2 ?_
        intro c hc
        simp only [List.mem_append, List.mem_map, List.mem_singleton] at hc
        rcases hc with ⟨p, hp, rfl⟩ | rfl
        · exact fineEq p (hf p hp)
        · refine ⟨?_, by simpa [clauseHps] using hlH, ?_⟩
          · simp only [Forb.wf, (hH _ hlH).1, hleg, decide_true, Bool.and_true]
          · intro q hq
            simp only [clauseVals] at hq
            obtain ⟨v, hv, rfl⟩ := List.mem_map.1 hq
            obtain ⟨p, hp, rfl⟩ := List.mem_map.1 hv
            have := hall p hp
            rw [← this.1]
            exact this.2.2
      · cases hc

/-- The clauses are merged as on linear scales. -/
theorem optimizedForbs_eq {idx : Name → Nat} {fs fast : List Forb} (hfs : ∀ f ∈ fs, Fine H R f)
    (h : Verif.optimizedForbs idx fs = .ok fast) : optimizedForbs lg idx fs = .ok fast ∧ ∀ f ∈ fast, Fine H R f := by
  have hfine : ∀ p ∈ (fs.filterMap Forb.eqConj?).map
      (sortBy (fun a b => decide (idx a.hp.name ≤ idx b.hp.name))), ∀ e ∈ p, PartFine H R e := by
    intro p hp e he
    obtain ⟨q, hq, rfl⟩ := List.mem_map.1 hp
    rw [mem_sortBy] at he
    obtain ⟨f, hf, hfq⟩ := List.mem_filterMap.1 hq
    have hff := hfs f hf
    rw [eqConj_some hfq] at hff
    have h0 := fine_and.1 hff _ (List.mem_map.2 ⟨e, he, rfl⟩)
    have hw := h0.wf
    simp only [Forb.wf, Bool.and_eq_true, decide_eq_true_eq] at hw
    exact ⟨⟨h0.hps _ (by simp [clauseHps]), hw.1.2, hw.2⟩, h0.vals (e.hp, e.value) (by simp [clauseVals])⟩
  unfold Verif.optimizedForbs at h
  unfold optimizedForbs
  simp only at h ⊢
  split at h
  · cases h
  · rename_i gs hgs
    have h1 := optGroups_eq hH hinj hfine (acc := []) (by simp) (by simp) hgs
    have h2 := F64.optGroups_all hfine (by simp) (by simp) hgs
    simp only [List.map_nil] at h1
    rw [h1]
    simp only
    split at h
    · cases h
    · rename_i cs hcs
      cases h
      have h3 : ∀ {gs cs}, (∀ kg ∈ gs, KeyRight kg ∧ (∀ p ∈ kg.2.firsts, PartFine H R p) ∧ ∀ p ∈ kg.2.lasts, PartFine H R p) →
          mapExcept (fun g : (Name × List (Name × Rat)) × OptGroup => optEmit g.2) gs = .ok cs →
          mapExcept (fun g : (Name × List (Name × Option ℝ)) × OptGroup => optEmit g.2) (gs.map (groupR lg)) =
            .ok cs ∧ ∀ f ∈ cs, Fine H R f := by
        intro gs
        induction gs with
        | nil =>
          intro cs _ hc
          simp only [mapExcept, Except.ok.injEq] at hc
          subst hc
          exact ⟨rfl, by simp⟩
        | cons g gs ih =>
          intro cs hg hc
          simp only [mapExcept] at hc
          split at hc
          · cases hc
          · rename_i y hy
            split at hc
            · cases hc
            · rename_i ys hys
              cases hc
              obtain ⟨i1, i2⟩ := ih (fun kg hkg => hg kg (by simp [hkg])) hys
              obtain ⟨g1, g2, g3⟩ := hg g (by simp)
              refine ⟨?_, ?_⟩
              · have hy' : optEmit (groupR lg g).2 = .ok y := hy
                simp only [List.map_cons, mapExcept, hy', i1]
              · intro f hf
                rcases List.mem_cons.1 hf with rfl | hf
                · exact optEmit_fine hH hinj g1 g2 g3 hy
                · exact i2 f hf
      obtain ⟨m1, m2⟩ := h3 h2 hcs
      rw [m1]
      refine ⟨rfl, ?_⟩
      intro f hf
      rcases List.mem_append.1 hf with hf | hf
      · exact hfs f (List.mem_filter.1 hf).1
      · exact m2 f hf

end Merge

/-! ## The check -/

/-- A vector and its twin. -/
def VTwin (lg : Scales) (calls : List Call) (s : Space) (R : ℝ → Prop) (φ : ℝ → Rat) (v : RVec) (v' : Vec) : Prop :=
  ∀ h ∈ allHps calls, Ent (lg h) h.kind R φ (v.at (s.idx h.name)) (v'.at (s.idx h.name))

section Check
variable {lg : Scales} {R : ℝ → Prop} {φ : ℝ → Rat} (hr : Reach calls s) (hφ : Keeps R φ) (hc : Cover lg calls R)
include hr hc

theorem Cover.good : ∀ h ∈ allHps calls, h.wf = true ∧ KindIn R h.kind ∧ Pos (lg h) h.kind :=
  fun h hh => ⟨(reach_wf hr).1 h hh, hc.kinds h hh, hc.pos h hh⟩

theorem fine_of {f : Forb} (hf : f ∈ allForbs calls) : Fine (allHps calls) R f :=
  ⟨(reach_wf hr).2.2 f hf, hc.own f hf, hc.clauses f hf⟩

theorem fast_eq : fast lg s = s.fast ∧ ∀ f ∈ s.fast, Fine (allHps calls) R f := by
  have hi := sinv_of_reach hr
  have hmem : ∀ f, f ∈ s.dag.uncond ++ s.dag.condF ↔ f ∈ allForbs calls := fun f => hi.hist.forbs.mem_iff
  obtain ⟨h1, h2⟩ := optimizedForbs_eq (lg := lg) (R := R) (H := allHps calls) (fun h hh => ⟨(hc.good hr h hh).1, (hc.good hr h hh).2.2⟩)
    (reach_hp_inj hr) (fun f hf => fine_of hr hc ((hmem f).1 hf)) hi.fast
  have : optimizedForbs lg s.idx s.forbs = .ok s.fast := h1
  refine ⟨?_, h2⟩
  unfold fast
  rw [this]

variable {v : RVec} {v' : Vec} (hs : VTwin lg calls s R φ v v')
include hφ hs

theorem cond_twin {c : Cond} (hcm : c ∈ allConds calls) : satVec lg s.idx v c = c.satVec s.idx v' := by
  refine satVec_congr lg c s.idx v v' (fun l hl => ?_)
  have hwf := (reach_wf hr).2.1 c hcm
  simp only [Cond.wf, Bool.and_eq_true] at hwf
  obtain ⟨h1, h2⟩ := hc.conds c hcm l hl
  obtain ⟨k1, k2⟩ := lit_ok (wf0_lit hwf.1 l hl)
  exact onEntry_twin hφ k1 (hc.pos _ h1) k2 h2 (hs _ h1)

theorem clause_twin {f : Forb} (hf : Fine (allHps calls) R f) : onVec lg s.idx v f = f.onVec s.idx v' :=
  onVec_twin hφ (hc.good hr) hs f hf

theorem entry_twin {n : Name} (hn : n ∈ s.names) : ∃ h ∈ allHps calls, h.name = n ∧ s.hp? n = some h ∧
    Ent (lg h) h.kind R φ (v.at (s.idx n)) (v'.at (s.idx n)) := by
  obtain ⟨x, hx, e⟩ := (reach_isNode hr n).1 hn
  refine ⟨x, hx, e, (hp_of hr).2 ⟨hx, e⟩, ?_⟩
  have := hs x hx
  rwa [e] at this

theorem legalAt_twin {n : Name} (hn : n ∈ s.names) : legalAt lg s v n = s.legalAt v' n := by
  obtain ⟨h, hh, -, e, hsame⟩ := entry_twin hr hφ hc hs hn
  unfold legalAt Space.legalAt
  rw [e]
  rcases hsame with ⟨e1, e2⟩ | ⟨x, y, e1, hst, hy, e2⟩
  · rw [e1, e2]
  · rw [e1, e2]
    obtain ⟨g1, g2, g3⟩ := hc.good hr h hh
    simp only
    rw [twin_legal hφ g1 g2 hst hy]
    exact @decide_eq_true _ (_) (stands_legal g1 g3 hst)

theorem isSet_twin {n : Name} (hn : n ∈ s.names) : (v.at (s.idx n)).isSome = isSet (v'.at (s.idx n)) := by
  obtain ⟨h, -, -, -, hsame⟩ := entry_twin hr hφ hc hs hn
  exact hsame.isSome.symm

theorem firstWith_twin {p : Option ℝ → Bool} {q : NV → Bool} {ns : List Name}
    (hpq : ∀ n ∈ ns, p (v.at (s.idx n)) = q (v'.at (s.idx n))) : firstWith p s v ns = Verif.firstWith q s v' ns := by
  unfold firstWith Verif.firstWith
  induction ns with
  | nil => rfl
  | cons n ns ih =>
    rw [List.find?_cons, List.find?_cons, hpq n (by simp), ih (fun m hm => hpq m (by simp [hm]))]

theorem checkConds_twin (al : Bool) : ∀ {cs : List CNode},
    (∀ g ∈ cs, g.cond ∈ allConds calls ∧ ∀ n ∈ g.kids, n ∈ s.names) → checkConds lg s v al cs = Verif.checkConds s v' al cs
  | [], _ => rfl
  | g :: cs, hg => by
    obtain ⟨h1, h2⟩ := hg g (by simp)
    have ih := checkConds_twin al (cs := cs) (fun g hgm => hg g (by simp [hgm]))
    have f1 : firstWith (fun e => !e.isSome) s v g.kids = Verif.firstWith (fun e => !isSet e) s v' g.kids :=
      firstWith_twin hr hφ hc hs (fun n hn => by rw [isSet_twin hr hφ hc hs (h2 n hn)])
    have f2 : firstWith (fun e => e.isSome) s v g.kids = Verif.firstWith isSet s v' g.kids :=
      firstWith_twin hr hφ hc hs (fun n hn => isSet_twin hr hφ hc hs (h2 n hn))
    have f3 : g.kids.find? (fun n => !legalAt lg s v n) = g.kids.find? (fun n => !s.legalAt v' n) := by
      clear hg ih f1 f2 h1
      generalize g.kids = ks at h2 ⊢
      induction ks with
      | nil => rfl
      | cons n ns ih =>
        rw [List.find?_cons, List.find?_cons, legalAt_twin hr hφ hc hs (h2 n (by simp)), ih (fun m hm => h2 m (by simp [hm]))]
    simp only [checkConds, Verif.checkConds, cond_twin hr hφ hc hs h1, f1, f2, f3, ih]
    split
    · rfl
    · split
      · rfl
      · cases hf : Verif.firstWith isSet s v' g.kids with
        | none => rfl
        | some n =>
          have hn := h2 n (List.mem_of_find?_eq_some hf)
          obtain ⟨h, hh, -, e, hsame⟩ := entry_twin hr hφ hc hs hn
          simp only [e]
          rcases hsame with ⟨e1, e2⟩ | ⟨x, y, e1, hst, hy, e2⟩
          · rw [e1, e2]
          · rw [e1, e2]
            obtain ⟨g1, g2, g3⟩ := hc.good hr h hh
            obtain ⟨r, w, t1, t2, -⟩ := toVal_twin hφ g1 g2 g3 hst hy
            simp only [t1, t2]

theorem any_twin {fs : List Forb} (hfs : ∀ f ∈ fs, Fine (allHps calls) R f) :
    fs.any (fun f => onVec lg s.idx v f) = fs.any (fun f => f.onVec s.idx v') := by
  induction fs with
  | nil => rfl
  | cons f fs ih =>
    rw [List.any_cons, List.any_cons, ih (fun g hg => hfs g (by simp [hg])), clause_twin hr hφ hc hs (hfs f (by simp))]

theorem check_twin (al : Bool) : check lg s v al = s.check v' al := by
  have hroots : ∀ n ∈ s.dag.roots, n ∈ s.names := fun n hn =>
    (reach_isNode hr n).2 ((C06_roots_no_condition hr n).1 hn).1
  obtain ⟨k1, k2⟩ := fast_eq hr hc
  unfold check Space.check
  rw [firstWith_twin hr hφ hc hs (q := fun e => !isSet e) (fun n hn => by rw [isSet_twin hr hφ hc hs (hroots n hn)]),
    checkConds_twin hr hφ hc hs al (fun g hg => F64.minConds_known hr hg), k1, any_twin hr hφ hc hs k2]
  rfl

theorem isActive_twin {x : Node} (hx : x ∈ s.com) : isActive lg s v x = Verif.isActive s v' x := by
  unfold isActive Verif.isActive
  cases hxc : x.cond with
  | none => rfl
  | some c =>
    have hcm := (node_cond hr hx hxc).1
    have hpar : c.parents.any (fun p => !(v.at (s.idx p)).isSome) = c.parents.any (fun p => !isSet (v'.at (s.idx p))) := by
      have hk : ∀ p ∈ c.parents, p ∈ s.names := fun p hp => cond_parents_known hr hcm hp
      generalize c.parents = ps at hk
      induction ps with
      | nil => rfl
      | cons p ps ih =>
        rw [List.any_cons, List.any_cons, ih (fun q hq => hk q (by simp [hq])), isSet_twin hr hφ hc hs (hk p (by simp))]
    simp only [hpar, cond_twin hr hφ hc hs hcm]

theorem activeNames_twin : activeNames lg s v = s.activeNames v' := by
  unfold activeNames Space.activeNames
  rw [List.filter_congr (fun x hx => isActive_twin hr hφ hc hs hx)]

theorem rigorousLoop_twin (al : Bool) : ∀ {l : List Node}, (∀ x ∈ l, x ∈ s.com) →
    rigorousLoop lg s v al l = Verif.rigorousLoop s v' al l
  | [], _ => rfl
  | x :: xs, hl => by
    have ih := rigorousLoop_twin al (l := xs) (fun y hy => hl y (by simp [hy]))
    have hn := mem_names (hl x (by simp))
    obtain ⟨h, hh, -, e, hsame⟩ := entry_twin hr hφ hc hs hn
    have hxh : h = x.hp := by
      unfold Space.hp? at e
      rw [findNode_of_mem (reach_ninv hr).nodup (hl x (by simp))] at e
      simpa using e.symm
    subst hxh
    simp only [rigorousLoop, Verif.rigorousLoop, activeNames_twin hr hφ hc hs, ih, isSet_twin hr hφ hc hs hn]
    rcases hsame with ⟨e1, e2⟩ | ⟨z, y, e1, hst, hy, e2⟩
    · rw [e1, e2]
    · rw [e1, e2]
      obtain ⟨g1, g2, g3⟩ := hc.good hr x.hp hh
      have hl' : legalVec (lg x.hp) x.hp.kind z := stands_legal g1 g3 hst
      simp [twin_legal hφ g1 g2 hst hy, hl']

theorem checkRigorous_twin (al : Bool) : checkRigorous lg s v al = s.checkRigorous v' al := by
  have hi := sinv_of_reach hr
  have hmem : ∀ f, f ∈ s.forbs ↔ f ∈ allForbs calls := fun f => hi.hist.forbs.mem_iff
  unfold checkRigorous Space.checkRigorous
  rw [rigorousLoop_twin hr hφ hc hs al (fun x hx => by rw [← hi.com]; exact hx),
    any_twin hr hφ hc hs (fun f hf => fine_of hr hc ((hmem f).1 hf))]
  rfl

end Check

end Verif.Scaled
