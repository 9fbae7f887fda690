import Verif.Lemmas.F64Space

/-!
# Spaces in double precision: conditions, clauses and the check
-/

set_option autoImplicit false

namespace Verif.F64
open Verif Verif.Spec

variable {calls : List Call} {s : Space}

/-- Two entries, exact and in double precision, of the same value. -/
def Same (k : Kind) (e e' : NV) : Prop :=
  (e = none ∧ e' = none) ∨ ∃ w x x', k.legalValue w = true ∧ Written k w ∧ k.toVec w = some x ∧
    toVec64 k w = some x' ∧ e = some x ∧ e' = some x'

theorem Same.isSet {k : Kind} {e e' : NV} (h : Same k e e') : isSet e' = isSet e := by
  rcases h with ⟨rfl, rfl⟩ | ⟨w, x, x', -, -, -, -, rfl, rfl⟩ <;> rfl

/-! ## Conditions -/

theorem filterMap_mem64 {h : HP} (hw : h.wf = true) (hm : Modest h.kind) {w : Val} {x x' : Rat} {vs : List Val}
    (lw : h.kind.legalValue w = true) (hw' : Written h.kind w) (ex : h.kind.toVec w = some x)
    (ex' : toVec64 h.kind w = some x') (hl : ∀ v ∈ vs, h.kind.legalValue v = true) (hv : ∀ v ∈ vs, Written h.kind v) :
    x' ∈ vs.filterMap (toVec64 h.kind) ↔ x ∈ vs.filterMap h.kind.toVec := by
  rw [List.mem_filterMap, List.mem_filterMap]
  constructor
  · rintro ⟨v, hvm, e⟩
    obtain ⟨y, ey⟩ := legal_toVec (hl v hvm)
    refine ⟨v, hvm, ?_⟩
    rw [ey, (toVec64_order hw hm (hl v hvm) lw (hv v hvm) hw' ey ex e ex').1.1 rfl]
  · rintro ⟨v, hvm, e⟩
    obtain ⟨y, ey⟩ := legal_toVec64 (hl v hvm)
    refine ⟨v, hvm, ?_⟩
    rw [ey, (toVec64_order hw hm (hl v hvm) lw (hv v hvm) hw' e ex ey ex').1.2 rfl]

theorem test64_onEntry {l : Lit} (hw : l.wf = true) (hm : Modest l.parent.kind)
    (hv : ∀ w ∈ testVals l.test, Written l.parent.kind w) {e e' : NV} (h : Same l.parent.kind e e') :
    (test64 l.parent.kind l.test).onEntry e' = l.test.onEntry e := by
  unfold Lit.wf at hw
  rw [Bool.and_eq_true, Bool.and_eq_true, Bool.and_eq_true] at hw
  obtain ⟨⟨⟨-, -⟩, hpw⟩, ht⟩ := hw
  cases hte : l.test with
  | bin op v x0 =>
    rw [hte] at ht hv
    simp only [Bool.and_eq_true, decide_eq_true_eq] at ht
    have lv := ht.1.1
    have ev := ht.1.2
    have wv := hv v (by simp [testVals])
    obtain ⟨y, ey⟩ := legal_toVec64 lv
    rcases h with ⟨rfl, rfl⟩ | ⟨w, x, x', lw, ww, ew, ew', rfl, rfl⟩
    · cases op <;> rfl
    · have h1 := toVec64_order hpw hm lw lv ww wv ew ev ew' ey
      have h2 := toVec64_order hpw hm lv lw wv ww ev ew ey ew'
      cases op <;> simp only [test64, ey, Option.getD_some, Test.onEntry, ne_eq, h1.1, h1.2, h2.2]
  | isIn vs xs =>
    rw [hte] at ht hv
    simp only [Bool.and_eq_true, List.all_eq_true, decide_eq_true_eq] at ht
    rcases h with ⟨rfl, rfl⟩ | ⟨w, x, x', lw, ww, ew, ew', rfl, rfl⟩
    · rfl
    · simp only [test64, Test.onEntry]
      simp only [ht.2, filterMap_mem64 hpw hm lw ww ew ew' ht.1 (fun v hvm => hv v (by simpa [testVals] using hvm))]

theorem cond64_satVec (c : Cond) (idx : Name → Nat) (v v' : Vec)
    (h : ∀ l ∈ c.dlcs, (test64 l.parent.kind l.test).onEntry (v'.at (idx l.parent.name)) =
      l.test.onEntry (v.at (idx l.parent.name))) : (cond64 c).satVec idx v' = c.satVec idx v := by
  induction c using Cond.induct with
  | hl l => simpa [cond64, Cond.satVec] using h l (by simp [Cond.dlcs])
  | ha cs ih =>
    simp only [cond64, Cond.satVec]
    have h' : ∀ c ∈ cs, (cond64 c).satVec idx v' = c.satVec idx v := fun c hc =>
      ih c hc (fun l hl => h l (by rw [Cond.dlcs]; exact mem_dlcsL.2 ⟨c, hc, hl⟩))
    clear ih h
    induction cs with
    | nil => rfl
    | cons c cs ih =>
      simp only [cond64L, Cond.satVecAll, h' c (by simp), ih (fun x hx => h' x (by simp [hx]))]
  | ho cs ih =>
    simp only [cond64, Cond.satVec]
    have h' : ∀ c ∈ cs, (cond64 c).satVec idx v' = c.satVec idx v := fun c hc =>
      ih c hc (fun l hl => h l (by rw [Cond.dlcs]; exact mem_dlcsL.2 ⟨c, hc, hl⟩))
    clear ih h
    induction cs with
    | nil => rfl
    | cons c cs ih =>
      simp only [cond64L, Cond.satVecAny, h' c (by simp), ih (fun x hx => h' x (by simp [hx]))]

/-! ## Clauses -/

/-- What the clauses of a precise space satisfy. -/
structure Fine (H : List HP) (f : Forb) : Prop where
  wf : f.wf = true
  hps : ∀ h ∈ clauseHps f, h ∈ H
  vals : ∀ p ∈ clauseVals f, Written p.1.kind p.2
  rels : ∀ p ∈ relPairs f, p.1.kind = p.2.kind ∨ ∀ lo hi, p.1.kind ≠ .flt lo hi ∧ p.2.kind ≠ .flt lo hi

theorem mem_relPairsL {cs : List Forb} {h : HP × HP} : h ∈ relPairsL cs ↔ ∃ c ∈ cs, h ∈ relPairs c := by
  induction cs with
  | nil => simp [relPairsL]
  | cons c cs ih => simp [relPairsL, ih]

theorem mem_clauseValsL {cs : List Forb} {p : HP × Val} : p ∈ clauseValsL cs ↔ ∃ c ∈ cs, p ∈ clauseVals c := by
  induction cs with
  | nil => simp [clauseValsL]
  | cons c cs ih => simp [clauseValsL, ih]

theorem fine_and {H : List HP} {cs : List Forb} : Fine H (.and cs) ↔ ∀ c ∈ cs, Fine H c := by
  constructor
  · intro h c hc
    refine ⟨wfL_iff.1 (by simpa [Forb.wf] using h.wf) c hc, fun x hx => h.hps x ?_, fun p hp => h.vals p ?_,
      fun x hx => h.rels x ?_⟩
    · simp only [clauseHps]; exact mem_clauseHpsL.2 ⟨c, hc, hx⟩
    · simp only [clauseVals]; exact mem_clauseValsL.2 ⟨c, hc, hp⟩
    · simp only [relPairs]; exact mem_relPairsL.2 ⟨c, hc, hx⟩
  · intro h
    refine ⟨by simp only [Forb.wf]; exact wfL_iff.2 (fun c hc => (h c hc).wf), fun x hx => ?_, fun p hp => ?_,
      fun x hx => ?_⟩
    · simp only [clauseHps] at hx
      obtain ⟨c, hc, hx⟩ := mem_clauseHpsL.1 hx
      exact (h c hc).hps x hx
    · simp only [clauseVals] at hp
      obtain ⟨c, hc, hp⟩ := mem_clauseValsL.1 hp
      exact (h c hc).vals p hp
    · simp only [relPairs] at hx
      obtain ⟨c, hc, hx⟩ := mem_relPairsL.1 hx
      exact (h c hc).rels x hx

theorem rintK_mono {x y : Rat} (h : x ≤ y) : Num.rintK x ≤ Num.rintK y := by
  by_contra hc
  have hlt : Num.rintK y + 1 ≤ Num.rintK x := by omega
  have h1 := abs_le.1 (Num.rintK_dist x)
  have h2 := abs_le.1 (Num.rintK_dist y)
  have h3 : ((Num.rintK y + 1 : Int) : Rat) ≤ (Num.rintK x : Int) := by exact_mod_cast hlt
  push_cast at h3
  have : x = y := by linarith
  rw [this] at hc
  exact hc le_rfl

theorem round13_mono {x y : Rat} (h : x ≤ y) : round13 x ≤ round13 y := by
  unfold round13
  refine rd_mono (div_le_div_of_nonneg_right ?_ (by norm_num))
  have := rintK_mono (rd_mono (mul_le_mul_of_nonneg_right h (by norm_num : (0 : Rat) ≤ 10 ^ 13)))
  exact_mod_cast this

/-- The value that is read from the vector of a number. -/
theorem toVal_flt {h : HP} {lo hi : Rat} (hk : h.kind = .flt lo hi) (hw : h.wf = true) {v : Val} {q x : Rat}
    (lv : h.kind.legalValue v = true) (hq : v.num? = some q) (ex : h.kind.toVec v = some x) : h.kind.toVal x = some (.flt q) := by
  have hlu := HP.wf_flt hw hk
  rw [hk] at ex lv ⊢
  simp only [Kind.toVec, hq, Option.map_some, Option.some.injEq] at ex
  simp only [Kind.legalValue, hq, Bool.and_eq_true, decide_eq_true_eq] at lv
  subst ex
  simp [Kind.toVal, scale_normalize hlu, clip_id lv.1 lv.2]

/-- Comparing the values of two float ranges with the same bounds. -/
theorem rel64_flt {l r : HP} {lo hi : Rat} (hkl : l.kind = .flt lo hi) (hkr : r.kind = .flt lo hi) (wl : l.wf = true)
    (ml : Modest l.kind) (wr : r.wf = true) (mr : Modest r.kind) {v w : Val} {x x' y y' : Rat}
    (lv : l.kind.legalValue v = true) (hv : Written l.kind v) (lw : r.kind.legalValue w = true) (hw : Written r.kind w)
    (ex : l.kind.toVec v = some x) (ex' : toVec64 l.kind v = some x') (ey : r.kind.toVec w = some y)
    (ey' : toVec64 r.kind w = some y') (op : RelOp) :
    rel64 op l r (some x') (some y') = relOnEntries op l r (some x) (some y) := by
  cases hq : v.num? with
  | none => rw [hkl] at lv; simp [Kind.legalValue, hq] at lv
  | some q =>
    cases hp : w.num? with
    | none => rw [hkr] at lw; simp [Kind.legalValue, hp] at lw
    | some p =>
      have e1 := toVal_flt hkl wl lv hq ex
      have e2 := toVal_flt hkr wr lw hp ey
      have r1 := toVal64_flt hkl wl ml lv hv hq ex'
      have r2 := toVal64_flt hkr wr mr lw hw hp ey'
      have t1 : toVal64 l.kind x' = some (.flt (toValFlt (rd lo) (rd hi) x')) := by rw [hkl]; rfl
      have t2 : toVal64 r.kind y' = some (.flt (toValFlt (rd lo) (rd hi) y')) := by rw [hkr]; rfl
      obtain ⟨dq, -, -, qb⟩ := flt_legal hkl ml lv hv hq
      obtain ⟨dp, -, -, pb⟩ := flt_legal hkr mr lw hw hp
      have hqe : q = p → toValFlt (rd lo) (rd hi) x' = toValFlt (rd lo) (rd hi) y' := by
        intro e
        rw [hkl] at ex'
        rw [hkr] at ey'
        simp only [toVec64, hq, hp, Option.map_some, Option.some.injEq] at ex' ey'
        rw [← ex', ← ey', e]
      simp only [rel64, relOnEntries, e1, e2, t1, t2]
      generalize toValFlt (rd lo) (rd hi) x' = a at *
      generalize toValFlt (rd lo) (rd hi) y' = b at *
      have hlt : a < b ↔ q < p := by
        constructor
        · intro h
          by_contra hc
          rcases (not_lt.1 hc).eq_or_lt with e | e
          · exact absurd (hqe e.symm) h.ne
          · have h1 := (rd_lt dp dq (.inl pb)).2 e
            have h2 := round13_mono h.le
            rw [r1, r2] at h2
            exact absurd h1 (not_lt.2 h2)
        · intro h
          by_contra hc
          have h1 := (rd_lt dq dp (.inl qb)).2 h
          have h2 := round13_mono (not_lt.1 hc)
          rw [r1, r2] at h2
          exact absurd h1 (not_lt.2 h2)
      have hgt : b < a ↔ p < q := by
        constructor
        · intro h
          by_contra hc
          rcases (not_lt.1 hc).eq_or_lt with e | e
          · exact absurd (hqe e).symm h.ne
          · exact absurd (hlt.2 e) (not_lt.2 h.le)
        · intro h
          by_contra hc
          rcases (not_lt.1 hc).eq_or_lt with e | e
          · rw [e] at r1
            rw [r1] at r2
            exact absurd ((rd_lt dp dq (.inl pb)).2 h) (by rw [r2]; exact lt_irrefl _)
          · exact absurd (hlt.1 e) (not_lt.2 h.le)
      cases op with
      | lt => simp [RelOp.onVals, Val.lt?, Val.num?, hlt]
      | gt => simp [RelOp.onVals, Val.lt?, Val.num?, hgt]
      | eq =>
        simp only [RelOp.onVals, Val.pyEq, Val.num?]
        rw [Bool.eq_iff_iff]
        simp only [beq_iff_eq, Option.some.injEq]
        constructor
        · intro e
          rcases lt_trichotomy q p with h | h | h
          · exact absurd (hlt.2 h) (by rw [e]; exact lt_irrefl _)
          · exact h
          · exact absurd (hgt.2 h) (by rw [e]; exact lt_irrefl _)
        · exact hqe

theorem forb64_onVec {H : List HP} (hH : ∀ h ∈ H, h.wf = true ∧ Modest h.kind) {idx : Name → Nat} {v v' : Vec}
    (hs : ∀ h ∈ H, Same h.kind (v.at (idx h.name)) (v'.at (idx h.name))) (f : Forb) (hf : Fine H f) :
    onVec64 idx v' (forb64 f) = f.onVec idx v := by
  induction f using Forb.induct with
  | he h w x =>
    have hh := hf.hps h (by simp [clauseHps])
    have hwf := hf.wf
    simp only [Forb.wf, Bool.and_eq_true, decide_eq_true_eq] at hwf
    have ww := hf.vals (h, w) (by simp [clauseVals])
    obtain ⟨y, ey⟩ := legal_toVec64 hwf.1.2
    simp only [forb64, onVec64, Forb.onVec, ey, Option.getD_some]
    rcases hs h hh with ⟨e1, e2⟩ | ⟨w', z, z', lw, ww', ez, ez', e1, e2⟩
    · rw [e1, e2]
    · rw [e1, e2]
      simp only [(toVec64_order (hH h hh).1 (hH h hh).2 lw hwf.1.2 ww' ww ez hwf.2 ez' ey).1]
  | hi h ws xs =>
    have hh := hf.hps h (by simp [clauseHps])
    have hwf := hf.wf
    simp only [Forb.wf, Bool.and_eq_true, List.all_eq_true, decide_eq_true_eq] at hwf
    have ww : ∀ w ∈ ws, Written h.kind w := fun w hw =>
      hf.vals (h, w) (by simp only [clauseVals, List.mem_map]; exact ⟨w, hw, rfl⟩)
    simp only [forb64, onVec64, Forb.onVec]
    rcases hs h hh with ⟨e1, e2⟩ | ⟨w', z, z', lw, ww', ez, ez', e1, e2⟩
    · rw [e1, e2]
    · rw [e1, e2, hwf.2]
      simp only [filterMap_mem64 (hH h hh).1 (hH h hh).2 lw ww' ez ez' hwf.1.2 ww]
  | hr op l r =>
    have hl := hf.hps l (by simp [clauseHps])
    have hr := hf.hps r (by simp [clauseHps])
    have fl := hf.rels (l, r) (by simp [relPairs])
    simp only at fl
    simp only [forb64, onVec64, Forb.onVec]
    rcases hs l hl with ⟨e1, e2⟩ | ⟨w, z, z', lw, ww, ez, ez', e1, e2⟩
    · rw [e1, e2]; rfl
    · rcases hs r hr with ⟨e3, e4⟩ | ⟨w2, y, y', lw2, ww2, ey, ey', e3, e4⟩
      · rw [e1, e2, e3, e4]; rfl
      · rw [e1, e2, e3, e4]
        by_cases hfl : ∃ lo hi, l.kind = .flt lo hi
        · obtain ⟨lo, hi, hk⟩ := hfl
          have hkk : l.kind = r.kind := fl.resolve_right (fun h => (h lo hi).1 hk)
          exact rel64_flt hk (hkk ▸ hk) (hH l hl).1 (hH l hl).2 (hH r hr).1 (hH r hr).2 lw ww lw2 ww2 ez ez' ey ey' op
        · have hnl : ∀ lo hi, l.kind ≠ .flt lo hi := fun lo hi h => hfl ⟨lo, hi, h⟩
          have hnr : ∀ lo hi, r.kind ≠ .flt lo hi := by
            rcases fl with h | h
            · rw [← h]; exact hnl
            · exact fun lo hi => (h lo hi).2
          simp only [rel64, relOnEntries, toVal64_toVec (hH l hl).1 (hH l hl).2 hnl lw ww ez ez',
            toVal64_toVec (hH r hr).1 (hH r hr).2 hnr lw2 ww2 ey ey']
          rfl
  | ha cs ih =>
    simp only [forb64, onVec64, Forb.onVec]
    have h' : ∀ c ∈ cs, onVec64 idx v' (forb64 c) = c.onVec idx v := fun c hc => ih c hc (fine_and.1 hf c hc)
    clear ih hf
    induction cs with
    | nil => rfl
    | cons c cs ih =>
      simp only [forb64L, onVecAll64, Forb.onVecAll, h' c (by simp), ih (fun x hx => h' x (by simp [hx]))]

/-! ## Merging of clauses -/

def part64 (p : EqPart) : EqPart := { p with vval := (toVec64 p.hp.kind p.value).getD 0 }

def partKey (p : EqPart) : Name × Rat := (p.hp.name, p.vval)

def PartFine (H : List HP) (p : EqPart) : Prop := PartOk H p ∧ Written p.hp.kind p.value

def group64 (kg : (Name × List (Name × Rat)) × OptGroup) : (Name × List (Name × Rat)) × OptGroup :=
  ((kg.1.1, (kg.2.firsts.map part64).map partKey), ⟨kg.2.firsts.map part64, kg.2.lasts.map part64⟩)

theorem forb64L_eq (cs : List Forb) : forb64L cs = cs.map forb64 := by
  induction cs with
  | nil => rfl
  | cons c cs ih => simp [forb64L, ih]

theorem eqParts64 (cs : List Forb) : eqParts (forb64L cs) = (eqParts cs).map (List.map part64) := by
  induction cs with
  | nil => rfl
  | cons c cs ih =>
    simp only [forb64L, eqParts, ih]
    cases c <;> simp only [forb64, Forb.eqPart?, Option.map_none] <;> cases eqParts cs <;> rfl

theorem eqConj64 (f : Forb) : (forb64 f).eqConj? = f.eqConj?.map (List.map part64) := by
  cases f with
  | and cs => simp only [forb64, Forb.eqConj?, eqParts64]
  | eq h v x => rfl
  | isIn h vs xs => rfl
  | rel op l r => rfl

theorem insBy_map {α : Type} (f : α → α) (le : α → α → Bool) (hf : ∀ a b, le (f a) (f b) = le a b) (x : α) (l : List α) :
    insBy le (f x) (l.map f) = (insBy le x l).map f := by
  induction l with
  | nil => rfl
  | cons y ys ih =>
    simp only [List.map_cons, insBy, hf]
    split <;> simp [ih]

theorem sortBy_map64 {α : Type} (f : α → α) (le : α → α → Bool) (hf : ∀ a b, le (f a) (f b) = le a b) (l : List α) :
    sortBy le (l.map f) = (sortBy le l).map f := by
  induction l with
  | nil => rfl
  | cons y ys ih => simp only [List.map_cons, sortBy, ih, insBy_map f le hf]

theorem splitLast_map {α β : Type} (f : α → β) (l : List α) :
    splitLast (l.map f) = (splitLast l).map (fun p => (p.1.map f, f p.2)) := by
  induction l with
  | nil => rfl
  | cons x xs ih =>
    cases xs with
    | nil => rfl
    | cons y ys =>
      simp only [List.map_cons] at ih ⊢
      simp only [splitLast, ih]
      cases splitLast (y :: ys) <;> rfl

theorem optInsert_all {P : EqPart → Prop} {fs : List EqPart} {l : EqPart} (hf : ∀ p ∈ fs, P p) (hl : P l) : ∀ {acc},
    (∀ kg ∈ acc, (∀ p ∈ kg.2.firsts, P p) ∧ ∀ p ∈ kg.2.lasts, P p) →
      ∀ kg ∈ optInsert fs l acc, (∀ p ∈ kg.2.firsts, P p) ∧ ∀ p ∈ kg.2.lasts, P p
  | [], _ => by
    intro kg hkg
    simp only [optInsert, List.mem_singleton] at hkg
    subst hkg
    exact ⟨hf, by simpa using hl⟩
  | (k, g) :: rest, h => by
    have hr := fun kg hkg => h kg (List.mem_cons_of_mem (k, g) hkg)
    have h0 := h (k, g) (by simp)
    intro kg hkg
    simp only [optInsert] at hkg
    split at hkg
    · rcases List.mem_cons.1 hkg with rfl | hkg
      · refine ⟨h0.1, ?_⟩
        intro p hp
        simp only [List.mem_append, List.mem_singleton] at hp
        rcases hp with hp | rfl
        · exact h0.2 p hp
        · exact hl
      · exact hr kg hkg
    · rcases List.mem_cons.1 hkg with rfl | hkg
      · exact h0
      · exact optInsert_all hf hl hr kg hkg

theorem optGroups_all {P : EqPart → Prop} : ∀ {ps : List (List EqPart)} {acc gs}, (∀ p ∈ ps, ∀ e ∈ p, P e) →
    (∀ kg ∈ acc, KeyRight kg) → (∀ kg ∈ acc, (∀ p ∈ kg.2.firsts, P p) ∧ ∀ p ∈ kg.2.lasts, P p) →
    optGroups ps acc = .ok gs →
    ∀ kg ∈ gs, KeyRight kg ∧ (∀ p ∈ kg.2.firsts, P p) ∧ ∀ p ∈ kg.2.lasts, P p
  | [], acc, gs, _, hk, hg, h => by
    simp only [optGroups, Except.ok.injEq] at h
    subst h
    exact fun kg hkg => ⟨hk kg hkg, hg kg hkg⟩
  | p :: ps, acc, gs, hp, hk, hg, h => by
    simp only [optGroups] at h
    split at h
    · cases h
    · rename_i fs l hs
      have he := splitLast_some hs
      subst he
      have hpp := hp (fs ++ [l]) (by simp)
      exact optGroups_all (fun q hq => hp q (List.mem_cons_of_mem _ hq)) (optInsert_keys (fs := fs) (l := l) hk)
        (optInsert_all (fun e he => hpp e (by simp [he])) (hpp l (by simp)) hg) h

section Merge
variable {H : List HP} (hH : ∀ h ∈ H, h.wf = true ∧ Modest h.kind) (hinj : ∀ x ∈ H, ∀ y ∈ H, x.name = y.name → x = y)
include hH hinj

theorem partKey_eq {p q : EqPart} (hp : PartFine H p) (hq : PartFine H q) :
    partKey (part64 p) = partKey (part64 q) ↔ partKey p = partKey q := by
  unfold partKey part64
  simp only [Prod.mk.injEq]
  refine and_congr_right (fun hn => ?_)
  have he := hinj _ hp.1.1 _ hq.1.1 hn
  obtain ⟨x', ex'⟩ := legal_toVec64 hp.1.2.1
  obtain ⟨y', ey'⟩ := legal_toVec64 hq.1.2.1
  rw [ex', ey']
  obtain ⟨h1, h2⟩ := hH _ hp.1.1
  have hq1 := hq.1.2.1
  have hq2 := hq.1.2.2
  have hq3 := hq.2
  rw [← he] at ey' hq1 hq2 hq3
  exact (toVec64_order h1 h2 hp.1.2.1 hq1 hp.2 hq3 hp.1.2.2 hq2 ex' ey').1

theorem partKeys_eq {fs gs : List EqPart} (hf : ∀ p ∈ fs, PartFine H p) (hg : ∀ p ∈ gs, PartFine H p) :
    (fs.map part64).map partKey = (gs.map part64).map partKey ↔ fs.map partKey = gs.map partKey := by
  induction fs generalizing gs with
  | nil => cases gs <;> simp
  | cons p fs ih =>
    cases gs with
    | nil => simp
    | cons q gs =>
      simp only [List.map_cons, List.cons.injEq]
      rw [partKey_eq hH hinj (hf p (by simp)) (hg q (by simp)),
        ih (fun x hx => hf x (by simp [hx])) (fun x hx => hg x (by simp [hx]))]

theorem optInsert64 {fs : List EqPart} {l : EqPart} (hf : ∀ p ∈ fs, PartFine H p) : ∀ {acc},
    (∀ kg ∈ acc, KeyRight kg) → (∀ kg ∈ acc, ∀ p ∈ kg.2.firsts, PartFine H p) →
    optInsert (fs.map part64) (part64 l) (acc.map group64) = (optInsert fs l acc).map group64
  | [], _, _ => by simp [optInsert, group64, optKey, partKey, part64]
  | (k, g) :: rest, hk, hp => by
    have ih := optInsert64 hf (l := l) (acc := rest) (fun kg h => hk kg (by simp [h])) (fun kg h => hp kg (by simp [h]))
    have k0 := (hk (k, g) (by simp)).1
    have he : (group64 (k, g)).1 = optKey (fs.map part64) (part64 l) ↔ k = optKey fs l := by
      have e1 : (group64 (k, g)).1 = (k.1, (g.firsts.map part64).map partKey) := rfl
      have e2 : optKey (fs.map part64) (part64 l) = (l.hp.name, (fs.map part64).map partKey) := rfl
      have e3 : optKey fs l = (l.hp.name, fs.map partKey) := rfl
      have e4 : k = (k.1, g.firsts.map partKey) := by rw [← Prod.mk.eta (p := k)]; exact congrArg _ k0
      rw [e1, e2, e3, e4]
      simp only [Prod.mk.injEq]
      rw [partKeys_eq hH hinj (hp (k, g) (by simp)) hf]
    simp only [List.map_cons]
    have e5 : group64 (k, g) = ((group64 (k, g)).1, (group64 (k, g)).2) := rfl
    rw [e5]
    simp only [optInsert, he]
    split
    · simp [group64]
    · simp only [List.map_cons, ih]

theorem optGroups64 : ∀ {ps : List (List EqPart)} {acc gs}, (∀ p ∈ ps, ∀ e ∈ p, PartFine H e) →
    (∀ kg ∈ acc, KeyRight kg) → (∀ kg ∈ acc, (∀ p ∈ kg.2.firsts, PartFine H p) ∧ ∀ p ∈ kg.2.lasts, PartFine H p) →
    optGroups ps acc = .ok gs →
    optGroups (ps.map (List.map part64)) (acc.map group64) = .ok (gs.map group64)
  | [], acc, gs, _, _, _, h => by
    simp only [optGroups, Except.ok.injEq] at h
    subst h
    rfl
  | p :: ps, acc, gs, hp, hk, hg, h => by
    simp only [optGroups] at h
    simp only [List.map_cons, optGroups, splitLast_map]
    split at h
    · cases h
    · rename_i fs l hs
      have he := splitLast_some hs
      have hpp := hp p (by simp)
      rw [hs]
      rw [he] at hpp
      simp only [Option.map_some]
      rw [optInsert64 hH hinj (fun e he => hpp e (by simp [he])) hk (fun kg hkg => (hg kg hkg).1)]
      exact optGroups64 (fun q hq => hp q (List.mem_cons_of_mem _ hq)) (optInsert_keys (fs := fs) (l := l) hk)
        (optInsert_all (fun e he => hpp e (by simp [he])) (hpp l (by simp)) hg) h

/-- The clause made of a group, in double precision, and what it satisfies. -/
theorem optEmit64_eq {kg : (Name × List (Name × Rat)) × OptGroup} (hk : KeyRight kg)
    (hf : ∀ p ∈ kg.2.firsts, PartFine H p) (hl : ∀ p ∈ kg.2.lasts, PartFine H p) {f : Forb} (h : optEmit kg.2 = .ok f) :
    optEmit64 (group64 kg).2 = .ok (forb64 f) ∧ Fine H f := by
  have fineEq : ∀ p, PartFine H p → Fine H (.eq p.hp p.value p.vval) := by
    intro p hp
    refine ⟨?_, by simpa [clauseHps] using hp.1.1, by simpa [clauseVals] using hp.2, by simp [relPairs]⟩
    simp [Forb.wf, (hH _ hp.1.1).1, hp.1.2.1, hp.1.2.2]
  have hfirst : forb64L (kg.2.firsts.map (fun p => Forb.eq p.hp p.value p.vval)) =
      (kg.2.firsts.map part64).map (fun p => Forb.eq p.hp p.value p.vval) := by
    rw [forb64L_eq, List.map_map, List.map_map]
    rfl
  have happ : ∀ a b, forb64L (a ++ b) = forb64L a ++ forb64L b := by
    intro a b
    simp only [forb64L_eq, List.map_append]
  unfold optEmit at h
  unfold optEmit64 group64
  simp only at h ⊢
  split at h
  · rename_i l hl'
    cases h
    rw [hl'] at hl ⊢
    refine ⟨?_, fine_and.2 ?_⟩
    · simp only [List.map_cons, List.map_nil, forb64, happ, hfirst]
      rfl
    · intro c hc
      simp only [List.mem_append, List.mem_map, List.mem_singleton] at hc
      rcases hc with ⟨p, hp, rfl⟩ | rfl
      · exact fineEq p (hf p hp)
      · exact fineEq l (hl l (by simp))
  · cases h
  · rename_i l ls hne hl'
    have hall : ∀ p ∈ kg.2.lasts, p.hp = l.hp ∧ PartFine H p := by
      intro p hp
      have hlm : l ∈ kg.2.lasts := by rw [hl']; simp
      exact ⟨hinj _ (hl p hp).1.1 _ (hl l hlm).1.1 (by rw [hk.2 p hp, hk.2 l hlm]), hl p hp⟩
    rw [hl'] at hl hall ⊢
    have hlH := (hl l (by simp)).1.1
    simp only [bind, Except.bind] at h
    split at h
    · cases h
    · rename_i c hc
      cases h
      unfold mkForbIn at hc
      split at hc
      · rename_i hleg
        cases hc
        cases ls with
        | nil => exact (hne rfl).elim
        | cons m ms =>
          have hvals : ((l :: m :: ms).map part64).map (fun p => p.value) = (l :: m :: ms).map (fun p => p.value) := by
            rw [List.map_map]
            rfl
          have hw : ∀ v ∈ (l :: m :: ms).map (fun p => p.value), Written l.hp.kind v := by
            intro v hv
            obtain ⟨p, hp, rfl⟩ := List.mem_map.1 hv
            rw [← (hall p hp).1]
            exact (hall p hp).2.2
          have hleg64 : ((l :: m :: ms).map (fun p => p.value)).all (legalValue64 l.hp.kind) = true := by
            rw [List.all_eq_true] at hleg ⊢
            intro v hv
            rw [legalValue64_eq (hH _ hlH).2 (hw v hv)]
            exact hleg v hv
          refine ⟨?_, fine_and.2 ?_⟩
          · simp only [List.map_cons] at hvals hleg64 ⊢
            have hp1 : (part64 l).hp = l.hp := rfl
            simp only [hvals, bind, Except.bind, mkForbIn64, hp1]
            rw [if_pos hleg64]
            simp only [forb64, happ, hfirst]
            rfl
          · intro c hc
            simp only [List.mem_append, List.mem_map, List.mem_singleton] at hc
            rcases hc with ⟨p, hp, rfl⟩ | rfl
            · exact fineEq p (hf p hp)
            · refine ⟨?_, by simpa [clauseHps] using hlH, ?_, by simp [relPairs]⟩
              · simp only [Forb.wf, (hH _ hlH).1, hleg, decide_true, Bool.and_true]
              · intro q hq
                simp only [clauseVals] at hq
                obtain ⟨v, hv, rfl⟩ := List.mem_map.1 hq
                exact hw v hv
      · cases hc

/-- Merging in double precision gives the same clauses. -/
theorem optimizedForbs64_eq {idx : Name → Nat} {fs fast : List Forb} (hfs : ∀ f ∈ fs, Fine H f)
    (h : optimizedForbs idx fs = .ok fast) :
    optimizedForbs64 idx (fs.map forb64) = .ok (fast.map forb64) ∧ ∀ f ∈ fast, Fine H f := by
  have hrest : (fs.map forb64).filter (fun f => f.eqConj?.isNone) =
      (fs.filter (fun f => f.eqConj?.isNone)).map forb64 := by
    rw [List.filter_map]
    congr 1
    refine List.filter_congr (fun f _ => ?_)
    simp [eqConj64]
  have hparts : ((fs.map forb64).filterMap Forb.eqConj?).map
      (sortBy (fun a b => decide (idx a.hp.name ≤ idx b.hp.name))) =
      ((fs.filterMap Forb.eqConj?).map (sortBy (fun a b => decide (idx a.hp.name ≤ idx b.hp.name)))).map
        (List.map part64) := by
    rw [List.filterMap_map]
    have : (Forb.eqConj? ∘ forb64) = fun f => (Forb.eqConj? f).map (List.map part64) := by
      funext f
      exact eqConj64 f
    rw [this, ← List.map_filterMap, List.map_map, List.map_map]
    refine List.map_congr_left (fun p _ => ?_)
    exact sortBy_map64 part64 _ (fun _ _ => rfl) p
  have hfine : ∀ p ∈ (fs.filterMap Forb.eqConj?).map
      (sortBy (fun a b => decide (idx a.hp.name ≤ idx b.hp.name))), ∀ e ∈ p, PartFine H e := by
    intro p hp e he
    obtain ⟨q, hq, rfl⟩ := List.mem_map.1 hp
    rw [mem_sortBy] at he
    obtain ⟨f, hf, hfq⟩ := List.mem_filterMap.1 hq
    have hff := hfs f hf
    rw [eqConj_some hfq] at hff
    have h0 := fine_and.1 hff _ (List.mem_map.2 ⟨e, he, rfl⟩)
    have hw := h0.wf
    simp only [Forb.wf, Bool.and_eq_true, decide_eq_true_eq] at hw
    exact ⟨⟨h0.hps _ (by simp [clauseHps]), hw.1.2, hw.2⟩, h0.vals (e.hp, e.value) (by simp [clauseVals])⟩
  unfold optimizedForbs at h
  unfold optimizedForbs64
  simp only at h ⊢
  rw [hrest, hparts]
  split at h
  · cases h
  · rename_i gs hgs
    have h1 := optGroups64 hH hinj hfine (acc := []) (by simp) (by simp) hgs
    have h2 := optGroups_all hfine (by simp) (by simp) hgs
    simp only [List.map_nil] at h1
    rw [h1]
    simp only
    split at h
    · cases h
    · rename_i cs hcs
      cases h
      have h3 : ∀ {gs cs}, (∀ kg ∈ gs, KeyRight kg ∧ (∀ p ∈ kg.2.firsts, PartFine H p) ∧ ∀ p ∈ kg.2.lasts, PartFine H p) →
          mapExcept (fun g : (Name × List (Name × Rat)) × OptGroup => optEmit g.2) gs = .ok cs →
          mapExcept (fun g : (Name × List (Name × Rat)) × OptGroup => optEmit64 g.2) (gs.map group64) =
            .ok (cs.map forb64) ∧ ∀ f ∈ cs, Fine H f := by
        intro gs
        induction gs with
        | nil =>
          intro cs _ hc
          simp only [mapExcept, Except.ok.injEq] at hc
          subst hc
          exact ⟨rfl, by simp⟩
        | cons g gs ih =>
          intro cs hg hc
          simp only [mapExcept] at hc
          split at hc
          · cases hc
          · rename_i y hy
            split at hc
            · cases hc
            · rename_i ys hys
              cases hc
              obtain ⟨i1, i2⟩ := ih (fun kg hkg => hg kg (by simp [hkg])) hys
              obtain ⟨g1, g2, g3⟩ := hg g (by simp)
              obtain ⟨e1, e2⟩ := optEmit64_eq hH hinj g1 g2 g3 hy
              refine ⟨?_, ?_⟩
              · simp only [List.map_cons, mapExcept, e1, i1]
              · intro f hf
                rcases List.mem_cons.1 hf with rfl | hf
                · exact e2
                · exact i2 f hf
      obtain ⟨m1, m2⟩ := h3 h2 hcs
      rw [m1]
      refine ⟨by simp, ?_⟩
      intro f hf
      rcases List.mem_append.1 hf with hf | hf
      · exact hfs f (List.mem_filter.1 hf).1
      · exact m2 f hf

end Merge

/-! ## The check -/

/-- The vectors, exact and in double precision, of the same values. -/
def SameV (calls : List Call) (s : Space) (v v' : Vec) : Prop :=
  ∀ h ∈ allHps calls, Same h.kind (v.at (s.idx h.name)) (v'.at (s.idx h.name))

theorem sameV_of {a : NamedValues} {v v' : Vec} (ha : GoodValues calls a) (hv : ExactVector calls s a v)
    (hv' : DoubleVector calls s a v') : SameV calls s v v' := by
  intro h hh
  rw [hv.2 h hh, hv'.2 h hh]
  cases hw : a h.name with
  | none => exact .inl ⟨rfl, rfl⟩
  | some w =>
    obtain ⟨l, r⟩ := ha h hh w hw
    obtain ⟨x, ex⟩ := legal_toVec l
    obtain ⟨x', ex'⟩ := legal_toVec64 l
    exact .inr ⟨w, x, x', l, r, ex, ex', ex, ex'⟩

theorem Spec.Precise.good (hr : Reach calls s) (hp : Precise calls) : ∀ h ∈ allHps calls, h.wf = true ∧ Modest h.kind :=
  fun h hh => ⟨(reach_wf hr).1 h hh, hp.ranges h hh⟩

theorem exactInt_of {h : HP} {w : Val} (lw : h.kind.legalValue w = true) (hw : Written h.kind w) : ExactInt h.kind w := by
  intro l u hk
  obtain ⟨n, rfl, -, -⟩ := int_legal hk lw hw
  exact ⟨n, rfl⟩

theorem toVal64_isSome {h : HP} (hw : h.wf = true) (hm : Modest h.kind) {v : Val} {x x' : Rat}
    (lv : h.kind.legalValue v = true) (hv : Written h.kind v) (ex : h.kind.toVec v = some x)
    (ex' : toVec64 h.kind v = some x') : (toVal64 h.kind x').isSome = true ∧ (h.kind.toVal x).isSome = true := by
  obtain ⟨w, e, -⟩ := toVal_toVec hw lv ex (exactInt_of lv hv)
  refine ⟨?_, by rw [e]; rfl⟩
  by_cases hf : ∃ lo hi, h.kind = .flt lo hi
  · obtain ⟨lo, hi, hk⟩ := hf
    rw [hk]
    rfl
  · rw [toVal64_toVec hw hm (fun lo hi hk => hf ⟨lo, hi, hk⟩) lv hv ex ex', e]
    rfl

section Check
variable (hr : Reach calls s) (hp : Precise calls) {v v' : Vec} (hs : SameV calls s v v')
include hr hp hs

theorem cond64_same {c : Cond} (hc : c ∈ allConds calls) : (cond64 c).satVec s.idx v' = c.satVec s.idx v := by
  refine cond64_satVec c s.idx v v' (fun l hl => ?_)
  have hwf := (reach_wf hr).2.1 c hc
  simp only [Cond.wf, Bool.and_eq_true] at hwf
  obtain ⟨h1, h2⟩ := hp.conds c hc l hl
  exact test64_onEntry (wf0_lit hwf.1 l hl) (hp.ranges _ h1) h2 (hs _ h1)

theorem entry64 {n : Name} (hn : n ∈ s.names) : ∃ h ∈ allHps calls, h.name = n ∧ s.hp? n = some h ∧
    Same h.kind (v.at (s.idx n)) (v'.at (s.idx n)) := by
  obtain ⟨x, hx, e⟩ := (reach_isNode hr n).1 hn
  refine ⟨x, hx, e, (hp_of hr).2 ⟨hx, e⟩, ?_⟩
  have := hs x hx
  rwa [e] at this

theorem legalAt64_same {n : Name} (hn : n ∈ s.names) : legalAt64 s v' n = s.legalAt v n := by
  obtain ⟨h, hh, -, e, hsame⟩ := entry64 hr hp hs hn
  unfold legalAt64 Space.legalAt
  rw [e]
  rcases hsame with ⟨e1, e2⟩ | ⟨w, x, x', lw, ww, ex, ex', e1, e2⟩
  · rw [e1, e2]
  · rw [e1, e2]
    obtain ⟨g1, g2⟩ := Spec.Precise.good hr hp h hh
    simp only
    rw [legalVec64_toVec g1 g2 lw ww ex', toVec_legal g1 lw ex (exactInt_of lw ww)]

theorem isSet_same {n : Name} (hn : n ∈ s.names) : isSet (v'.at (s.idx n)) = isSet (v.at (s.idx n)) := by
  obtain ⟨h, -, -, -, hsame⟩ := entry64 hr hp hs hn
  exact hsame.isSet

theorem firstWith_same {p q : NV → Bool} {ns : List Name} (hn : ∀ n ∈ ns, n ∈ s.names)
    (hpq : ∀ n ∈ ns, p (v'.at (s.idx n)) = q (v.at (s.idx n))) : firstWith p s v' ns = firstWith q s v ns := by
  unfold firstWith
  induction ns with
  | nil => rfl
  | cons n ns ih =>
    rw [List.find?_cons, List.find?_cons, hpq n (by simp), ih (fun m hm => hn m (by simp [hm])) (fun m hm => hpq m (by simp [hm]))]

theorem checkConds64_same (al : Bool) : ∀ {cs : List CNode},
    (∀ g ∈ cs, g.cond ∈ allConds calls ∧ ∀ n ∈ g.kids, n ∈ s.names) → checkConds64 s v' al cs = checkConds s v al cs
  | [], _ => rfl
  | g :: cs, hg => by
    obtain ⟨h1, h2⟩ := hg g (by simp)
    have ih := checkConds64_same al (cs := cs) (fun g hgm => hg g (by simp [hgm]))
    have f1 : firstWith (fun e => !isSet e) s v' g.kids = firstWith (fun e => !isSet e) s v g.kids :=
      firstWith_same hr hp hs h2 (fun n hn => by rw [isSet_same hr hp hs (h2 n hn)])
    have f2 : firstWith isSet s v' g.kids = firstWith isSet s v g.kids :=
      firstWith_same hr hp hs h2 (fun n hn => isSet_same hr hp hs (h2 n hn))
    have f3 : g.kids.find? (fun n => !legalAt64 s v' n) = g.kids.find? (fun n => !s.legalAt v n) := by
      clear hg ih f1 f2 h1
      generalize g.kids = ks at h2 ⊢
      induction ks with
      | nil => rfl
      | cons n ns ih =>
        rw [List.find?_cons, List.find?_cons, legalAt64_same hr hp hs (h2 n (by simp)), ih (fun m hm => h2 m (by simp [hm]))]
    simp only [checkConds64, checkConds, cond64_same hr hp hs h1, f1, f2, f3, ih]
    split
    · rfl
    · split
      · rfl
      · cases hf : firstWith isSet s v g.kids with
        | none => rfl
        | some n =>
          have hn := h2 n (List.mem_of_find?_eq_some hf)
          obtain ⟨h, hh, -, e, hsame⟩ := entry64 hr hp hs hn
          simp only [e]
          rcases hsame with ⟨e1, e2⟩ | ⟨w, x, x', lw, ww, ex, ex', e1, e2⟩
          · rw [e1, e2]
          · rw [e1, e2]
            obtain ⟨g1, g2⟩ := Spec.Precise.good hr hp h hh
            obtain ⟨t1, t2⟩ := toVal64_isSome g1 g2 lw ww ex ex'
            obtain ⟨y, hy⟩ := Option.isSome_iff_exists.1 t1
            obtain ⟨z, hz⟩ := Option.isSome_iff_exists.1 t2
            simp only [hy, hz]

omit hs in
theorem fine_of {f : Forb} (hf : f ∈ allForbs calls) : Fine (allHps calls) f :=
  ⟨(reach_wf hr).2.2 f hf, (hp.clauses f hf).1, (hp.clauses f hf).2, hp.rels f hf⟩

theorem fast64_same : (fast64 s).any (fun f => onVec64 s.idx v' f) = s.fast.any (fun f => f.onVec s.idx v) := by
  have hi := sinv_of_reach hr
  have hmem : ∀ f, f ∈ s.dag.uncond ++ s.dag.condF ↔ f ∈ allForbs calls := fun f => hi.hist.forbs.mem_iff
  obtain ⟨h1, h2⟩ := optimizedForbs64_eq (Spec.Precise.good hr hp) (reach_hp_inj hr)
    (fun f hf => fine_of hr hp ((hmem f).1 hf)) hi.fast
  have : optimizedForbs64 s.idx (s.forbs.map forb64) = .ok (s.fast.map forb64) := h1
  unfold fast64
  rw [this]
  simp only [List.any_map]
  rw [Bool.eq_iff_iff, List.any_eq_true, List.any_eq_true]
  have key : ∀ f ∈ s.fast, onVec64 s.idx v' (forb64 f) = f.onVec s.idx v := fun f hf =>
    forb64_onVec (Spec.Precise.good hr hp) hs f (h2 f hf)
  constructor
  · rintro ⟨f, hf, e⟩
    exact ⟨f, hf, by rw [← key f hf]; exact e⟩
  · rintro ⟨f, hf, e⟩
    exact ⟨f, hf, by simp only [Function.comp]; rw [key f hf]; exact e⟩

omit hp hs in
theorem minConds_known {g : CNode} (hg : g ∈ s.minConds) : g.cond ∈ allConds calls ∧ ∀ n ∈ g.kids, n ∈ s.names := by
  have hi := sinv_of_reach hr
  have hgo := groupsOk_sorted s.com
  rw [← hi.mins] at hgo
  constructor
  · obtain ⟨y, hy, _, hyc⟩ := hgo.leader g hg
    exact (node_cond hr hy hyc).1
  · intro n hn
    obtain ⟨x, hx, rfl, -⟩ := hgo.members g hg n hn
    exact mem_names hx

theorem check64_same (al : Bool) : check64 s v' al = s.check v al := by
  have hroots : ∀ n ∈ s.dag.roots, n ∈ s.names := fun n hn =>
    (reach_isNode hr n).2 ((C06_roots_no_condition hr n).1 hn).1
  unfold check64 Space.check
  rw [firstWith_same hr hp hs hroots (q := fun e => !isSet e) (fun n hn => by rw [isSet_same hr hp hs (hroots n hn)]),
    checkConds64_same hr hp hs al (fun g hg => minConds_known hr hg), fast64_same hr hp hs]
  rfl

theorem isActive64_same {x : Node} (hx : x ∈ s.com) : isActive64 s v' x = isActive s v x := by
  unfold isActive64 isActive
  cases hc : x.cond with
  | none => rfl
  | some c =>
    have hcm := (node_cond hr hx hc).1
    have hpar : c.parents.any (fun p => !isSet (v'.at (s.idx p))) = c.parents.any (fun p => !isSet (v.at (s.idx p))) := by
      have hk : ∀ p ∈ c.parents, p ∈ s.names := fun p hp => cond_parents_known hr hcm hp
      generalize c.parents = ps at hk
      induction ps with
      | nil => rfl
      | cons p ps ih =>
        rw [List.any_cons, List.any_cons, ih (fun q hq => hk q (by simp [hq])), isSet_same hr hp hs (hk p (by simp))]
    simp only [hpar, cond64_same hr hp hs hcm]

theorem activeNames64_same : activeNames64 s v' = s.activeNames v := by
  unfold activeNames64 Space.activeNames
  rw [List.filter_congr (fun x hx => isActive64_same hr hp hs hx)]

theorem rigorousLoop64_same (al : Bool) : ∀ {l : List Node}, (∀ x ∈ l, x ∈ s.com) →
    rigorousLoop64 s v' al l = rigorousLoop s v al l
  | [], _ => rfl
  | x :: xs, hl => by
    have ih := rigorousLoop64_same al (l := xs) (fun y hy => hl y (by simp [hy]))
    have hn := mem_names (hl x (by simp))
    obtain ⟨h, hh, -, e, hsame⟩ := entry64 hr hp hs hn
    have hxh : h = x.hp := by
      unfold Space.hp? at e
      rw [findNode_of_mem (reach_ninv hr).nodup (hl x (by simp))] at e
      simpa using e.symm
    subst hxh
    simp only [rigorousLoop64, rigorousLoop, activeNames64_same hr hp hs, ih, isSet_same hr hp hs hn]
    rcases hsame with ⟨e1, e2⟩ | ⟨w, y, y', lw, ww, ey, ey', e1, e2⟩
    · rw [e1, e2]
    · rw [e1, e2]
      obtain ⟨g1, g2⟩ := Spec.Precise.good hr hp x.hp hh
      simp only [legalVec64_toVec g1 g2 lw ww ey', toVec_legal g1 lw ey (exactInt_of lw ww)]

theorem checkRigorous64_same (al : Bool) : checkRigorous64 s v' al = s.checkRigorous v al := by
  have hi := sinv_of_reach hr
  have hmem : ∀ f, f ∈ s.forbs ↔ f ∈ allForbs calls := fun f => hi.hist.forbs.mem_iff
  have hany : s.forbs.any (fun f => onVec64 s.idx v' (forb64 f)) = s.forbs.any (fun f => f.onVec s.idx v) := by
    rw [Bool.eq_iff_iff, List.any_eq_true, List.any_eq_true]
    have key : ∀ f ∈ s.forbs, onVec64 s.idx v' (forb64 f) = f.onVec s.idx v := fun f hf =>
      forb64_onVec (Spec.Precise.good hr hp) hs f (fine_of hr hp ((hmem f).1 hf))
    constructor
    · rintro ⟨f, hf, e⟩
      exact ⟨f, hf, by rw [← key f hf]; exact e⟩
    · rintro ⟨f, hf, e⟩
      exact ⟨f, hf, by rw [key f hf]; exact e⟩
  unfold checkRigorous64 Space.checkRigorous
  rw [rigorousLoop64_same hr hp hs al (fun x hx => by rw [← hi.com]; exact hx), hany]
  rfl

end Check

end Verif.F64
