import Verif.Lemmas.AgreeDoubles
import Verif.Lemmas.F64Config

/-!
# Doubles on linear and logarithmic scales agree with exact numbers
-/

set_option autoImplicit false

namespace Verif.F64
open Verif Verif.Spec Verif.AnyNum

/-! ## The functions on rational numbers, cast to the real numbers -/

theorem normalize_ratCast (x lo hi : Rat) : F64.normalize (x : ℝ) (lo : ℝ) (hi : ℝ) = ((F64.normalize x lo hi : Rat) : ℝ) := by
  unfold F64.normalize
  have e : ((lo : ℝ) = 0 ∧ (hi : ℝ) = 1) ↔ (lo = 0 ∧ hi = 1) := by
    rw [Rat.cast_eq_zero, ← Rat.cast_one, Rat.cast_inj]
  simp only [e]
  split
  · rfl
  · rw [← Rat.cast_sub, ← Rat.cast_sub, rd_ratCast, rd_ratCast, ← Rat.cast_div, rd_ratCast]

theorem scale_ratCast (x lo hi : Rat) : F64.scale (x : ℝ) (lo : ℝ) (hi : ℝ) = ((F64.scale x lo hi : Rat) : ℝ) := by
  unfold F64.scale
  rw [← Rat.cast_sub, rd_ratCast, ← Rat.cast_mul, rd_ratCast, ← Rat.cast_add, rd_ratCast]

theorem clip_ratCast (x lo hi : Rat) : Num.clip (x : ℝ) (lo : ℝ) (hi : ℝ) = ((Num.clip x lo hi : Rat) : ℝ) := by
  unfold Num.clip
  simp only [Rat.cast_lt]
  split_ifs <;> rfl

theorem rd_intCast' (n : Int) : rd (n : ℝ) = ((rd (n : Rat) : Rat) : ℝ) := by
  rw [← rd_ratCast]
  push_cast
  rfl

theorem closeToInt_ratCast (q : Rat) : F64.closeToInt (q : ℝ) ↔ F64.closeToInt q := by
  unfold F64.closeToInt
  have e1 : |(q : ℝ) - ((Num.rintK q : Int) : ℝ)| = ((|q - (Num.rintK q : Int)| : Rat) : ℝ) := by push_cast; rfl
  have e2 : |((Num.rintK q : Int) : ℝ)| = ((|((Num.rintK q : Int) : Rat)| : Rat) : ℝ) := by push_cast; rfl
  have e3 : (1 / 10000000000000 : ℝ) = ((1 / 10000000000000 : Rat) : ℝ) := by push_cast; rfl
  have e4 : (1 / 100000 : ℝ) = ((1 / 100000 : Rat) : ℝ) := by push_cast; rfl
  rw [rintK_ratCast, e1, e2, e3, e4]
  simp only [rd_ratCast, ← Rat.cast_mul, ← Rat.cast_add]
  rw [Rat.cast_le]

theorem legalInt_ratCast (l u : Int) (q : Rat) : F64.legalInt l u (q : ℝ) ↔ F64.legalInt l u q := by
  unfold F64.legalInt
  rw [rintK_ratCast, closeToInt_ratCast, rd_intCast', rd_intCast']
  rw [show ((Num.rintK q : Int) : ℝ) = (((Num.rintK q : Int) : Rat) : ℝ) by push_cast; rfl, Rat.cast_le, Rat.cast_le]

theorem legalValueD_eq (k : Kind) (v : Val) : legalValueD k v = legalValue64 k v := by
  cases k with
  | cat cs => rfl
  | ord cs => rfl
  | const c => rfl
  | int l u =>
    simp only [legalValueD, legalValue64]
    cases v.num? with
    | none => rfl
    | some q =>
      simp only [rd_ratCast, legalInt_ratCast]
  | flt l u =>
    simp only [legalValueD, legalValue64]
    cases v.num? with
    | none => rfl
    | some q =>
      simp only [rd_ratCast, Rat.cast_le, Bool.decide_and]

variable {lg ex : ℝ → ℝ} {log : Scaled.Scales}

/-- On linear scales the entries are those of `toVec64`. -/
theorem toVecD_false (k : Kind) (v : Val) : toVecD lg false k v = (toVec64 k v).map (fun q : Rat => (q : ℝ)) := by
  cases k with
  | cat cs => rfl
  | ord cs => rfl
  | const c => rfl
  | int l u =>
    simp only [toVecD, toVec64, Option.map_map]
    cases v.num? with
    | none => rfl
    | some q => simp [rd_ratCast, rd_intCast', normalize_ratCast]
  | flt l u =>
    simp only [toVecD, toVec64, Option.map_map]
    cases v.num? with
    | none => rfl
    | some q => simp [toVecFlt, rd_ratCast, normalize_ratCast]

/-- On linear scales what is read are the numbers of `toVal64`. -/
theorem toValD_int_false (l u : Int) (x : Rat) : toValD lg ex false (.int l u) (x : ℝ) = some (.val (.int (toValInt l u x))) := by
  simp [toValD, toValInt, rd_intCast', scale_ratCast, rintK_ratCast]

theorem toValD_flt_false (l u x : Rat) :
    toValD lg ex false (.flt l u) (x : ℝ) = some (.num ((toValFlt (rd l) (rd u) x : Rat) : ℝ)) := by
  simp [toValD, toValFlt, rd_ratCast, scale_ratCast, clip_ratCast]

/-! ## Modest ranges -/

theorem decimal_pos {q : Rat} (h : Decimal q) (h0 : 0 < q) : 1 / 10 ^ 13 ≤ q := by
  have := decimal_step (p := 0) ⟨0, by simp⟩ h h0
  linarith

theorem logRange {l u : Rat} {C : ℝ} (hl : Decimal l) (h0 : 0 < l) (h : l < u) (hs : (u : ℝ) * logSize (l : ℝ) (u : ℝ) ≤ C) :
    LogRange (l : ℝ) (u : ℝ) C :=
  ⟨by
    have : ((1 / 10 ^ 13 : Rat) : ℝ) ≤ (l : ℝ) := by exact_mod_cast decimal_pos hl h0
    refine le_trans (le_of_eq ?_) this
    norm_num, by exact_mod_cast h, hs⟩

theorem decimal_gap {p q : Rat} (hp : Decimal p) (hq : Decimal q) (h : p < q) : (p : ℝ) + 1 / 10 ^ 13 ≤ (q : ℝ) := by
  have : ((p + 1 / 10 ^ 13 : Rat) : ℝ) ≤ (q : ℝ) := by exact_mod_cast decimal_step hp hq h
  push_cast at this
  exact this

theorem modest_of {h : HP} {b : Bool} (hw : h.wf = true) (hm : ModestLog b h.kind) : Modest h.kind := by
  cases hk : h.kind with
  | cat cs => trivial
  | ord cs => trivial
  | const c => trivial
  | int l u =>
    have hlu := wf_int' hw hk
    rw [hk] at hm
    cases b with
    | false =>
      simp only [ModestLog, Bool.false_eq_true, if_false] at hm
      exact hm
    | true =>
      simp only [ModestLog, if_true] at hm
      simp only [Modest]
      rw [abs_lt, abs_lt]
      norm_num at *
      omega
  | flt l u =>
    have hlu := HP.wf_flt hw hk
    rw [hk] at hm
    obtain ⟨hl, hu, hm⟩ := hm
    cases b with
    | false =>
      simp only [Bool.false_eq_true, if_false] at hm
      exact ⟨⟨hm.1, hl⟩, hm.2, hu⟩
    | true =>
      simp only [if_true] at hm
      have hr := (logRange hl hm.1 hlu hm.2).bounds le_rfl
      have hu32 : u ≤ 32 := by exact_mod_cast hr.1
      have hu0 : 0 < u := hm.1.trans hlu
      exact ⟨⟨by rw [abs_of_pos hm.1]; linarith, hl⟩, by rw [abs_of_pos hu0]; exact hu32, hu⟩

/-! ## Order of the entries -/

/-- A strictly monotone function keeps the order. -/
theorem order_of_strict {f : Rat → ℝ} {S : Rat → Prop} (hf : ∀ p q, S p → S q → p < q → f p < f q) {p q : Rat} (hp : S p) (hq : S q) :
    (f p = f q ↔ p = q) ∧ (f p < f q ↔ p < q) := by
  rcases lt_trichotomy p q with h | h | h
  · have := hf p q hp hq h
    exact ⟨⟨fun e => absurd e this.ne, fun e => absurd e h.ne⟩, fun _ => h, fun _ => this⟩
  · subst h
    exact ⟨⟨fun _ => rfl, fun _ => rfl⟩, fun h => absurd h (lt_irrefl _), fun h => absurd h (lt_irrefl _)⟩
  · have := hf q p hq hp h
    exact ⟨⟨fun e => absurd e this.ne', fun e => absurd e h.ne'⟩, fun e => absurd e (not_lt.2 this.le), fun e => absurd e (not_lt.2 h.le)⟩

theorem logInt_strict (ha : Accurate lg ex) {l u m n : Int} (h1 : 1 ≤ l) (h : l < u) (hu : u ≤ 2 ^ 39) (hm1 : l ≤ m) (hn2 : n ≤ u)
    (hmn : m < n) : toVecLogInt lg l u m < toVecLogInt lg l u n := by
  have hu' : u ≤ 2 ^ 40 := hu.trans (by norm_num)
  have e : ∀ k : Int, l ≤ k → k ≤ u → rd (k : ℝ) = k := fun k k1 k2 => rd_int40 (h1.trans k1) (k2.trans hu')
  have hlt := log_strict ha h1 h hu'
  have h0 : (0 : ℝ) < l := by exact_mod_cast h1
  have hh : (l : ℝ) < u := by exact_mod_cast h
  have hmono := (C75_log_vector ha h0 hlt hh).2.2.2 (m : ℝ) (n : ℝ) (by exact_mod_cast hm1) (by exact_mod_cast hmn.le) (by exact_mod_cast hn2)
  refine lt_of_le_of_ne ?_ ?_
  · unfold toVecLogInt
    rw [e l le_rfl h.le, e u h.le le_rfl, e m hm1 (hmn.le.trans hn2), e n (hm1.trans hmn.le) hn2]
    exact hmono
  · intro he
    have a := (C75_log_int_round_trip ha h1 h hu hm1 (hmn.le.trans hn2)).1
    have b := (C75_log_int_round_trip ha h1 h hu (hm1.trans hmn.le) hn2).1
    rw [he, b] at a
    exact hmn.ne a.symm

theorem isSome_vec {h : HP} {x : Val} (lx : h.kind.legalValue x = true) (b : Bool) : ∃ y, toVecD lg b h.kind x = some y := by
  cases hk : h.kind with
  | cat cs =>
    rw [hk] at lx
    obtain ⟨y, hy⟩ := legal_toVec lx
    exact ⟨(y : ℝ), by simp only [toVecD, hy, Option.map_some]⟩
  | ord cs =>
    rw [hk] at lx
    obtain ⟨y, hy⟩ := legal_toVec lx
    exact ⟨(y : ℝ), by simp only [toVecD, hy, Option.map_some]⟩
  | const c =>
    rw [hk] at lx
    obtain ⟨y, hy⟩ := legal_toVec lx
    exact ⟨(y : ℝ), by simp only [toVecD, hy, Option.map_some]⟩
  | int l u =>
    rw [hk] at lx
    cases hq : x.num? with
    | none => simp [Kind.legalValue, hq] at lx
    | some q => simp [toVecD, hq]
  | flt l u =>
    rw [hk] at lx
    cases hq : x.num? with
    | none => simp [Kind.legalValue, hq] at lx
    | some q => simp [toVecD, hq]

/-- Entries in doubles are equal, and in order, when the exact ones are. -/
theorem toVecD_order (ha : Accurate lg ex) {h : HP} {b : Bool} (hw : h.wf = true) (hm : ModestLog b h.kind) {v w : Val} {x y : Rat} {x' y' : ℝ}
    (lv : h.kind.legalValue v = true) (lw : h.kind.legalValue w = true) (hv : Written h.kind v) (hw' : Written h.kind w)
    (ex₁ : h.kind.toVec v = some x) (ey : h.kind.toVec w = some y)
    (ex' : toVecD lg b h.kind v = some x') (ey' : toVecD lg b h.kind w = some y') :
    (x' = y' ↔ x = y) ∧ (x' < y' ↔ x < y) := by
  have hm0 := modest_of hw hm
  obtain ⟨x1, ex1⟩ := legal_toVec64 lv
  obtain ⟨y1, ey1⟩ := legal_toVec64 lw
  have h64 := toVec64_order hw hm0 lv lw hv hw' ex₁ ey ex1 ey1
  cases b with
  | false =>
    rw [toVecD_false, ex1, Option.map_some] at ex'
    rw [toVecD_false, ey1, Option.map_some] at ey'
    cases ex'; cases ey'
    rw [Rat.cast_inj, Rat.cast_lt]
    exact h64
  | true =>
    have hcast : ∀ k : Kind, h.kind = k → (∀ z, toVecD lg true k z = (k.toVec z).map (fun q : Rat => (q : ℝ))) →
        (x' = y' ↔ x = y) ∧ (x' < y' ↔ x < y) := by
      intro k hk hz
      rw [hk] at ex' ey' ex₁ ey
      rw [hz, ex₁, Option.map_some] at ex'
      rw [hz, ey, Option.map_some] at ey'
      cases ex'; cases ey'
      rw [Rat.cast_inj, Rat.cast_lt]
      exact ⟨Iff.rfl, Iff.rfl⟩
    cases hk : h.kind with
    | cat cs => exact hcast _ hk (fun _ => rfl)
    | ord cs => exact hcast _ hk (fun _ => rfl)
    | const c => exact hcast _ hk (fun _ => rfl)
    | int l u =>
      obtain ⟨m, rfl, m1, m2⟩ := int_legal hk lv hv
      obtain ⟨n, rfl, n1, n2⟩ := int_legal hk lw hw'
      have hlu := wf_int' hw hk
      rw [hk] at hm ex₁ ey ex' ey'
      simp only [ModestLog, if_true] at hm
      have e : ∀ k : Int, toVecD lg true (.int l u) (.int k) = some (toVecLogInt lg l u k) := by
        intro k
        simp [toVecD, toVecLogInt, Val.num?]
      rw [e] at ex' ey'
      cases ex'; cases ey'
      simp only [Kind.toVec, Val.num?, Option.map_some, Option.some.injEq] at ex₁ ey
      subst ex₁; subst ey
      have hq : (l : Rat) < u := by exact_mod_cast hlu
      rw [normalize_inj hq, normalize_lt hq, Int.cast_inj, Int.cast_lt]
      rcases lt_trichotomy m n with h1 | h1 | h1
      · have := logInt_strict ha hm.1 hlu hm.2 m1 n2 h1
        exact ⟨⟨fun e => absurd e this.ne, fun e => absurd e h1.ne⟩, fun _ => h1, fun _ => this⟩
      · subst h1
        exact ⟨⟨fun _ => rfl, fun _ => rfl⟩, fun h => absurd h (lt_irrefl _), fun h => absurd h (lt_irrefl _)⟩
      · have := logInt_strict ha hm.1 hlu hm.2 n1 m2 h1
        exact ⟨⟨fun e => absurd e this.ne', fun e => absurd e h1.ne'⟩, fun e => absurd e (not_lt.2 this.le),
          fun e => absurd e (not_lt.2 h1.le)⟩
    | flt l u =>
      have hlu := HP.wf_flt hw hk
      rw [hk] at hm ex₁ ey ex' ey'
      obtain ⟨hl, hu, hm'⟩ := hm
      simp only [if_true] at hm'
      simp only [Kind.toVec, toVecD, if_true, Option.map_eq_some_iff] at ex₁ ey ex' ey'
      obtain ⟨p, hp, rfl⟩ := ex₁
      obtain ⟨q, hq, rfl⟩ := ey
      obtain ⟨p2, hp2, rfl⟩ := ex'
      obtain ⟨q2, hq2, rfl⟩ := ey'
      rw [hp] at hp2; cases hp2
      rw [hq] at hq2; cases hq2
      obtain ⟨dp, p1, p2, pb⟩ := flt_legal hk hm0 lv hv hp
      obtain ⟨dq, q1, q2, qb⟩ := flt_legal hk hm0 lw hw' hq
      rw [normalize_inj hlu, normalize_lt hlu]
      have hr := logRange hl hm'.1 hlu hm'.2
      exact order_of_strict (f := fun q : Rat => toVecLog lg (rd (l : ℝ)) (rd (u : ℝ)) (rd (q : ℝ)))
        (S := fun q : Rat => Decimal q ∧ l ≤ q ∧ q ≤ u)
        (fun p q hp hq h => (hr.sep ha (by exact_mod_cast hp.2.1) (decimal_gap hp.1 hq.1 h) (by exact_mod_cast hq.2.2)).2)
        ⟨dp, p1, p2⟩ ⟨dq, q1, q2⟩

/-! ## Legal entries -/

theorem doubleRange (ha : Accurate lg ex) {h : HP} {b : Bool} (hw : h.wf = true) (hm : ModestLog b h.kind) :
    Spec.Any.DoubleRange lg b h.kind := by
  have hm0 := modest_of hw hm
  cases hk : h.kind with
  | cat cs => trivial
  | ord cs => trivial
  | const c => trivial
  | int l u =>
    rw [hk] at hm
    simp only [Spec.Any.DoubleRange]
    simp only [ModestLog] at hm
    cases b with
    | false => simp only [Bool.false_eq_true, if_false] at hm ⊢; exact ⟨hm.1.le, hm.2.le⟩
    | true => simpa using hm
  | flt l u =>
    have hlu := HP.wf_flt hw hk
    rw [hk] at hm hm0
    refine ⟨?_, ?_⟩
    · rw [rd_ratCast, rd_ratCast, Rat.cast_lt]
      exact (rd_lt hm0.1.2 hm0.2.2 (.inl hm0.1.1)).2 hlu
    · rintro rfl
      obtain ⟨hl, hu, hm'⟩ := hm
      simp only [if_true] at hm'
      have hr := logRange hl hm'.1 hlu hm'.2
      exact ⟨(hr.rounded le_rfl).1, hr.bounds_lt ha (decimal_gap hl hu hlu)⟩

theorem assignable_of {h : HP} {w : Val} (lw : h.kind.legalValue w = true) (hw : Written h.kind w) : Spec.Any.Assignable h.kind w := by
  cases hk : h.kind with
  | cat cs => rw [hk] at lw; exact pyIn_iff.1 lw
  | ord cs => rw [hk] at lw; exact pyIn_iff.1 lw
  | const c => rw [hk] at lw; exact lw
  | int l u =>
    obtain ⟨n, rfl, n1, n2⟩ := int_legal hk lw hw
    exact ⟨n, rfl, n1, n2⟩
  | flt l u =>
    rw [hk] at lw
    cases hq : w.num? with
    | none => simp [Kind.legalValue, hq] at lw
    | some q =>
      simp only [Kind.legalValue, hq, Bool.and_eq_true, decide_eq_true_eq] at lw
      exact ⟨q, hq, lw.1, lw.2⟩

/-! ## What is read -/

/-- Two values that were read, with the same numbers and texts as two others. -/
theorem onVals_of {r r' : Scaled.RVal} {v v' : Val} (hn : r.num? = v.num?.map (fun q : Rat => (q : ℝ)))
    (hs : r.str? = Scaled.RVal.str? (.val v)) (hn' : r'.num? = v'.num?.map (fun q : Rat => (q : ℝ)))
    (hs' : r'.str? = Scaled.RVal.str? (.val v')) (op : RelOp) : Scaled.onVals op r r' = op.onVals v v' := by
  have key : ∀ (P : ℝ → ℝ → Prop) (Q : Rat → Rat → Prop), (∀ x y : Rat, P (x : ℝ) (y : ℝ) ↔ Q x y) →
      ((∃ x y, r.num? = some x ∧ r'.num? = some y ∧ P x y) ↔ ∃ p q, v.num? = some p ∧ v'.num? = some q ∧ Q p q) := by
    intro P Q hPQ
    rw [hn, hn']
    cases v.num? <;> cases v'.num? <;> simp [hPQ]
  rw [Bool.eq_iff_iff]
  cases op with
  | lt =>
    simp only [Scaled.onVals, RelOp.onVals, decide_eq_true_eq]
    rw [Scaled.lt?_iff, key (fun x y => x < y) (fun x y => x < y) (fun x y => Rat.cast_lt), hs, hs']
  | eq =>
    simp only [Scaled.onVals, RelOp.onVals, decide_eq_true_eq]
    rw [Scaled.pyEq_num, key (fun x y => x = y) (fun x y => x = y) (fun x y => Rat.cast_inj), hs, hs']
  | gt =>
    simp only [Scaled.onVals, RelOp.onVals, decide_eq_true_eq]
    rw [Scaled.lt?_iff, key (fun x y => y < x) (fun x y => y < x) (fun x y => Rat.cast_lt), hs, hs']
    constructor
    · rintro (⟨p, q, a, b, c⟩ | ⟨p, q, a, b, c⟩)
      · exact .inl ⟨q, p, b, a, c⟩
      · exact .inr ⟨q, p, b, a, c⟩
    · rintro (⟨p, q, a, b, c⟩ | ⟨p, q, a, b, c⟩)
      · exact .inl ⟨q, p, b, a, c⟩
      · exact .inr ⟨q, p, b, a, c⟩

/-- In ranges that are not of floats the same values are read. -/
theorem toValD_toVec (ha : Accurate lg ex) {h : HP} {b : Bool} (hw : h.wf = true) (hm : ModestLog b h.kind) (hf : ∀ lo hi, h.kind ≠ .flt lo hi)
    {v : Val} {x : Rat} {x' : ℝ} (lv : h.kind.legalValue v = true) (hv : Written h.kind v) (ex₁ : h.kind.toVec v = some x)
    (ex' : toVecD lg b h.kind v = some x') : ∃ w, toValD lg ex b h.kind x' = some (.val w) ∧ h.kind.toVal x = some w := by
  have hseq : ∀ (cs : List Val) (i : Nat) (w : Val), cs[i]? = some w → Scaled.toVal b (.cat cs) (((i : Nat) : Rat) : ℝ) = some (.val w) ∧
      Scaled.toVal b (.ord cs) (((i : Nat) : Rat) : ℝ) = some (.val w) ∧ Kind.toVal (.cat cs) (i : Rat) = some w ∧
      Kind.toVal (.ord cs) (i : Rat) = some w := by
    intro cs i w hi
    have hr : Num.rintK (((i : Nat) : ℝ)) = (i : Int) := by
      have := Num.rintK_int (K := ℝ) (i : Int)
      exact_mod_cast this
    refine ⟨?_, ?_, ?_, ?_⟩
    · push_cast
      simp [Scaled.toVal, Scaled.closeToIntK_nat, hr, pyIndex_nat, hi]
    · push_cast
      simp [Scaled.toVal, Scaled.closeToIntK_nat, hr, pyIndex_nat, hi]
    · simp [Kind.toVal, closeToInt_nat, rint_nat, pyIndex_nat, hi]
    · simp [Kind.toVal, closeToInt_nat, rint_nat, pyIndex_nat, hi]
  cases hk : h.kind with
  | cat cs =>
    rw [hk] at ex₁ ex'
    simp only [Kind.toVec, toVecD, Option.map_map, Option.map_eq_some_iff, Function.comp] at ex₁ ex'
    obtain ⟨i, hi, rfl⟩ := ex₁
    obtain ⟨j, hj, rfl⟩ := ex'
    rw [hi] at hj; cases hj
    obtain ⟨w, hw', -⟩ := seqIndex_some hi
    exact ⟨w, (hseq cs i w hw').1, (hseq cs i w hw').2.2.1⟩
  | ord cs =>
    rw [hk] at ex₁ ex'
    simp only [Kind.toVec, toVecD, Option.map_map, Option.map_eq_some_iff, Function.comp] at ex₁ ex'
    obtain ⟨i, hi, rfl⟩ := ex₁
    obtain ⟨j, hj, rfl⟩ := ex'
    rw [hi] at hj; cases hj
    obtain ⟨w, hw', -⟩ := seqIndex_some hi
    exact ⟨w, (hseq cs i w hw').2.1, (hseq cs i w hw').2.2.2⟩
  | const c => exact ⟨c, rfl, rfl⟩
  | int l u =>
    have hm0 := modest_of hw hm
    obtain ⟨n, rfl, n1, n2⟩ := int_legal hk lv hv
    have hlu := wf_int' hw hk
    rw [hk] at ex₁ ex' hm hm0
    simp only [Kind.toVec, Val.num?, Option.map_some, Option.some.injEq] at ex₁
    subst ex₁
    have hq : (l : Rat) < u := by exact_mod_cast hlu
    refine ⟨.int n, ?_, by simp [Kind.toVal, scale_normalize hq, rint_int]⟩
    cases b with
    | false =>
      rw [toVecD_false, toVec64_int, Option.map_some] at ex'
      cases ex'
      rw [toValD_int_false, C75_int_round_trip hm0.1 hm0.2 hlu n1 n2]
    | true =>
      simp only [ModestLog, if_true] at hm
      have e : toVecD lg true (.int l u) (.int n) = some (toVecLogInt lg l u n) := by
        simp [toVecD, toVecLogInt, Val.num?]
      rw [e] at ex'
      cases ex'
      simp [toValD, (C75_log_int_round_trip ha hm.1 hlu hm.2 n1 n2).1]
  | flt l u => exact absurd hk (hf l u)

/-- Comparing two numbers that are read from entries. -/
theorem onVals_num {a b : ℝ} {q p : Rat} (hlt : a < b ↔ q < p) (hgt : b < a ↔ p < q) (op : RelOp) :
    Scaled.onVals op (.num a) (.num b) = op.onVals (.flt q) (.flt p) := by
  have heq : a = b ↔ q = p := by
    constructor
    · intro e
      rcases lt_trichotomy q p with h | h | h
      · exact absurd (hlt.2 h) (by rw [e]; exact lt_irrefl _)
      · exact h
      · exact absurd (hgt.2 h) (by rw [e]; exact lt_irrefl _)
    · intro e
      rcases lt_trichotomy a b with h | h | h
      · exact absurd (hlt.1 h) (by rw [e]; exact lt_irrefl _)
      · exact h
      · exact absurd (hgt.1 h) (by rw [e]; exact lt_irrefl _)
  cases op with
  | lt => simp [Scaled.onVals, RelOp.onVals, Scaled.RVal.num?, Scaled.RVal.str?, Val.lt?, Val.num?, hlt]
  | gt => simp [Scaled.onVals, RelOp.onVals, Scaled.RVal.num?, Scaled.RVal.str?, Val.lt?, Val.num?, hgt]
  | eq =>
    rw [Bool.eq_iff_iff]
    simp [Scaled.onVals, RelOp.onVals, Scaled.RVal.num?, Scaled.RVal.str?, Val.pyEq, Val.num?]
    exact eq_comm.trans heq

/-- Comparing the values of two float ranges with the same bounds, on the same scale. -/
theorem relD_flt (ha : Accurate lg ex) {l r : HP} {lo hi : Rat} {b : Bool} (hkl : l.kind = .flt lo hi) (hkr : r.kind = .flt lo hi)
    (wl : l.wf = true) (ml : ModestLog b l.kind) (wr : r.wf = true) (hb : b = true → (hi : ℝ) * logSize (lo : ℝ) (hi : ℝ) ≤ 3) {v w : Val}
    {x y : Rat} {x' y' : ℝ} (lv : l.kind.legalValue v = true) (hv : Written l.kind v) (lw : r.kind.legalValue w = true) (hw : Written r.kind w)
    (ex₁ : l.kind.toVec v = some x) (ex' : toVecD lg b l.kind v = some x') (ey : r.kind.toVec w = some y)
    (ey' : toVecD lg b r.kind w = some y') (op : RelOp) :
    ∃ A B, toValD lg ex b l.kind x' = some A ∧ toValD lg ex b r.kind y' = some B ∧
      Scaled.onVals op A B = relOnEntries op l r (some x) (some y) := by
  have ml0 := modest_of wl ml
  have mr0 : Modest r.kind := by rw [hkr, ← hkl]; exact ml0
  cases b with
  | false =>
    obtain ⟨x1, ex1⟩ := legal_toVec64 lv
    obtain ⟨y1, ey1⟩ := legal_toVec64 lw
    rw [← rel64_flt hkl hkr wl ml0 wr mr0 lv hv lw hw ex₁ ex1 ey ey1]
    rw [toVecD_false, ex1, Option.map_some] at ex'
    rw [toVecD_false, ey1, Option.map_some] at ey'
    cases ex'; cases ey'
    have t1 : toVal64 l.kind x1 = some (.flt (toValFlt (rd lo) (rd hi) x1)) := by rw [hkl]; rfl
    have t2 : toVal64 r.kind y1 = some (.flt (toValFlt (rd lo) (rd hi) y1)) := by rw [hkr]; rfl
    refine ⟨_, _, by rw [hkl]; exact toValD_flt_false lo hi x1, by rw [hkr]; exact toValD_flt_false lo hi y1, ?_⟩
    simp only [rel64, t1, t2]
    exact onVals_num Rat.cast_lt Rat.cast_lt op
  | true =>
    cases hq : v.num? with
    | none => rw [hkl] at lv; simp [Kind.legalValue, hq] at lv
    | some q =>
      cases hp : w.num? with
      | none => rw [hkr] at lw; simp [Kind.legalValue, hp] at lw
      | some p =>
        have e1 := toVal_flt hkl wl lv hq ex₁
        have e2 := toVal_flt hkr wr lw hp ey
        obtain ⟨dq, q1, q2, -⟩ := flt_legal hkl ml0 lv hv hq
        obtain ⟨dp, p1, p2, -⟩ := flt_legal hkr mr0 lw hw hp
        have hlu := HP.wf_flt wl hkl
        rw [hkl] at ml ex'
        rw [hkr] at ey'
        obtain ⟨hl, hu, hm⟩ := ml
        simp only [if_true] at hm
        have hR := logRange hl hm.1 hlu (hb rfl)
        have hgap := decimal_gap hl hu hlu
        simp only [toVecD, hq, hp, if_true, Option.map_some, Option.some.injEq] at ex' ey'
        have r1 := hR.reads ha hgap (p := (q : ℝ)) (by exact_mod_cast q1) (by exact_mod_cast q2)
        have r2 := hR.reads ha hgap (p := (p : ℝ)) (by exact_mod_cast p1) (by exact_mod_cast p2)
        rw [ex'] at r1
        rw [ey'] at r2
        refine ⟨.num (toValLogFlt lg ex (rd (lo : ℝ)) (rd (hi : ℝ)) x'), .num (toValLogFlt lg ex (rd (lo : ℝ)) (rd (hi : ℝ)) y'),
          by rw [hkl]; simp [toValD], by rw [hkr]; simp [toValD], ?_⟩
        simp only [relOnEntries, e1, e2]
        have hqe : q = p → x' = y' := by rintro rfl; rw [← ex', ← ey']
        have key : ∀ {s t : Rat} {a b : ℝ}, Decimal s → Decimal t → |a - (s : ℝ)| < 5 / 10 ^ 14 → |b - (t : ℝ)| < 5 / 10 ^ 14 → s < t → a < b := by
          intro s t a b hs ht h1 h2 h
          have hg := decimal_gap hs ht h
          have h1' := abs_lt.1 h1
          have h2' := abs_lt.1 h2
          norm_num at *
          linarith
        have dir : ∀ {s t : Rat} {a b : ℝ}, Decimal s → Decimal t → |a - (s : ℝ)| < 5 / 10 ^ 14 → |b - (t : ℝ)| < 5 / 10 ^ 14 →
            (s = t → a = b) → (a < b ↔ s < t) := by
          intro s t a b hs ht h1 h2 he
          refine ⟨fun h => ?_, key hs ht h1 h2⟩
          rcases lt_trichotomy s t with k | k | k
          · exact k
          · exact absurd (he k) h.ne
          · exact absurd (key ht hs h2 h1 k) (not_lt.2 h.le)
        exact onVals_num (dir dq dp r1 r2 (fun e => by rw [hqe e])) (dir dp dq r2 r1 (fun e => by rw [hqe e.symm])) op

theorem clauseVals_inClause (f : Forb) : ∀ p ∈ clauseVals f, Spec.Any.InClause p.1 p.2 f := by
  induction f using Forb.induct with
  | he h w x =>
    intro p hp
    simp only [clauseVals, List.mem_singleton] at hp
    subst hp
    exact .eq
  | hi h ws xs =>
    intro p hp
    simp only [clauseVals, List.mem_map] at hp
    obtain ⟨w, hw, rfl⟩ := hp
    exact .isIn hw
  | hr op l r =>
    intro p hp
    simp [clauseVals] at hp
  | ha cs ih =>
    intro p hp
    simp only [clauseVals] at hp
    obtain ⟨c, hc, hp⟩ := mem_clauseValsL.1 hp
    exact .and hc (ih c hc p hp)

theorem relPairs_hps (f : Forb) : ∀ p ∈ relPairs f, p.1 ∈ clauseHps f ∧ p.2 ∈ clauseHps f := by
  induction f using Forb.induct with
  | he h w x => intro p hp; simp [relPairs] at hp
  | hi h ws xs => intro p hp; simp [relPairs] at hp
  | hr op l r =>
    intro p hp
    simp only [relPairs, List.mem_singleton] at hp
    subst hp
    simp [clauseHps]
  | ha cs ih =>
    intro p hp
    simp only [relPairs] at hp
    obtain ⟨c, hc, hp⟩ := mem_relPairsL.1 hp
    simp only [clauseHps]
    exact ⟨mem_clauseHpsL.2 ⟨c, hc, (ih c hc p hp).1⟩, mem_clauseHpsL.2 ⟨c, hc, (ih c hc p hp).2⟩⟩

variable {calls : List Call} {s : Space}

/-- Doubles on linear and logarithmic scales agree with exact numbers on the values as one writes them. -/
theorem agree_doubles (ha : Accurate lg ex) (hr : Reach calls s) (hp : PreciseLog log calls) :
    Spec.Any.Agree (doubles lg ex log) exact calls (fun h w => Written h.kind w) := by
  have hwf := (reach_wf hr).1
  have hleg : ∀ {h : HP} {x : Val}, Spec.Any.Good exact (fun h w => Written h.kind w) h x → h.kind.legalValue x = true ∧ Written h.kind x :=
    fun hx => ⟨hx.2, hx.1⟩
  have hent : ∀ {h : HP} {x : Val}, Spec.Any.Good exact (fun h w => Written h.kind w) h x →
      ∃ y y', h.kind.toVec x = some y ∧ toVecD lg (log h) h.kind x = some y' ∧ (exact.toVec h x) = y ∧ (doubles lg ex log).toVec h x = y' := by
    intro h x hx
    obtain ⟨y, hy⟩ := legal_toVec hx.2
    obtain ⟨y', hy'⟩ := isSome_vec (lg := lg) hx.2 (log h)
    exact ⟨y, y', hy, hy', by simp [exact, hy], by simp [doubles, hy']⟩
  have hord : ∀ h ∈ allHps calls, ∀ x y, Spec.Any.Good exact (fun h w => Written h.kind w) h x →
      Spec.Any.Good exact (fun h w => Written h.kind w) h y →
      ((doubles lg ex log).toVec h x = (doubles lg ex log).toVec h y ↔ exact.toVec h x = exact.toVec h y) ∧
      ((doubles lg ex log).toVec h x < (doubles lg ex log).toVec h y ↔ exact.toVec h x < exact.toVec h y) := by
    intro h hh x y hx hy
    obtain ⟨a, a', e1, e2, e3, e4⟩ := hent hx
    obtain ⟨b, b', f1, f2, f3, f4⟩ := hent hy
    rw [e3, e4, f3, f4]
    exact toVecD_order ha (hwf h hh) (hp.ranges h hh) hx.2 hy.2 hx.1 hy.1 e1 f1 e2 f2
  have hdl : ∀ h ∈ allHps calls, ∀ x, Spec.Any.Good exact (fun h w => Written h.kind w) h x → _ := fun h hh x hx =>
    double_legal (log := log) ha (hwf h hh) (doubleRange ha (hwf h hh) (hp.ranges h hh)) (assignable_of hx.2 hx.1)
  have hread : ∀ h ∈ allHps calls, ∀ x, Spec.Any.Good exact (fun h w => Written h.kind w) h x →
      ∃ w w', exact.toVal h (exact.toVec h x) = some w ∧ (doubles lg ex log).toVal h ((doubles lg ex log).toVec h x) = some w' := by
    intro h hh x hx
    obtain ⟨a, a', e1, e2, e3, e4⟩ := hent hx
    rw [e3, e4]
    obtain ⟨w, hw, -⟩ := toVal_toVec (hwf h hh) hx.2 e1 (exactInt_of hx.2 hx.1)
    by_cases hf : ∃ lo hi, h.kind = .flt lo hi
    · obtain ⟨lo, hi, hk⟩ := hf
      refine ⟨w, .num (if log h then toValLogFlt lg ex (rd (lo : ℝ)) (rd (hi : ℝ)) a' else toValFlt (rd (lo : ℝ)) (rd (hi : ℝ)) a'), hw, ?_⟩
      show toValD lg ex (log h) h.kind a' = _
      rw [hk]
      rfl
    · obtain ⟨u, h1, -⟩ := toValD_toVec ha (hwf h hh) (hp.ranges h hh) (fun lo hi hk => hf ⟨lo, hi, hk⟩) hx.2 hx.1 e1 e2
      exact ⟨w, _, hw, h1⟩
  refine ⟨?_, fun h hh x y hx hy => (hord h hh x y hx hy).1, ?_, ?_, ?_, ?_, ?_, ?_, ?_⟩
  · intro h hh x hx
    show legalValueD h.kind x = h.kind.legalValue x
    rw [legalValueD_eq]
    exact legalValue64_eq (modest_of (hwf h hh) (hp.ranges h hh)) hx
  · intro h hh x y hx hy
    show decide _ = decide _
    rw [Bool.eq_iff_iff, decide_eq_true_eq, decide_eq_true_eq]
    exact (hord h hh x y hx hy).2
  · intro h hh x hx
    rw [(hdl h hh x hx).1]
    obtain ⟨a, -, e1, -, e3, -⟩ := hent hx
    rw [e3]
    exact (toVec_legal (hwf h hh) hx.2 e1 (exactInt_of hx.2 hx.1)).symm
  · intro h hh x hx
    obtain ⟨w, w', h1, h2⟩ := hread h hh x hx
    rw [h1, h2]
    rfl
  · intro f hf p hpm op x y hx hy
    obtain ⟨m1, m2⟩ := relPairs_hps f p hpm
    have hl := (hp.clauses f hf).1 _ m1
    have hrr := (hp.clauses f hf).1 _ m2
    obtain ⟨a, a', e1, e2, e3, e4⟩ := hent hx
    obtain ⟨b, b', f1, f2, f3, f4⟩ := hent hy
    rw [e3, e4, f3, f4]
    have hnon : (∀ lo hi, p.1.kind ≠ .flt lo hi ∧ p.2.kind ≠ .flt lo hi) →
        relEntries (doubles lg ex log) op p.1 p.2 (some a') (some b') = relEntries exact op p.1 p.2 (some a) (some b) := by
      intro hn
      obtain ⟨w, h1, h2⟩ := toValD_toVec ha (hwf _ hl) (hp.ranges _ hl) (fun lo hi => (hn lo hi).1) hx.2 hx.1 e1 e2
      obtain ⟨w', h1', h2'⟩ := toValD_toVec ha (hwf _ hrr) (hp.ranges _ hrr) (fun lo hi => (hn lo hi).2) hy.2 hy.1 f1 f2
      simp only [relEntries, doubles, exact, h1, h2, h1', h2']
      exact onVals_of rfl rfl rfl rfl op
    rcases hp.rels f hf p hpm with hn | ⟨k1, k2, k3⟩
    · exact hnon hn
    · by_cases hfl : ∃ lo hi, p.1.kind = .flt lo hi
      · obtain ⟨lo, hi, hk⟩ := hfl
        rw [← k2] at f2
        obtain ⟨A, B, h1, h2, h3⟩ := relD_flt ha hk (k1 ▸ hk) (hwf _ hl) (hp.ranges _ hl) (hwf _ hrr) (k3 lo hi hk) hx.2 hx.1 hy.2 hy.1 e1 e2 f1 f2 op
        rw [exact_rel, ← h3]
        rw [k2] at h2
        simp only [relEntries, doubles, h1, h2]
      · exact hnon (fun lo hi => ⟨fun h => hfl ⟨lo, hi, h⟩, fun h => hfl ⟨lo, hi, k1.trans h⟩⟩)
  · intro c hc l hl
    obtain ⟨h1, h2⟩ := hp.conds c hc l hl
    refine ⟨h1, fun w hw => ⟨h2 w hw, ?_⟩⟩
    have hcw := (reach_wf hr).2.1 c hc
    have hlw := wf0_lit (Cond.wf_wf0 hcw) l hl
    obtain ⟨k1, k2⟩ := lit_values hlw
    cases ht : l.test with
    | bin op v x =>
      rw [ht] at hw
      simp only [testVals, List.mem_singleton] at hw
      subst hw
      exact (k1 op _ x ht).1
    | isIn vs xs =>
      rw [ht] at hw
      exact (k2 vs xs ht).1 w hw
  · intro f hf
    exact ⟨(hp.clauses f hf).1, fun p hpm => ⟨(hp.clauses f hf).2 p hpm,
      inClause_legal (clauseVals_inClause f p hpm) ((reach_wf hr).2.2 f hf)⟩⟩
  · intro h hh
    exact ⟨written_default (hwf h hh), HP.wf_legal (hwf h hh)⟩

/-- Both keep what they were given. -/
theorem keeps_doubles (hr : Reach calls s) (hp : PreciseLog log calls) :
    Spec.Any.Keeps (doubles lg ex log) exact calls (fun h w => Written h.kind w) (fun h => roundVal64 h.kind) (fun h => roundVal h.kind) := by
  intro h hh x hx
  have hm := modest_of ((reach_wf hr).1 h hh) (hp.ranges h hh)
  obtain ⟨-, -, h3, h4⟩ := roundVal64_eq hm hx.2 hx.1
  refine ⟨?_, h4, h3⟩
  show (toVecD lg (log h) h.kind (roundVal64 h.kind x)).getD 0 = (toVecD lg (log h) h.kind (roundVal h.kind x)).getD 0
  congr 1
  cases hk : h.kind with
  | cat cs => rfl
  | ord cs => rfl
  | const c => rfl
  | int l u => rfl
  | flt l u =>
    cases hq : x.num? with
    | none =>
      have := hx.2
      simp only [exact, hk] at this
      simp [Kind.legalValue, hq] at this
    | some q =>
      obtain ⟨dq, q1, q2, qb⟩ := flt_legal hk hm hx.2 hx.1 hq
      have e : roundVal (.flt l u) x = .flt q := by simp [roundVal, Kind.isFloat, hq, decimal_round dq]
      have e' : roundVal64 (.flt l u) x = .flt (rd q) := by simp [roundVal64, Kind.isFloat, hq, round13_decimal dq qb]
      rw [e, e']
      simp [toVecD, Val.num?, rd_ratCast, rd_rd]

end Verif.F64
