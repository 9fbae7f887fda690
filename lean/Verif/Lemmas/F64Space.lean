import Verif.Spec.F64Space
import Verif.Props.F64
import Verif.Lemmas.Check
import Verif.Lemmas.Config
import Verif.Lemmas.Round

/-!
# Spaces in double precision: one hyperparameter
-/

set_option autoImplicit false

namespace Verif.F64
open Verif Verif.Spec

/-! ## Decimals -/

theorem small_eta : (2 : Rat) ^ (-400 : Int) ≤ 1 / 1000000000000000000000 := by
  refine (zpow_le_zpow_right₀ (by norm_num) (by norm_num : (-400 : Int) ≤ -80)).trans ?_
  norm_num

/-- Neighbouring decimals of modest size are rounded to different doubles. -/
theorem rd_step {q : Rat} (h : |q| ≤ 33) : rd q < rd (q + 1 / 10 ^ 13) := by
  have e1 := rd_err' q
  have e2 := rd_err' (q + 1 / 10 ^ 13)
  have hη := small_eta
  have hq := abs_le.1 h
  have hb : |q + 1 / 10 ^ 13| ≤ 34 := by
    rw [abs_le]
    norm_num at *
    constructor <;> linarith
  have e1' := abs_le.1 e1
  have e2' := abs_le.1 e2
  norm_num at *
  linarith

theorem decimal_step {p q : Rat} (hp : Decimal p) (hq : Decimal q) (h : p < q) : p + 1 / 10 ^ 13 ≤ q := by
  obtain ⟨d, rfl⟩ := hp
  obtain ⟨e, rfl⟩ := hq
  rw [div_lt_div_iff_of_pos_right (by positivity)] at h
  have h' : d + 1 ≤ e := by exact_mod_cast h
  rw [← add_div]
  refine div_le_div_of_nonneg_right ?_ (by positivity)
  exact_mod_cast h'

/-- Decimals one of which is of modest size are in the same order as their doubles. -/
theorem rd_lt {p q : Rat} (hp : Decimal p) (hq : Decimal q) (hb : |p| ≤ 32 ∨ |q| ≤ 32) : rd p < rd q ↔ p < q := by
  constructor
  · intro h
    by_contra hc
    exact absurd (rd_mono (not_lt.1 hc)) (not_le.2 h)
  · intro h
    have hs := decimal_step hp hq h
    rcases hb with hb | hb
    · exact (rd_step (hb.trans (by norm_num))).trans_le (rd_mono hs)
    · have h1 : |q - 1 / 10 ^ 13| ≤ 33 := by
        have := abs_le.1 hb
        rw [abs_le]
        norm_num at *
        constructor <;> linarith
      have h2 := rd_step h1
      rw [sub_add_cancel] at h2
      exact (rd_mono (by linarith)).trans_lt h2

theorem rd_le {p q : Rat} (hp : Decimal p) (hq : Decimal q) (hb : |p| ≤ 32 ∨ |q| ≤ 32) : rd p ≤ rd q ↔ p ≤ q := by
  rw [← not_lt, ← not_lt, rd_lt hq hp hb.symm]

theorem rd_inj {p q : Rat} (hp : Decimal p) (hq : Decimal q) (hb : |p| ≤ 32 ∨ |q| ≤ 32) : rd p = rd q ↔ p = q := by
  rw [le_antisymm_iff, le_antisymm_iff, rd_le hp hq hb, rd_le hq hp hb.symm]

theorem rd_bound {q : Rat} (h : |q| ≤ 32) : |rd q| ≤ 32 := by
  have h32 : rd (32 : Rat) = 32 := by
    have := rd_int (K := Rat) (n := 32) (by norm_num)
    exact_mod_cast this
  have hm : rd (-32 : Rat) = -32 := by
    have := rd_int (K := Rat) (n := -32) (by norm_num)
    exact_mod_cast this
  obtain ⟨h1, h2⟩ := abs_le.1 h
  have a := rd_mono h1
  have b := rd_mono h2
  rw [hm] at a
  rw [h32] at b
  exact abs_le.2 ⟨a, b⟩

theorem decimal_round {q : Rat} (h : Decimal q) : roundPlaces q = q := by
  obtain ⟨d, rfl⟩ := h
  unfold roundPlaces
  have : (d : Rat) / 10 ^ 13 * 10000000000000 = d := by norm_num
  rw [this, rint_int]
  norm_num

theorem decimal_of_round {q : Rat} (h : roundPlaces q = q) : Decimal q := by
  refine ⟨rint (q * 10000000000000), ?_⟩
  conv_lhs => rw [← h]
  unfold roundPlaces
  norm_num

/-- Rounding a decimal of modest size to 13 places gives the same double. -/
theorem round13_decimal {q : Rat} (h : Decimal q) (hb : |q| ≤ 32) : round13 (rd q) = rd q := by
  obtain ⟨d, rfl⟩ := h
  refine round13_near (hb.trans (by norm_num)) ?_
  rw [sub_self, abs_zero]
  positivity

theorem between_abs {l u q : Rat} (hl : |l| ≤ 32) (hu : |u| ≤ 32) (h1 : l ≤ q) (h2 : q ≤ u) : |q| ≤ 32 :=
  abs_le.2 ⟨(abs_le.1 hl).1.trans h1, h2.trans (abs_le.1 hu).2⟩

/-! ## Values and vectors -/

theorem rd_intCast {n : Int} (h : |n| < 2 ^ 49) : rd (n : Rat) = n :=
  rd_int (h.le.trans (by norm_num))

theorem rintK_intCast (n : Int) : Num.rintK (n : Rat) = n := rintK_eq (by rw [sub_self, abs_zero]; norm_num)

theorem closeToInt_intCast (n : Int) : F64.closeToInt (n : Rat) := by
  unfold F64.closeToInt
  rw [rintK_intCast, sub_self, abs_zero, rd_zero]
  refine rd_nonneg (add_nonneg (rd_nonneg (by norm_num)) (rd_nonneg (mul_nonneg (rd_nonneg (by norm_num)) (abs_nonneg _))))

theorem le_rintK {x : Rat} {m : Int} (h : (m : Rat) ≤ x) : m ≤ Num.rintK x := by
  by_contra hc
  have h1 : (Num.rintK x : Rat) + 1 ≤ m := by exact_mod_cast not_le.1 hc
  have h2 := rintK_nearest x m
  rw [abs_of_nonneg (by linarith), abs_of_nonneg (by linarith)] at h2
  linarith

theorem rintK_le {x : Rat} {m : Int} (h : x ≤ (m : Rat)) : Num.rintK x ≤ m := by
  by_contra hc
  have h1 : (m : Rat) + 1 ≤ Num.rintK x := by exact_mod_cast not_le.1 hc
  have h2 := rintK_nearest x m
  rw [abs_of_nonpos (by linarith), abs_of_nonpos (by linarith)] at h2
  linarith

/-- Integers are legal when they are within the bounds. -/
theorem legalInt_iff {l u n : Int} (hl : |l| < 2 ^ 49) (hu : |u| < 2 ^ 49) :
    F64.legalInt l u (rd (n : Rat)) ↔ l ≤ n ∧ n ≤ u := by
  unfold F64.legalInt
  rw [rd_intCast hl, rd_intCast hu]
  rw [Int.cast_le, Int.cast_le]
  have hl' := abs_lt.1 hl
  have hu' := abs_lt.1 hu
  by_cases hn : |n| ≤ 2 ^ 53
  · rw [rd_int hn, rintK_intCast]
    exact ⟨fun h => ⟨h.1, h.2.1⟩, fun h => ⟨h.1, h.2, closeToInt_intCast n⟩⟩
  · rcases le_total 0 n with h0 | h0
    · rw [abs_of_nonneg h0] at hn
      have h1 : (((2 ^ 53 : Int)) : Rat) ≤ rd (n : Rat) := by
        rw [← rd_int (K := Rat) (n := 2 ^ 53) (by norm_num)]
        refine rd_mono ?_
        exact_mod_cast (not_le.1 hn).le
      have h2 := le_rintK h1
      norm_num at *
      omega
    · rw [abs_of_nonpos h0] at hn
      have h1 : rd (n : Rat) ≤ ((-(2 ^ 53 : Int) : Int) : Rat) := by
        rw [← rd_int (K := Rat) (n := -(2 ^ 53)) (by norm_num)]
        refine rd_mono ?_
        have : n ≤ -2 ^ 53 := by omega
        exact_mod_cast this
      have h2 := rintK_le h1
      norm_num at *
      omega

/-- Legality of values as written. -/
theorem legalValue64_eq {h : HP} (hm : Modest h.kind) {v : Val} (hv : Written h.kind v) :
    legalValue64 h.kind v = h.kind.legalValue v := by
  cases hk : h.kind with
  | cat cs => rfl
  | ord cs => rfl
  | const c => rfl
  | int l u =>
    rw [hk] at hm hv
    cases hq : v.num? with
    | none => simp [legalValue64, Kind.legalValue, hq]
    | some q =>
      obtain ⟨n, rfl⟩ := hv q hq
      simp only [legalValue64, Kind.legalValue, Val.num?, legalInt_iff hm.1 hm.2, rint_int, closeToInt_int, Bool.and_true,
        Bool.decide_and]
  | flt l u =>
    rw [hk] at hm hv
    cases hq : v.num? with
    | none => simp [legalValue64, Kind.legalValue, hq]
    | some q =>
      have hd := hv q hq
      simp only [legalValue64, Kind.legalValue, hq, rd_le hm.1.2 hd (.inl hm.1.1), rd_le hd hm.2.2 (.inr hm.2.1)]

/-- The numbers of a legal value of a float range. -/
theorem flt_legal {h : HP} {l u q : Rat} {v : Val} (hk : h.kind = .flt l u) (hm : Modest h.kind)
    (lv : h.kind.legalValue v = true) (hv : Written h.kind v) (hq : v.num? = some q) :
    Decimal q ∧ l ≤ q ∧ q ≤ u ∧ |q| ≤ 32 := by
  rw [hk] at hm lv hv
  simp only [Kind.legalValue, hq, Bool.and_eq_true, decide_eq_true_eq] at lv
  exact ⟨hv q hq, lv.1, lv.2, between_abs hm.1.1 hm.2.1 lv.1 lv.2⟩

/-- The integer of a legal value of an integer range. -/
theorem int_legal {h : HP} {l u : Int} {v : Val} (hk : h.kind = .int l u) (lv : h.kind.legalValue v = true)
    (hv : Written h.kind v) : ∃ n : Int, v = .int n ∧ l ≤ n ∧ n ≤ u := by
  rw [hk] at lv hv
  cases hq : v.num? with
  | none => simp [Kind.legalValue, hq] at lv
  | some q =>
    obtain ⟨n, rfl⟩ := hv q hq
    simp only [Kind.legalValue, Val.num?, rint_int, Bool.and_eq_true, decide_eq_true_eq] at lv
    exact ⟨n, rfl, lv.1.1, lv.1.2⟩

/-- Legal values have a vector value in double precision, too. -/
theorem legal_toVec64 {k : Kind} {v : Val} (h : k.legalValue v = true) : ∃ x, toVec64 k v = some x := by
  cases k with
  | cat cs => exact legal_toVec h
  | ord cs => exact legal_toVec h
  | const c => exact legal_toVec h
  | int l u =>
    cases hn : v.num? with
    | none => simp [Kind.legalValue, hn] at h
    | some q => exact ⟨_, by simp [toVec64, hn]; rfl⟩
  | flt l u =>
    cases hn : v.num? with
    | none => simp [Kind.legalValue, hn] at h
    | some q => exact ⟨_, by simp [toVec64, hn]; rfl⟩

theorem wf_int' {h : HP} {l u : Int} (hw : h.wf = true) (hk : h.kind = .int l u) : l < u := by
  exact_mod_cast HP.wf_int hw hk

theorem toVec64_int {l u n : Int} : toVec64 (.int l u) (.int n) = some (toVecInt l u n) := rfl

/-- Vector values in double precision are equal, and in order, when the exact ones are. -/
theorem toVec64_order {h : HP} (hw : h.wf = true) (hm : Modest h.kind) {v w : Val} {x y x' y' : Rat}
    (lv : h.kind.legalValue v = true) (lw : h.kind.legalValue w = true) (hv : Written h.kind v) (hw' : Written h.kind w)
    (ex : h.kind.toVec v = some x) (ey : h.kind.toVec w = some y)
    (ex' : toVec64 h.kind v = some x') (ey' : toVec64 h.kind w = some y') :
    (x' = y' ↔ x = y) ∧ (x' < y' ↔ x < y) := by
  cases hk : h.kind with
  | cat cs =>
    rw [hk] at ex ey ex' ey'
    have e1 : some x' = some x := ex'.symm.trans ex
    have e2 : some y' = some y := ey'.symm.trans ey
    cases e1; cases e2
    exact ⟨Iff.rfl, Iff.rfl⟩
  | ord cs =>
    rw [hk] at ex ey ex' ey'
    have e1 : some x' = some x := ex'.symm.trans ex
    have e2 : some y' = some y := ey'.symm.trans ey
    cases e1; cases e2
    exact ⟨Iff.rfl, Iff.rfl⟩
  | const c =>
    rw [hk] at ex ey ex' ey'
    have e1 : some x' = some x := ex'.symm.trans ex
    have e2 : some y' = some y := ey'.symm.trans ey
    cases e1; cases e2
    exact ⟨Iff.rfl, Iff.rfl⟩
  | int l u =>
    obtain ⟨m, rfl, m1, m2⟩ := int_legal hk lv hv
    obtain ⟨n, rfl, n1, n2⟩ := int_legal hk lw hw'
    have hlu := wf_int' hw hk
    rw [hk] at ex ey ex' ey' hm
    rw [toVec64_int] at ex' ey'
    cases ex'; cases ey'
    simp only [Kind.toVec, Val.num?, Option.map_some, Option.some.injEq] at ex ey
    subst ex; subst ey
    have hq : (l : Rat) < u := by exact_mod_cast hlu
    rw [normalize_inj hq, normalize_lt hq, Int.cast_inj, Int.cast_lt]
    exact C75_int_order hm.1 hm.2 hlu m1 m2 n1 n2
  | flt l u =>
    have hlu := HP.wf_flt hw hk
    have hm' := hm
    rw [hk] at ex ey ex' ey' hm'
    simp only [Kind.toVec, toVec64, Option.map_eq_some_iff] at ex ey ex' ey'
    obtain ⟨p, hp, rfl⟩ := ex
    obtain ⟨q, hq, rfl⟩ := ey
    obtain ⟨p2, hp2, rfl⟩ := ex'
    obtain ⟨q2, hq2, rfl⟩ := ey'
    rw [hp] at hp2; cases hp2
    rw [hq] at hq2; cases hq2
    obtain ⟨dp, p1, p2, pb⟩ := flt_legal hk hm lv hv hp
    obtain ⟨dq, q1, q2, qb⟩ := flt_legal hk hm lw hw' hq
    have hl := rd_bound hm'.1.1
    have hu := rd_bound hm'.2.1
    have hlu' := (rd_lt hm'.1.2 hm'.2.2 (.inl hm'.1.1)).2 hlu
    rw [normalize_inj hlu, normalize_lt hlu, ← rd_inj dp dq (.inl pb), ← rd_lt dp dq (.inl pb)]
    have a1 := rd_mono p1
    have a2 := rd_mono p2
    have b1 := rd_mono q1
    have b2 := rd_mono q2
    obtain ⟨d, rfl⟩ := dp
    obtain ⟨e, rfl⟩ := dq
    exact C75_float_order (isF64_rd l) (isF64_rd u) hlu' hl hu d e a1 a2 b1 b2

/-- Vectors of legal values are legal, exactly and in double precision. -/
theorem legalVec64_toVec {h : HP} (hw : h.wf = true) (hm : Modest h.kind) {v : Val} {x' : Rat}
    (lv : h.kind.legalValue v = true) (hv : Written h.kind v) (ex' : toVec64 h.kind v = some x') :
    legalVec64 h.kind x' = true := by
  have he : ExactInt h.kind v := fun l u hk => by
    obtain ⟨n, rfl, -, -⟩ := int_legal hk lv hv
    exact ⟨n, rfl⟩
  obtain ⟨x, ex⟩ := legal_toVec lv
  have hl := toVec_legal hw lv ex he
  cases hk : h.kind with
  | cat cs =>
    rw [hk] at ex ex' hl
    have e1 : some x' = some x := ex'.symm.trans ex
    cases e1
    exact hl
  | ord cs =>
    rw [hk] at ex ex' hl
    have e1 : some x' = some x := ex'.symm.trans ex
    cases e1
    exact hl
  | const c =>
    rw [hk] at ex ex' hl
    have e1 : some x' = some x := ex'.symm.trans ex
    cases e1
    exact hl
  | int l u =>
    obtain ⟨n, rfl, n1, n2⟩ := int_legal hk lv hv
    have hlu := wf_int' hw hk
    rw [hk] at ex' hm
    rw [toVec64_int] at ex'
    cases ex'
    simp only [legalVec64, decide_eq_true_eq]
    exact (C75_int_legal hm.1.le hm.2.le hlu n1 n2).1
  | flt l u =>
    have hlu := HP.wf_flt hw hk
    cases hq : v.num? with
    | none => rw [hk] at lv; simp [Kind.legalValue, hq] at lv
    | some q =>
      obtain ⟨dq, q1, q2, qb⟩ := flt_legal hk hm lv hv hq
      rw [hk] at ex' hm
      simp only [toVec64, hq, Option.map_some, Option.some.injEq] at ex'
      subst ex'
      have hlu' := (rd_lt hm.1.2 hm.2.2 (.inl hm.1.1)).2 hlu
      have := C75_vector_in_unit (isF64_rd l) (isF64_rd u) hlu' (rd_mono q1) (rd_mono q2)
      simp [legalVec64, Kind.legalVec, this]

/-- What is read from the vector in double precision, in a range that is not one of floats. -/
theorem toVal64_toVec {h : HP} (hw : h.wf = true) (hm : Modest h.kind) (hf : ∀ lo hi, h.kind ≠ .flt lo hi) {v : Val}
    {x x' : Rat} (lv : h.kind.legalValue v = true) (hv : Written h.kind v) (ex : h.kind.toVec v = some x)
    (ex' : toVec64 h.kind v = some x') : toVal64 h.kind x' = h.kind.toVal x := by
  cases hk : h.kind with
  | cat cs =>
    rw [hk] at ex ex'
    have e1 : some x' = some x := ex'.symm.trans ex
    cases e1
    rfl
  | ord cs =>
    rw [hk] at ex ex'
    have e1 : some x' = some x := ex'.symm.trans ex
    cases e1
    rfl
  | const c => rfl
  | int l u =>
    obtain ⟨n, rfl, n1, n2⟩ := int_legal hk lv hv
    have hlu := wf_int' hw hk
    rw [hk] at ex ex' hm
    rw [toVec64_int] at ex'
    cases ex'
    simp only [Kind.toVec, Val.num?, Option.map_some, Option.some.injEq] at ex
    subst ex
    have hq : (l : Rat) < u := by exact_mod_cast hlu
    simp only [toVal64, Kind.toVal, C75_int_round_trip hm.1 hm.2 hlu n1 n2, scale_normalize hq, rint_int]
  | flt l u => exact absurd hk (hf l u)

/-- What is read from the vector of a float, rounded to 13 places, is the double of what was written. -/
theorem toVal64_flt {h : HP} {l u : Rat} (hk : h.kind = .flt l u) (hw : h.wf = true) (hm : Modest h.kind) {v : Val}
    {q x' : Rat} (lv : h.kind.legalValue v = true) (hv : Written h.kind v) (hq : v.num? = some q)
    (ex' : toVec64 h.kind v = some x') : round13 (toValFlt (rd l) (rd u) x') = rd q := by
  have hlu := HP.wf_flt hw hk
  obtain ⟨dq, q1, q2, qb⟩ := flt_legal hk hm lv hv hq
  rw [hk] at ex' hm
  simp only [toVec64, hq, Option.map_some, Option.some.injEq] at ex'
  subst ex'
  have hlu' := (rd_lt hm.1.2 hm.2.2 (.inl hm.1.1)).2 hlu
  have a1 := rd_mono q1
  have a2 := rd_mono q2
  obtain ⟨d, rfl⟩ := dq
  exact C75_float_round_trip (isF64_rd l) (isF64_rd u) hlu' (rd_bound hm.1.1) (rd_bound hm.2.1) d a1 a2

end Verif.F64
