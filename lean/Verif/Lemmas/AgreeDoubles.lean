import Verif.Props.AnyNumInst
import Verif.Lemmas.Agree
import Verif.Spec.AgreeDoubles
import Mathlib.Data.Rat.Floor

/-!
# Doubles on linear and logarithmic scales order the values as exact numbers do
-/

set_option autoImplicit false

namespace Verif.F64
open Verif.Num Verif.Spec
variable {lg ex : ℝ → ℝ}

/-! ## Doubles among the rationals and among the real numbers -/

theorem log_ratCast (q : Rat) : Int.log 2 |(q : ℝ)| = Int.log 2 |q| := by
  by_cases h0 : q = 0
  · subst h0; simp
  have hq : 0 < |q| := abs_pos.2 h0
  have hr : 0 < |(q : ℝ)| := abs_pos.2 (by exact_mod_cast h0)
  have h1 := Int.zpow_log_le_self (b := 2) (by norm_num) hq
  have h2 := Int.lt_zpow_succ_log_self (b := 2) (by norm_num) |q|
  have e : ((|q| : Rat) : ℝ) = |(q : ℝ)| := by push_cast; rfl
  refine le_antisymm ?_ ?_
  · rw [← Int.lt_add_one_iff, ← Int.lt_zpow_iff_log_lt (by norm_num) hr, ← e]
    have : ((|q| : Rat) : ℝ) < (((2 : Nat) : Rat) ^ (Int.log 2 |q| + 1) : Rat) := by exact_mod_cast h2
    simpa using this
  · rw [← Int.zpow_le_iff_le_log (by norm_num) hr, ← e]
    have : (((((2 : Nat) : Rat) ^ (Int.log 2 |q|) : Rat)) : ℝ) ≤ ((|q| : Rat) : ℝ) := by exact_mod_cast h1
    simpa using this

theorem rintK_ratCast (q : Rat) : rintK (q : ℝ) = rintK q := by
  unfold rintK
  simp only [Rat.floor_cast]
  have e : (q : ℝ) - ((⌊q⌋ : Int) : ℝ) = ((q - (⌊q⌋ : Int) : Rat) : ℝ) := by push_cast; rfl
  rw [e]
  have a : ((q - (⌊q⌋ : Int) : Rat) : ℝ) < 1 / 2 ↔ q - (⌊q⌋ : Int) < 1 / 2 := by
    rw [show (1 / 2 : ℝ) = ((1 / 2 : Rat) : ℝ) by norm_num, Rat.cast_lt]
  have b : (1 / 2 : ℝ) < ((q - (⌊q⌋ : Int) : Rat) : ℝ) ↔ 1 / 2 < q - (⌊q⌋ : Int) := by
    rw [show (1 / 2 : ℝ) = ((1 / 2 : Rat) : ℝ) by norm_num, Rat.cast_lt]
  simp only [a, b]

theorem rd_ratCast (q : Rat) : rd (q : ℝ) = ((rd q : Rat) : ℝ) := by
  have hu : ulp (q : ℝ) = ((ulp q : Rat) : ℝ) := by
    unfold ulp
    rw [log_ratCast]
    push_cast
    rfl
  unfold rd
  rw [hu, show (q : ℝ) / ((ulp q : Rat) : ℝ) = ((q / ulp q : Rat) : ℝ) by push_cast; rfl, rintK_ratCast]
  push_cast
  rfl

/-! ## Vectors of different numbers on a logarithmic scale -/

theorem log_gap {x y hi L : ℝ} (hx : 0 < x) (hy : y ≤ hi) (hL : 1 ≤ L) (hc : hi * L ≤ 321 / 10) (hg : x + 92 / 10 ^ 15 ≤ y) :
    Real.log x + 2866 / 10 ^ 18 * L ≤ Real.log y := by
  have hy0 : 0 < y := by norm_num at hg; linarith
  have h1 := Real.one_sub_inv_le_log_of_pos (x := y / x) (div_pos hy0 hx)
  rw [Real.log_div hy0.ne' hx.ne', inv_div] at h1
  have h2 : 2866 / 10 ^ 18 * L ≤ 1 - x / y := by
    have e : 1 - x / y = (y - x) / y := by field_simp
    rw [e, le_div_iff₀ hy0]
    have h3 : y * L ≤ 321 / 10 := (mul_le_mul_of_nonneg_right hy (by linarith)).trans hc
    have e2 : 2866 / 10 ^ 18 * L * y = 2866 / 10 ^ 18 * (y * L) := by ring
    rw [e2]
    generalize y * L = z at *
    norm_num at *
    linarith
  linarith

theorem log_sep (ha : Accurate lg ex) {lo hi L x y : ℝ} (h0 : 0 < lo) (hL : 1 ≤ L) (hl : |Real.log lo| ≤ L) (hu : |Real.log hi| ≤ L)
    (hc : hi * L ≤ 321 / 10) (h1 : lo ≤ x) (hg : x + 92 / 10 ^ 15 ≤ y) (h2 : y ≤ hi) :
    lg x < lg y ∧ toVecLog lg lo hi x < toVecLog lg lo hi y := by
  have hx0 : 0 < x := by linarith
  have hxy : x < y := by norm_num at hg; linarith
  have hη := eta_tiny
  have hgap := log_gap hx0 h2 hL hc hg
  have hmid : ∀ z, lo ≤ z → z ≤ hi → |Real.log z| ≤ L := by
    intro z b1 b2
    have c1 := Real.log_le_log h0 b1
    have c2 := Real.log_le_log (by linarith) b2
    rw [abs_le] at *
    constructor <;> linarith
  have hbd : ∀ z, lo ≤ z → z ≤ hi → |lg z - Real.log z| ≤ L / 2 ^ 50 + 1 / 2 ^ 100 := by
    intro z b1 b2
    have := ha.log_near z (by linarith)
    have h3 : |Real.log z| / 2 ^ 50 ≤ L / 2 ^ 50 := div_le_div_of_nonneg_right (hmid z b1 b2) (by positivity)
    linarith [hη.2]
  have ex1 := abs_le.1 (hbd x h1 (by linarith))
  have ey1 := abs_le.1 (hbd y (by linarith) h2)
  have el1 := abs_le.1 (hbd lo le_rfl (by linarith))
  have eh1 := abs_le.1 (hbd hi (by linarith) le_rfl)
  have hl' := abs_le.1 hl
  have hu' := abs_le.1 hu
  have m1 := ha.mono lo x h0 h1
  have m3 := ha.mono y hi (by linarith) h2
  have hstep : lg x + 1089 / 10 ^ 18 * L ≤ lg y := by
    norm_num at *
    linarith
  have hlt : lg x < lg y := by
    norm_num at *
    linarith
  refine ⟨hlt, ?_⟩
  have hD0 : lg hi - lg lo ≤ 201 / 100 * L := by
    norm_num at *
    linarith
  unfold toVecLog normalize
  generalize lg x = a at *
  generalize lg y = b at *
  generalize lg lo = c at *
  generalize lg hi = d at *
  split_ifs with hcase
  · exact hlt
  have p1 := rd_err' (a - c)
  have p2 := rd_err' (b - c)
  have p3 := rd_err' (d - c)
  have o1 : rd (a - c) ≤ rd (d - c) := rd_mono (by linarith)
  have o2 : rd (b - c) ≤ rd (d - c) := rd_mono (by linarith)
  have o0 : 0 ≤ rd (a - c) := rd_nonneg (by linarith)
  rw [abs_of_nonneg (by linarith : 0 ≤ a - c)] at p1
  rw [abs_of_nonneg (by linarith : 0 ≤ b - c)] at p2
  rw [abs_of_nonneg (by linarith : 0 ≤ d - c)] at p3
  have p1' := abs_le.1 p1
  have p2' := abs_le.1 p2
  have p3' := abs_le.1 p3
  generalize rd (a - c) = p at *
  generalize rd (b - c) = q at *
  generalize rd (d - c) = D at *
  have hη2 := hη.2
  generalize (2 : ℝ) ^ (-400 : Int) = η at *
  have hD : D ≤ 202 / 100 * L := by
    norm_num at *
    linarith
  have hqp : p + 64 / 10 ^ 17 * L ≤ q := by
    norm_num at *
    linarith
  have hDpos : 0 < D := by
    norm_num at *
    linarith
  have hq : p / D + 3 / 10 ^ 16 ≤ q / D := by
    rw [div_add' _ _ _ hDpos.ne', div_le_div_iff_of_pos_right hDpos]
    norm_num at *
    linarith
  have r1 := rd_err' (p / D)
  have r2 := rd_err' (q / D)
  have u1 : p / D ≤ 1 := (div_le_one hDpos).2 o1
  have u2 : q / D ≤ 1 := (div_le_one hDpos).2 o2
  have u0 : 0 ≤ p / D := div_nonneg o0 hDpos.le
  rw [abs_of_nonneg u0] at r1
  rw [abs_of_nonneg (by norm_num at *; linarith : 0 ≤ q / D)] at r2
  have r1' := abs_le.1 r1
  have r2' := abs_le.1 r2
  have hη3 := eta_tiny.2
  generalize (2 : ℝ) ^ (-400 : Int) = η' at *
  generalize p / D = p' at *
  generalize q / D = q' at *
  norm_num at *
  linarith

theorem rd_rel {z : ℝ} (hz : 1 / 10 ^ 13 ≤ z) : z * (1 - 11 / (10 * 2 ^ 53)) ≤ rd z ∧ rd z ≤ z * (1 + 11 / (10 * 2 ^ 53)) := by
  have h := rd_err' z
  rw [abs_of_pos (a := z) (by norm_num at hz; linarith)] at h
  have h' := abs_le.1 h
  have hη := eta_tiny.2
  generalize (2 : ℝ) ^ (-400 : Int) = η at *
  norm_num at *
  constructor <;> linarith

theorem rd_pos' {z : ℝ} (hz : 1 / 10 ^ 13 ≤ z) : 0 < rd z := by
  have := (rd_rel hz).1
  norm_num at *
  linarith

theorem log_rd {z : ℝ} (hz : 1 / 10 ^ 13 ≤ z) : |Real.log (rd z) - Real.log z| ≤ 1 / 2 ^ 51 := by
  have hz0 : 0 < z := by norm_num at hz; linarith
  have hr := rd_pos' hz
  obtain ⟨h1, h2⟩ := rd_rel hz
  rw [← Real.log_div hr.ne' hz0.ne', abs_le]
  have hu : rd z / z ≤ 1 + 11 / (10 * 2 ^ 53) := by
    rw [div_le_iff₀ hz0]
    linarith
  have hl : z / rd z ≤ 1 + 1 / 2 ^ 51 := by
    rw [div_le_iff₀ hr]
    norm_num at *
    linarith
  have a := Real.log_le_sub_one_of_pos (x := rd z / z) (by positivity)
  have b := Real.log_le_sub_one_of_pos (x := z / rd z) (by positivity)
  have e : Real.log (z / rd z) = - Real.log (rd z / z) := by rw [← Real.log_inv, inv_div]
  rw [e] at b
  norm_num at *
  constructor <;> linarith

theorem logSize_le {z : ℝ} (hz : 1 / 10 ^ 13 ≤ z) (hz2 : z ≤ 32) : |Real.log z| ≤ 500 := by
  have hz0 : 0 < z := by norm_num at hz; linarith
  have a := Real.log_le_sub_one_of_pos hz0
  have b := Real.log_le_log (by positivity) hz
  rw [one_div, Real.log_inv, Real.log_pow] at b
  have c := Real.log_le_sub_one_of_pos (x := (10 : ℝ)) (by norm_num)
  rw [abs_le]
  norm_num at *
  constructor <;> linarith

/-- A range of floats on a logarithmic scale that is small enough. -/
structure LogRange (l u C : ℝ) : Prop where
  low : 1 / 10 ^ 13 ≤ l
  lt : l < u
  size : u * logSize l u ≤ C

theorem LogRange.bounds {l u C : ℝ} (h : LogRange l u C) (hC : C ≤ 32) :
    u ≤ C ∧ 1 ≤ logSize l u ∧ logSize l u ≤ 500 ∧ 0 < l ∧ |Real.log l| ≤ logSize l u ∧ |Real.log u| ≤ logSize l u := by
  have hl0 : 0 < l := by have := h.low; norm_num at this; linarith
  have h1 : 1 ≤ logSize l u := le_max_left _ _
  have hu0 : 0 < u := hl0.trans h.lt
  have hu : u ≤ C := by
    have : u * 1 ≤ u * logSize l u := mul_le_mul_of_nonneg_left h1 hu0.le
    rw [mul_one] at this
    exact this.trans h.size
  have hlow := h.low
  refine ⟨hu, h1, ?_, hl0, (le_max_left _ _).trans (le_max_right _ _), (le_max_right _ _).trans (le_max_right _ _)⟩
  refine max_le (by norm_num) (max_le (logSize_le hlow (h.lt.le.trans (hu.trans hC))) (logSize_le (hlow.trans h.lt.le) (hu.trans hC)))

/-- The rounded bounds. -/
theorem LogRange.rounded {l u C : ℝ} (h : LogRange l u C) (hC : C ≤ 32) :
    0 < rd l ∧ |Real.log (rd l)| ≤ logSize l u + 1 / 2 ^ 51 ∧ |Real.log (rd u)| ≤ logSize l u + 1 / 2 ^ 51 ∧
    rd u * (logSize l u + 1 / 2 ^ 51) ≤ C + 1 / 10 ^ 11 := by
  obtain ⟨b1, b2, b3, b4, b5, b6⟩ := h.bounds hC
  have hlow := h.low
  have hup := hlow.trans h.lt.le
  have e1 := log_rd hlow
  have e2 := log_rd hup
  have e3 := (rd_rel hup).2
  have hs := h.size
  have hlt := h.lt
  generalize logSize l u = L at *
  refine ⟨rd_pos' hlow, ?_, ?_, ?_⟩
  · rw [abs_le] at *
    norm_num at *
    constructor <;> linarith
  · rw [abs_le] at *
    norm_num at *
    constructor <;> linarith
  · have hp : 0 ≤ L + 1 / 2 ^ 51 := by norm_num; linarith
    refine (mul_le_mul_of_nonneg_right e3 hp).trans ?_
    have e : u * (1 + 11 / (10 * 2 ^ 53)) * (L + 1 / 2 ^ 51) = u * L + (u * L) * (11 / (10 * 2 ^ 53)) +
        u * ((1 + 11 / (10 * 2 ^ 53)) / 2 ^ 51) := by ring
    rw [e]
    generalize u * L = z at *
    norm_num at *
    linarith

theorem LogRange.sep (ha : Accurate lg ex) {l u : ℝ} (h : LogRange l u 32) {p q : ℝ} (h1 : l ≤ p) (hg : p + 1 / 10 ^ 13 ≤ q) (h2 : q ≤ u) :
    lg (rd p) < lg (rd q) ∧ toVecLog lg (rd l) (rd u) (rd p) < toVecLog lg (rd l) (rd u) (rd q) := by
  obtain ⟨r1, r2, r3, r4⟩ := h.rounded le_rfl
  obtain ⟨b1, b2, b3, b4, b5, b6⟩ := h.bounds le_rfl
  refine log_sep ha r1 (L := logSize l u + 1 / 2 ^ 51) (by norm_num; linarith) r2 r3 (r4.trans (by norm_num)) (rd_mono h1) ?_ (rd_mono h2)
  have hlow := h.low
  have e1 := (rd_rel (hlow.trans h1)).2
  have e2 := (rd_rel (z := q) (by norm_num at *; linarith)).1
  norm_num at *
  linarith

theorem LogRange.bounds_lt (ha : Accurate lg ex) {l u : ℝ} (h : LogRange l u 32) (hg : l + 1 / 10 ^ 13 ≤ u) : lg (rd l) < lg (rd u) :=
  (h.sep ha le_rfl hg le_rfl).1

theorem LogRange.reads (ha : Accurate lg ex) {l u : ℝ} (h : LogRange l u 3) (hg : l + 1 / 10 ^ 13 ≤ u) {p : ℝ} (h1 : l ≤ p) (h2 : p ≤ u) :
    |toValLogFlt lg ex (rd l) (rd u) (toVecLog lg (rd l) (rd u) (rd p)) - p| < 5 / 10 ^ 14 := by
  obtain ⟨r1, r2, r3, r4⟩ := h.rounded (by norm_num)
  obtain ⟨b1, b2, b3, b4, b5, b6⟩ := h.bounds (by norm_num)
  have h' : LogRange l u 32 := ⟨h.low, h.lt, h.size.trans (by norm_num)⟩
  have hlt := h'.bounds_lt ha hg
  have hlt2 : rd l < rd u := by
    by_contra hc
    exact absurd (ha.mono _ _ (rd_pos' (h.low.trans h.lt.le)) (not_lt.1 hc)) (not_le.2 hlt)
  have e := C75_log_float_error ha r1 hlt2 hlt (L := logSize l u + 1 / 2 ^ 51) (by norm_num; linarith) (by norm_num; linarith) r2 r3
    (rd_mono h1) (rd_mono h2)
  have e2 := rd_rel (h.low.trans h1)
  have hη := eta_tiny.2
  have hb : rd p * ((logSize l u + 1 / 2 ^ 51) / 2 ^ 46) ≤ (3 + 1 / 10 ^ 11) / 2 ^ 46 := by
    rw [← mul_div_assoc]
    refine div_le_div_of_nonneg_right ?_ (by positivity)
    exact (mul_le_mul_of_nonneg_right (rd_mono h2) (by norm_num; linarith)).trans r4
  have e' := abs_le.1 (e.trans (add_le_add hb hη))
  generalize toValLogFlt lg ex (rd l) (rd u) (toVecLog lg (rd l) (rd u) (rd p)) = y at *
  have hp3 : p ≤ 3 := h2.trans b1
  clear e hb
  rw [abs_lt]
  norm_num at *
  constructor <;> linarith

end Verif.F64
