import Verif.Props.F64

/-!
# Logarithmic ranges in double precision (C75)
-/

set_option autoImplicit false

namespace Verif.F64

open Verif.Num

/-- Correctly rounded functions are accurate. -/
theorem accurate_rd : Accurate (fun x => rd (Real.log x)) (fun y => rd (Real.exp y)) where
  isF64 x _ := isF64_rd _
  mono x y hx h := rd_mono (Real.log_le_log hx h)
  log_near x _ := by
    have h := rd_err' (Real.log x)
    refine h.trans ?_
    have := abs_nonneg (Real.log x)
    norm_num
    linarith
  exp_near y := by
    have h := rd_err' (Real.exp y)
    rw [abs_of_pos (Real.exp_pos y)] at h
    refine h.trans ?_
    have := Real.exp_pos y
    norm_num
    linarith

section
variable {lg ex : ℝ → ℝ}

/-- Vectors of values within the bounds are within the unit interval, the bounds have the vectors 0 and 1, and a larger
value does not have a smaller vector. -/
theorem C75_log_vector (ha : Accurate lg ex) {lo hi : ℝ} (h0 : 0 < lo) (hlt : lg lo < lg hi) (hh : lo < hi) :
    (∀ x, lo ≤ x → x ≤ hi → 0 ≤ toVecLog lg lo hi x ∧ toVecLog lg lo hi x ≤ 1) ∧
    toVecLog lg lo hi lo = 0 ∧ toVecLog lg lo hi hi = 1 ∧
    (∀ x y, lo ≤ x → x ≤ y → y ≤ hi → toVecLog lg lo hi x ≤ toVecLog lg lo hi y) := by
  have hlo := ha.isF64 lo h0
  have hhi := ha.isF64 hi (h0.trans hh)
  have he := C75_vector_ends hlo hhi hlt
  refine ⟨fun x h1 h2 => ?_, he.1, he.2, fun x y h1 h2 _ => ?_⟩
  · exact C75_vector_in_unit hlo hhi hlt (ha.mono _ _ h0 h1) (ha.mono _ _ (by linarith) h2)
  · exact C75_vector_mono hlo hhi hlt (ha.mono _ _ (by linarith) h2)

/-- The value of whatever vector is within the bounds. -/
theorem C75_log_value_in_bounds {lo hi : ℝ} (hh : lo < hi) (x : ℝ) :
    lo ≤ toValLogFlt lg ex lo hi x ∧ toValLogFlt lg ex lo hi x ≤ hi := clip_mem hh.le

/-- The exponential of nearly the logarithm. -/
theorem exp_near_log (ha : Accurate lg ex) {y δ x : ℝ} (hx : 0 < x) (hy : |y - Real.log x| ≤ δ) (hδ : δ ≤ 1) :
    |ex y - x| ≤ x * (3 * δ + 1 / 2 ^ 49) + 2 ^ (-400 : Int) := by
  have h1 := ha.exp_near y
  have h2 : Real.exp y = x * Real.exp (y - Real.log x) := by
    rw [Real.exp_sub, Real.exp_log hx]
    field_simp
  have h3 := Real.abs_exp_sub_one_le (hy.trans hδ)
  have h3' := abs_le.1 (h3.trans (by linarith : 2 * |y - Real.log x| ≤ 2 * δ))
  have hδ0 : 0 ≤ δ := (abs_nonneg _).trans hy
  generalize Real.exp (y - Real.log x) = r at *
  rw [h2] at h1
  have h1' := abs_le.1 h1
  have hxr1 : x * r ≤ x * (1 + 2 * δ) := mul_le_mul_of_nonneg_left (by linarith) hx.le
  have hxr2 : x * (1 - 2 * δ) ≤ x * r := mul_le_mul_of_nonneg_left (by linarith) hx.le
  have hxd : 0 ≤ x * δ := mul_nonneg hx.le hδ0
  have hxd1 : x * δ ≤ x := by
    calc x * δ ≤ x * 1 := mul_le_mul_of_nonneg_left hδ hx.le
      _ = x := mul_one x
  rw [abs_le]
  have e1 : x * (3 * δ + 1 / 2 ^ 49) = 3 * (x * δ) + x / 2 ^ 49 := by ring
  have e2 : x * (1 + 2 * δ) = x + 2 * (x * δ) := by ring
  have e3 : x * (1 - 2 * δ) = x - 2 * (x * δ) := by ring
  rw [e1]
  rw [e2] at hxr1
  rw [e3] at hxr2
  generalize x * δ = t at *
  generalize x * r = p at *
  generalize (2 : ℝ) ^ (-400 : Int) = η at *
  norm_num at *
  constructor <;> linarith

theorem eta_tiny : (0 : ℝ) < 2 ^ (-400 : Int) ∧ (2 : ℝ) ^ (-400 : Int) ≤ 1 / 2 ^ 100 := by
  refine ⟨by positivity, ?_⟩
  have := eta_small (K := ℝ) (B := 1) (by norm_num) (by norm_num)
  rwa [mul_one] at this

/-- A value that is turned into its vector and back changes by at most the `L / 2 ^ 46`th part of it, `L` being the
size of the logarithms of the bounds. -/
theorem C75_log_float_error (ha : Accurate lg ex) {lo hi L : ℝ} (h0 : 0 < lo) (hh : lo < hi) (hlt : lg lo < lg hi)
    (hL1 : 1 ≤ L) (hL2 : L ≤ 1000) (hl : |Real.log lo| ≤ L) (hu : |Real.log hi| ≤ L) {x : ℝ} (h1 : lo ≤ x)
    (h2 : x ≤ hi) :
    |toValLogFlt lg ex lo hi (toVecLog lg lo hi x) - x| ≤ x * (L / 2 ^ 46) + 2 ^ (-400 : Int) := by
  have hx0 : 0 < x := by linarith
  have hη := eta_tiny
  have hlx : |Real.log x| ≤ L := by
    have b1 := Real.log_le_log h0 h1
    have b2 := Real.log_le_log hx0 h2
    rw [abs_le] at *
    constructor <;> linarith
  have hbd : ∀ z, 0 < z → |Real.log z| ≤ L → |lg z - Real.log z| ≤ L / 2 ^ 50 + 1 / 2 ^ 100 := by
    intro z hz hzL
    have := ha.log_near z hz
    have h3 : |Real.log z| / 2 ^ 50 ≤ L / 2 ^ 50 := div_le_div_of_nonneg_right hzL (by positivity)
    linarith [hη.2]
  have e1 := hbd lo h0 hl
  have e2 := hbd hi (by linarith) hu
  have e3 := hbd x hx0 hlx
  have m1 : |lg lo| ≤ 2 * L := by
    rw [abs_le] at *
    norm_num at *
    constructor <;> linarith
  have m2 : |lg hi| ≤ 2 * L := by
    rw [abs_le] at *
    norm_num at *
    constructor <;> linarith
  have hy := scale_normalize_near (ha.isF64 lo h0) (ha.isF64 hi (by linarith)) hlt (M := 2 * L) (by
      have : (2 : ℝ) ^ (-200 : Int) ≤ 2 ^ (0 : Int) := zpow_le_zpow_right₀ (by norm_num) (by norm_num)
      rw [zpow_zero] at this
      linarith) m1 m2 (ha.isF64 x hx0) (ha.mono _ _ h0 h1) (ha.mono _ _ hx0 h2)
  refine (clip_near h1 h2).trans ?_
  unfold unsafeLog toVecLog
  generalize scale (normalize (lg x) (lg lo) (lg hi)) (lg lo) (lg hi) = y at *
  have hd : |y - Real.log x| ≤ 4 * L / 2 ^ 50 := by
    rw [abs_le] at *
    norm_num at *
    constructor <;> linarith
  refine (exp_near_log ha hx0 hd ?_).trans ?_
  · norm_num
    linarith
  · have : x * (3 * (4 * L / 2 ^ 50) + 1 / 2 ^ 49) ≤ x * (L / 2 ^ 46) := by
      refine mul_le_mul_of_nonneg_left ?_ hx0.le
      norm_num
      linarith
    linarith

/-! ## Integers -/

section Integers
variable {l u : Int}

theorem log_int_bounds {n : Int} (h1 : 1 ≤ n) (h2 : n ≤ 2 ^ 40) : 0 ≤ Real.log n ∧ Real.log n ≤ 40 := by
  have hn : (1 : ℝ) ≤ n := by exact_mod_cast h1
  have hn2 : (n : ℝ) ≤ 2 ^ 40 := by exact_mod_cast h2
  refine ⟨Real.log_nonneg hn, ?_⟩
  have := Real.log_le_log (by linarith) hn2
  rw [Real.log_pow] at this
  have h2 := Real.log_le_sub_one_of_pos (x := 2) (by norm_num)
  norm_num at *
  linarith

theorem log_strict (ha : Accurate lg ex) (h1 : 1 ≤ l) (h : l < u) (hu : u ≤ 2 ^ 40) : lg l < lg u := by
  have hlR : (1 : ℝ) ≤ l := by exact_mod_cast h1
  have huR : (l : ℝ) + 1 ≤ u := by exact_mod_cast h
  have huB : (u : ℝ) ≤ 1099511627776 := by
    have : (u : ℝ) ≤ ((2 ^ 40 : Int) : ℝ) := by exact_mod_cast hu
    refine this.trans ?_
    norm_num
  have e1 := ha.log_near l (by linarith)
  have e2 := ha.log_near u (by linarith)
  have b1 := log_int_bounds h1 (h.le.trans hu)
  have b2 := log_int_bounds (h1.trans h.le) hu
  have hη := eta_tiny
  rw [abs_of_nonneg b1.1] at e1
  rw [abs_of_nonneg b2.1] at e2
  have hq : (1 : ℝ) / 1099511627776 ≤ Real.log u - Real.log l := by
    rw [← Real.log_div (by linarith) (by linarith)]
    have := Real.one_sub_inv_le_log_of_pos (x := (u : ℝ) / l) (by
      apply div_pos <;> linarith)
    refine le_trans ?_ this
    rw [inv_div, le_sub_iff_add_le, ← le_sub_iff_add_le']
    have hu0 : (0 : ℝ) < u := by linarith
    rw [div_le_iff₀ hu0]
    have : (1 - 1 / 1099511627776 : ℝ) * u = u - u / 1099511627776 := by ring
    rw [this]
    linarith
  generalize (2 : ℝ) ^ (-400 : Int) = η at *
  have e1' := abs_le.1 e1
  have e2' := abs_le.1 e2
  norm_num at *
  linarith

theorem rd_int40 {n : Int} (h1 : 1 ≤ n) (h2 : n ≤ 2 ^ 40) : rd (n : ℝ) = n := by
  refine rd_int ?_
  rw [abs_le]
  norm_num at *
  omega

/-- What comes out of the exponential function is near the integer. -/
theorem unsafeLog_near (ha : Accurate lg ex) (h1 : 1 ≤ l) (h : l < u) (hu : u ≤ 2 ^ 40) {n : Int} (hn1 : l ≤ n)
    (hn2 : n ≤ u) :
    |unsafeLog lg ex (rd (l : ℝ)) (rd (u : ℝ)) (toVecLogInt lg l u n) - n| ≤ n / 2 ^ 41 := by
  have hlt := log_strict ha h1 h hu
  unfold unsafeLog toVecLogInt toVecLog
  rw [rd_int40 h1 (h.le.trans hu), rd_int40 (h1.trans h.le) hu, rd_int40 (h1.trans hn1) (hn2.trans hu)]
  have hlR : (1 : ℝ) ≤ l := by exact_mod_cast h1
  have hnR : (l : ℝ) ≤ n := by exact_mod_cast hn1
  have huR : (n : ℝ) ≤ u := by exact_mod_cast hn2
  have hn0 : (0 : ℝ) < n := by linarith
  have hη := eta_tiny
  have b1 := log_int_bounds h1 (h.le.trans hu)
  have b2 := log_int_bounds (h1.trans h.le) hu
  have b3 := log_int_bounds (h1.trans hn1) (hn2.trans hu)
  have e1 := ha.log_near l (by linarith)
  have e2 := ha.log_near u (by linarith)
  have e3 := ha.log_near n hn0
  rw [abs_of_nonneg b1.1] at e1
  rw [abs_of_nonneg b2.1] at e2
  rw [abs_of_nonneg b3.1] at e3
  have m1 : |lg l| ≤ 41 := by
    rw [abs_le] at *
    norm_num at *
    constructor <;> linarith
  have m2 : |lg u| ≤ 41 := by
    rw [abs_le] at *
    norm_num at *
    constructor <;> linarith
  have hy := scale_normalize_near (ha.isF64 l (by linarith)) (ha.isF64 u (by linarith)) hlt (M := 41) (by
      have : (2 : ℝ) ^ (-200 : Int) ≤ 2 ^ (0 : Int) := zpow_le_zpow_right₀ (by norm_num) (by norm_num)
      rw [zpow_zero] at this
      linarith) m1 m2 (ha.isF64 n hn0) (ha.mono _ _ (by linarith) hnR) (ha.mono _ _ hn0 huR)
  generalize scale (normalize (lg n) (lg l) (lg u)) (lg l) (lg u) = y at *
  have hd : |y - Real.log n| ≤ 82 / 2 ^ 50 := by
    rw [abs_le] at *
    norm_num at *
    constructor <;> linarith
  refine (exp_near_log ha hn0 hd (by norm_num)).trans ?_
  have : (1 : ℝ) ≤ n := by linarith
  norm_num at *
  linarith

/-- With an upper bound of at most `2 ^ 39`, an integer on a logarithmic scale is exactly what one gets back from its
vector, and the vector is accepted by both checks of vectors. -/
theorem C75_log_int_round_trip (ha : Accurate lg ex) (h1 : 1 ≤ l) (h : l < u) (hu : u ≤ 2 ^ 39) {n : Int} (hn1 : l ≤ n)
    (hn2 : n ≤ u) :
    toValLogInt lg ex l u (toVecLogInt lg l u n) = n ∧ legalVecLog lg ex l u (toVecLogInt lg l u n) := by
  have hu' : u ≤ 2 ^ 40 := hu.trans (by norm_num)
  have hnear := unsafeLog_near ha h1 h hu' hn1 hn2
  have hn0 : (1 : ℝ) ≤ n := by exact_mod_cast h1.trans hn1
  have hnB : (n : ℝ) ≤ 549755813888 := by
    have : (n : ℝ) ≤ ((2 ^ 39 : Int) : ℝ) := by exact_mod_cast hn2.trans hu
    refine this.trans ?_
    norm_num
  have hhalf : |unsafeLog lg ex (rd (l : ℝ)) (rd (u : ℝ)) (toVecLogInt lg l u n) - n| < 1 / 2 := by
    refine hnear.trans_lt ?_
    norm_num
    linarith
  have hr := rintK_eq hhalf
  refine ⟨hr, ?_, ?_, ?_⟩
  · rw [hr, rd_int40 h1 (h.le.trans hu')]
    exact_mod_cast hn1
  · rw [hr, rd_int40 (h1.trans h.le) hu']
    exact_mod_cast hn2
  · refine close_of_near (k := n) ?_ hhalf (hnear.trans ?_)
    · rw [abs_le]
      norm_num at *
      omega
    · rw [abs_of_pos (by linarith : (0 : ℝ) < n)]
      norm_num
      linarith

/-- Any vector within the unit interval has a value within the bounds, although integers are not clipped. -/
theorem C75_log_int_value_in_bounds (ha : Accurate lg ex) (h1 : 1 ≤ l) (h : l < u) (hu : u ≤ 2 ^ 39) {x : ℝ}
    (hx1 : 0 ≤ x) (hx2 : x ≤ 1) : l ≤ toValLogInt lg ex l u x ∧ toValLogInt lg ex l u x ≤ u := by
  have hu' : u ≤ 2 ^ 40 := hu.trans (by norm_num)
  have hlt := log_strict ha h1 h hu'
  have hlR : (1 : ℝ) ≤ l := by exact_mod_cast h1
  have huR : (l : ℝ) + 1 ≤ u := by exact_mod_cast h
  have huB : (u : ℝ) ≤ 549755813888 := by
    have : (u : ℝ) ≤ ((2 ^ 39 : Int) : ℝ) := by exact_mod_cast hu
    refine this.trans ?_
    norm_num
  have hη := eta_tiny
  have b1 := log_int_bounds h1 (h.le.trans hu')
  have b2 := log_int_bounds (h1.trans h.le) hu'
  have e1 := ha.log_near l (by linarith)
  have e2 := ha.log_near u (by linarith)
  rw [abs_of_nonneg b1.1] at e1
  rw [abs_of_nonneg b2.1] at e2
  have m1 : |lg l| ≤ 41 := by
    rw [abs_le] at *
    norm_num at *
    constructor <;> linarith
  have m2 : |lg u| ≤ 41 := by
    rw [abs_le] at *
    norm_num at *
    constructor <;> linarith
  have hfl := ha.isF64 l (by linarith)
  have hfu := ha.isF64 u (by linarith)
  have htop := scale_normalize_near hfl hfu hlt (M := 41) (by
      have : (2 : ℝ) ^ (-200 : Int) ≤ 2 ^ (0 : Int) := zpow_le_zpow_right₀ (by norm_num) (by norm_num)
      rw [zpow_zero] at this
      linarith) m1 m2 hfu hlt.le (le_refl _)
  have hone := (C75_vector_ends hfl hfu hlt).2
  unfold toVecFlt at hone
  rw [hone] at htop
  have hs : 0 < rd (lg u - lg l) := rd_sub_pos hfl hfu hlt
  have hlow : lg l ≤ scale x (lg l) (lg u) := by
    have h3 := rd_nonneg (mul_nonneg hx1 hs.le)
    have := rd_mono (by linarith : lg l ≤ rd (x * rd (lg u - lg l)) + lg l)
    rwa [rd_of_isF64 hfl] at this
  have hhigh : scale x (lg l) (lg u) ≤ scale 1 (lg l) (lg u) := by
    have h3 := rd_mono (mul_le_mul_of_nonneg_right hx2 hs.le)
    exact rd_mono (by linarith)
  unfold toValLogInt unsafeLog
  rw [rd_int40 h1 (h.le.trans hu'), rd_int40 (h1.trans h.le) hu']
  generalize scale x (lg l) (lg u) = y at *
  generalize scale 1 (lg l) (lg u) = t at *
  have hexp := ha.exp_near y
  have n1 : |lg l - Real.log l| ≤ 82 / 2 ^ 50 := by
    rw [abs_le] at *
    norm_num at *
    constructor <;> linarith
  have n2 : |t - Real.log u| ≤ 82 / 2 ^ 50 := by
    rw [abs_le] at *
    norm_num at *
    constructor <;> linarith
  -- the exponential of what is near the logarithm of a bound
  have hE : ∀ (z m : ℝ), 1 ≤ m → |z - Real.log m| ≤ 82 / 2 ^ 50 → |Real.exp z - m| ≤ m * (164 / 2 ^ 50) := by
    intro z m hm hz
    have e : Real.exp z = m * Real.exp (z - Real.log m) := by
      rw [Real.exp_sub, Real.exp_log (by linarith)]
      field_simp
    have h3 := Real.abs_exp_sub_one_le (hz.trans (by norm_num))
    rw [e, show m * Real.exp (z - Real.log m) - m = m * (Real.exp (z - Real.log m) - 1) by ring, abs_mul,
      abs_of_pos (by linarith : (0 : ℝ) < m)]
    refine mul_le_mul_of_nonneg_left (h3.trans ?_) (by linarith)
    norm_num at *
    linarith
  have l1 := hE _ _ hlR n1
  have u1 := hE _ _ (by linarith) n2
  have hm1 := Real.exp_le_exp.2 hlow
  have hm2 := Real.exp_le_exp.2 hhigh
  generalize Real.exp (lg l) = el at *
  generalize Real.exp t = eu at *
  generalize Real.exp y = ey at *
  generalize ex y = v at *
  have hlu : (l : ℝ) ≤ u := by linarith
  have f1 : (l : ℝ) - 1 / 2 < v ∧ v < u + 1 / 2 := by
    rw [abs_le] at *
    norm_num at *
    constructor <;> linarith
  -- rounding
  have hd := rintK_dist v
  have hd' := abs_le.1 hd
  constructor
  · have : ((l : Int) : ℝ) < ((rintK v + 1 : Int) : ℝ) := by push_cast; linarith
    have : l < rintK v + 1 := by exact_mod_cast this
    omega
  · have : ((rintK v : Int) : ℝ) < ((u + 1 : Int) : ℝ) := by push_cast; linarith
    have : rintK v < u + 1 := by exact_mod_cast this
    omega

end Integers

end

/-- `UniformIntegerHyperparameter("n", 1, 1000, log=True)` with correctly rounded functions. -/
example : toValLogInt (fun x => rd (Real.log x)) (fun y => rd (Real.exp y)) 1 1000
    (toVecLogInt (fun x => rd (Real.log x)) 1 1000 37) = 37 :=
  (C75_log_int_round_trip accurate_rd (by norm_num) (by norm_num) (by norm_num) (by norm_num) (by norm_num)).1

example := C75_log_value_in_bounds (lg := fun x => rd (Real.log x)) (ex := fun y => rd (Real.exp y)) (lo := 1) (hi := 8) (by norm_num) (1 / 3)
example := C75_log_int_value_in_bounds accurate_rd (l := 1) (u := 1000) (by norm_num) (by norm_num) (by norm_num) (x := 1 / 3) (by norm_num)
  (by norm_num)

end Verif.F64
