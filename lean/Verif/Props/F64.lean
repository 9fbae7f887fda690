import Verif.Lemmas.F64

/-!
# Ranges in double precision (C75)
-/

set_option autoImplicit false

namespace Verif.F64

open Verif.Num

variable {K : Type} [Field K] [LinearOrder K] [IsStrictOrderedRing K] [FloorRing K]

/-- The rounding of the model is rounding to a nearest double. -/
theorem C75_rounding (x : K) : NearestF64 x (rd x) := ⟨isF64_rd x, fun _ hz => rd_nearest x hz⟩

/-! ## Floats -/

section Floats
variable {lo hi : K}

theorem size_pos (hlo : IsF64 lo) (hhi : IsF64 hi) (h : lo < hi) : 0 < rd (hi - lo) := rd_sub_pos hlo hhi h

/-- Vectors of values within the bounds are within the unit interval. -/
theorem C75_vector_in_unit (hlo : IsF64 lo) (hhi : IsF64 hi) (h : lo < hi) {x : K} (h1 : lo ≤ x) (h2 : x ≤ hi) :
    0 ≤ toVecFlt lo hi x ∧ toVecFlt lo hi x ≤ 1 := by
  have hs := size_pos hlo hhi h
  unfold toVecFlt normalize
  split_ifs with hc
  · rw [hc.1] at h1
    rw [hc.2] at h2
    exact ⟨h1, h2⟩
  · constructor
    · exact rd_nonneg (div_nonneg (rd_nonneg (by linarith)) hs.le)
    · refine rd_le_one ((div_le_one hs).2 (rd_mono ?_))
      linarith

/-- The bounds themselves have the vectors 0 and 1. -/
theorem C75_vector_ends (hlo : IsF64 lo) (hhi : IsF64 hi) (h : lo < hi) :
    toVecFlt lo hi lo = 0 ∧ toVecFlt lo hi hi = 1 := by
  have hs := size_pos hlo hhi h
  unfold toVecFlt normalize
  split_ifs with hc
  · exact ⟨hc.1, hc.2⟩
  · constructor
    · rw [sub_self, rd_zero, zero_div, rd_zero]
    · rw [div_self hs.ne', rd_one]

/-- A larger value does not have a smaller vector. -/
theorem C75_vector_mono (hlo : IsF64 lo) (hhi : IsF64 hi) (h : lo < hi) {x y : K} (hxy : x ≤ y) :
    toVecFlt lo hi x ≤ toVecFlt lo hi y := by
  have hs := size_pos hlo hhi h
  unfold toVecFlt normalize
  split_ifs with hc
  · exact hxy
  · refine rd_mono (div_le_div_of_nonneg_right (rd_mono ?_) hs.le)
    linarith

theorem clip_mem {x : K} (h : lo ≤ hi) : lo ≤ clip x lo hi ∧ clip x lo hi ≤ hi := by
  unfold clip
  split_ifs with h1 h2
  · exact ⟨le_refl _, h⟩
  · exact ⟨h, le_refl _⟩
  · exact ⟨not_lt.1 h1, not_lt.1 h2⟩

theorem clip_mono {x y : K} (h : lo ≤ hi) (hxy : x ≤ y) : clip x lo hi ≤ clip y lo hi := by
  unfold clip
  split_ifs with h1 h2 h3 h4 h5 h6 <;> first | exact le_refl _ | exact h | linarith

/-- The value of whatever vector is within the bounds, and the value of the vector 0 is the lower bound. -/
theorem C75_value_in_bounds (hlo : IsF64 lo) (h : lo < hi) (x : K) :
    (lo ≤ toValFlt lo hi x ∧ toValFlt lo hi x ≤ hi) ∧ toValFlt lo hi 0 = lo := by
  refine ⟨clip_mem h.le, ?_⟩
  unfold toValFlt scale clip
  rw [zero_mul, rd_zero, zero_add, rd_of_isF64 hlo, if_neg (lt_irrefl _), if_neg (by linarith)]

/-- A larger vector does not have a smaller value. -/
theorem C75_value_mono (h : lo < hi) {x y : K} (hxy : x ≤ y) : toValFlt lo hi x ≤ toValFlt lo hi y := by
  refine clip_mono h.le (rd_mono ?_)
  have : rd (x * rd (hi - lo)) ≤ rd (y * rd (hi - lo)) :=
    rd_mono (mul_le_mul_of_nonneg_right hxy (rd_nonneg (by linarith)))
  linarith

theorem clip_near {x y : K} (h1 : lo ≤ x) (h2 : x ≤ hi) : |clip y lo hi - x| ≤ |y - x| := by
  unfold clip
  split_ifs with h3 h4
  · rw [abs_of_nonpos (by linarith), abs_of_nonpos (by linarith)]
    linarith
  · rw [abs_of_nonneg (by linarith), abs_of_nonneg (by linarith)]
    linarith
  · exact le_refl _

/-- The smallest spacing is negligible. -/
theorem tiny : (0 : K) < 2 ^ (-1075 : Int) ∧ (2 : K) ^ (-1075 : Int) ≤ 2 ^ (-400 : Int) :=
  ⟨by positivity, zpow_le_zpow_right₀ (by norm_num) (by norm_num)⟩

/-- Rounding error with the underflow made a number that the tactics can compute with. -/
theorem rd_err' (x : K) : |rd x - x| ≤ |x| / 9007199254740992 + 2 ^ (-400 : Int) := by
  have h := rd_err x
  have h2 := tiny (K := K)
  have h3 : (2 : K) ^ 53 = 9007199254740992 := by norm_num
  rw [h3] at h
  linarith [h2.2]

/-- Scaling back what was normalized, before the result is clipped. -/
theorem scale_normalize_near {M : K} (hlo : IsF64 lo) (hhi : IsF64 hi) (h : lo < hi) (hM : 2 ^ (-200 : Int) ≤ M)
    (hl : |lo| ≤ M) (hh : |hi| ≤ M) {x : K} (hx : IsF64 x) (h1 : lo ≤ x) (h2 : x ≤ hi) :
    |scale (normalize x lo hi) lo hi - x| ≤ M / 2 ^ 50 := by
  have hs := size_pos hlo hhi h
  have hM0 : (0 : K) < M := lt_of_lt_of_le (by positivity) hM
  have hl' := abs_le.1 hl
  have hh' := abs_le.1 hh
  unfold normalize scale
  split_ifs with hc
  · rw [hc.1, hc.2, sub_zero, rd_one, mul_one, rd_of_isF64 hx, add_zero, rd_of_isF64 hx, sub_self, abs_zero]
    positivity
  · generalize hη : (2 : K) ^ (-400 : Int) = η
    have hη0 : 0 < η := by rw [← hη]; positivity
    have hηM : η ≤ M / 2 ^ 100 := by
      rw [le_div_iff₀ (by positivity)]
      refine le_trans ?_ hM
      rw [← hη]
      have : (2 : K) ^ 100 = 2 ^ (100 : Int) := by norm_cast
      rw [this, ← zpow_add₀ (by norm_num : (2 : K) ≠ 0)]
      exact zpow_le_zpow_right₀ (by norm_num) (by norm_num)
    have hη1 : η ≤ 1 / 2 ^ 100 := by
      rw [le_div_iff₀ (by positivity), ← hη]
      have : (2 : K) ^ 100 = 2 ^ (100 : Int) := by norm_cast
      rw [this, ← zpow_add₀ (by norm_num : (2 : K) ≠ 0), show (1 : K) = 2 ^ (0 : Int) by simp]
      exact zpow_le_zpow_right₀ (by norm_num) (by norm_num)
    have e1 := rd_err' (x - lo)
    have e2 := rd_err' (hi - lo)
    rw [hη] at e1 e2
    have hA : 0 ≤ x - lo := by linarith
    have hS : 0 ≤ hi - lo := by linarith
    rw [abs_of_nonneg hA] at e1
    rw [abs_of_nonneg hS] at e2
    have e1' := abs_le.1 e1
    have e2' := abs_le.1 e2
    have hd := rd_nonneg hA
    generalize rd (x - lo) = d at *
    generalize rd (hi - lo) = s at *
    have e3 := rd_err' (d / s)
    rw [hη, abs_of_nonneg (div_nonneg hd hs.le)] at e3
    have e3' := abs_le.1 e3
    have hv := rd_nonneg (div_nonneg hd hs.le)
    generalize rd (d / s) = v at *
    have hds : d / s * s = d := div_mul_cancel₀ _ hs.ne'
    have hs3 : s ≤ 3 * M := by
      norm_num at *
      linarith
    have hd3 : d ≤ 3 * M := by
      norm_num at *
      linarith
    have e4 : |v * s - d| ≤ d / 9007199254740992 + M * 3 / 2 ^ 100 := by
      have : v * s - d = (v - d / s) * s := by rw [sub_mul, hds]
      rw [this, abs_mul, abs_of_pos hs]
      calc |v - d / s| * s ≤ (d / s / 9007199254740992 + η) * s := mul_le_mul_of_nonneg_right e3 hs.le
        _ = d / s * s / 9007199254740992 + η * s := by ring
        _ = d / 9007199254740992 + η * s := by rw [hds]
        _ ≤ d / 9007199254740992 + (1 / 2 ^ 100) * (3 * M) := by
            have : η * s ≤ (1 / 2 ^ 100) * (3 * M) := mul_le_mul hη1 hs3 hs.le (by positivity)
            linarith
        _ = _ := by ring
    have e5 := rd_err' (v * s)
    rw [hη, abs_of_nonneg (mul_nonneg hv hs.le)] at e5
    have e6 := rd_err' (rd (v * s) + lo)
    rw [hη] at e6
    generalize v * s = p at *
    generalize rd p = w at *
    have e4' := abs_le.1 e4
    have e5' := abs_le.1 e5
    have e6' := abs_le.1 e6
    have hw : |w + lo| ≤ 3 / 2 * M := by
      rw [abs_le]
      norm_num at *
      constructor <;> linarith
    have hx' : |x| ≤ M := abs_le.2 ⟨by linarith, by linarith⟩
    rw [abs_le]
    norm_num at *
    constructor <;> linarith

/-- A value that is turned into its vector and back changes by at most the `2 ^ -50`th part of the larger bound. -/
theorem C75_float_error {M : K} (hlo : IsF64 lo) (hhi : IsF64 hi) (h : lo < hi) (hM : 2 ^ (-200 : Int) ≤ M)
    (hl : |lo| ≤ M) (hh : |hi| ≤ M) {x : K} (hx : IsF64 x) (h1 : lo ≤ x) (h2 : x ≤ hi) :
    |toValFlt lo hi (toVecFlt lo hi x) - x| ≤ M / 2 ^ 50 :=
  (clip_near h1 h2).trans (scale_normalize_near hlo hhi h hM hl hh hx h1 h2)

/-- Rounding to 13 places undoes an error of less than `2 ^ -45` on a number with 13 places. -/
theorem round13_near {y : K} {d : Int} (hd : |(d : K) / 10 ^ 13| ≤ 33) (hy : |y - rd ((d : K) / 10 ^ 13)| ≤ 1 / 2 ^ 45) :
    round13 y = rd ((d : K) / 10 ^ 13) := by
  have hη : (2 : K) ^ (-400 : Int) ≤ 1 / 2 ^ 100 := by
    have : (1 : K) / 2 ^ 100 = 2 ^ (-100 : Int) := by
      rw [zpow_neg, one_div]
      norm_cast
    rw [this]
    exact zpow_le_zpow_right₀ (by norm_num) (by norm_num)
  have e1 := rd_err' ((d : K) / 10 ^ 13)
  have e2 := rd_err' (y * 10 ^ 13)
  have hy' := abs_le.1 hy
  have hd' := abs_le.1 hd
  have e1' := abs_le.1 e1
  have hyb : |y * 10 ^ 13| ≤ 34 * 10 ^ 13 := by
    rw [abs_mul, abs_of_pos (by positivity : (0 : K) < 10 ^ 13)]
    refine mul_le_mul_of_nonneg_right ?_ (by positivity)
    rw [abs_le]
    norm_num at *
    constructor <;> linarith
  have e2' := abs_le.1 e2
  unfold round13
  rw [rintK_eq (n := d) ?_]
  have hdd : (d : K) = (d : K) / 10 ^ 13 * 10 ^ 13 := by field_simp
  rw [hdd]
  generalize (d : K) / 10 ^ 13 = q at *
  generalize rd q = r at *
  generalize rd (y * 10 ^ 13) = Y at *
  rw [abs_lt]
  norm_num at *
  constructor <;> linarith

/-- With bounds of at most 32 in absolute value, a value of 13 decimal places is exactly what one gets back from its
vector. -/
theorem C75_float_round_trip (hlo : IsF64 lo) (hhi : IsF64 hi) (h : lo < hi) (hl : |lo| ≤ 32) (hh : |hi| ≤ 32)
    (d : Int) (h1 : lo ≤ rd ((d : K) / 10 ^ 13)) (h2 : rd ((d : K) / 10 ^ 13) ≤ hi) :
    round13 (toValFlt lo hi (toVecFlt lo hi (rd ((d : K) / 10 ^ 13)))) = rd ((d : K) / 10 ^ 13) := by
  refine round13_near ?_ ?_
  · have e := rd_err' ((d : K) / 10 ^ 13)
    have hη : (2 : K) ^ (-400 : Int) ≤ 1 / 2 ^ 100 := by
      have : (1 : K) / 2 ^ 100 = 2 ^ (-100 : Int) := by
        rw [zpow_neg, one_div]
        norm_cast
      rw [this]
      exact zpow_le_zpow_right₀ (by norm_num) (by norm_num)
    have hl' := abs_le.1 hl
    have hh' := abs_le.1 hh
    generalize (d : K) / 10 ^ 13 = q at *
    generalize rd q = r at *
    have e' := abs_le.1 e
    rw [abs_le]
    norm_num at *
    rcases le_total 0 q with hq | hq
    · rw [abs_of_nonneg hq] at e'
      constructor <;> linarith
    · rw [abs_of_nonpos hq] at e'
      constructor <;> linarith
  · refine (C75_float_error hlo hhi h (M := 32) ?_ hl hh (isF64_rd _) h1 h2).trans (by norm_num)
    calc (2 : K) ^ (-200 : Int) ≤ 2 ^ (5 : Int) := zpow_le_zpow_right₀ (by norm_num) (by norm_num)
      _ = 32 := by norm_num

/-- Hence different values of 13 places have different vectors, in the same order: a comparison of vectors, as
conditions and forbidden clauses do it, tells what the comparison of the values would tell. -/
theorem C75_float_order (hlo : IsF64 lo) (hhi : IsF64 hi) (h : lo < hi) (hl : |lo| ≤ 32) (hh : |hi| ≤ 32)
    (d e : Int) (hd1 : lo ≤ rd ((d : K) / 10 ^ 13)) (hd2 : rd ((d : K) / 10 ^ 13) ≤ hi)
    (he1 : lo ≤ rd ((e : K) / 10 ^ 13)) (he2 : rd ((e : K) / 10 ^ 13) ≤ hi) :
    (toVecFlt lo hi (rd ((d : K) / 10 ^ 13)) = toVecFlt lo hi (rd ((e : K) / 10 ^ 13)) ↔
      rd ((d : K) / 10 ^ 13) = rd ((e : K) / 10 ^ 13)) ∧
    (toVecFlt lo hi (rd ((d : K) / 10 ^ 13)) < toVecFlt lo hi (rd ((e : K) / 10 ^ 13)) ↔
      rd ((d : K) / 10 ^ 13) < rd ((e : K) / 10 ^ 13)) := by
  have inj : toVecFlt lo hi (rd ((d : K) / 10 ^ 13)) = toVecFlt lo hi (rd ((e : K) / 10 ^ 13)) →
      rd ((d : K) / 10 ^ 13) = rd ((e : K) / 10 ^ 13) := by
    intro hv
    rw [← C75_float_round_trip hlo hhi h hl hh d hd1 hd2, hv, C75_float_round_trip hlo hhi h hl hh e he1 he2]
  refine ⟨⟨inj, fun hv => by rw [hv]⟩, ⟨fun hv => ?_, fun hv => ?_⟩⟩
  · by_contra hc
    exact absurd (C75_vector_mono hlo hhi h (not_lt.1 hc)) (not_le.2 hv)
  · refine lt_of_le_of_ne (C75_vector_mono hlo hhi h hv.le) ?_
    intro he
    exact hv.ne (inj he)

end Floats

/-! ## Integers -/

section Integers
variable {l u : Int}

theorem abs_int {B n : Int} (h1 : |l| ≤ B) (h2 : |u| ≤ B) (h3 : l ≤ n) (h4 : n ≤ u) : |n| ≤ B := by
  rw [abs_le] at *
  omega

theorem toVecInt_eq (hl : |l| ≤ 2 ^ 52) (hu : |u| ≤ 2 ^ 52) (h : l < u) {n : Int} (h1 : l ≤ n) (h2 : n ≤ u) :
    (toVecInt l u n : K) = rd (((n - l : Int) : K) / ((u - l : Int) : K)) := by
  have hn := abs_int hl hu h1 h2
  have hb : ∀ m : Int, |m| ≤ 2 ^ 52 → |m| ≤ 2 ^ 53 := fun m hm => hm.trans (by norm_num)
  unfold toVecInt normalize
  rw [rd_int (hb _ hl), rd_int (hb _ hu), rd_int (hb _ hn)]
  have e1 : (n : K) - l = ((n - l : Int) : K) := by push_cast; ring
  have e2 : (u : K) - l = ((u - l : Int) : K) := by push_cast; ring
  split_ifs with hc
  · have hl0 : l = 0 := by exact_mod_cast hc.1
    have hu1 : u = 1 := by exact_mod_cast hc.2
    subst hl0 hu1
    simp only [sub_zero, Int.cast_one, div_one]
    rw [rd_int (hb _ hn)]
  · have b1 : |n - l| ≤ 2 ^ 53 := by
      rw [abs_le] at *
      norm_num at *
      omega
    have b2 : |u - l| ≤ 2 ^ 53 := by
      rw [abs_le] at *
      norm_num at *
      omega
    rw [e1, e2, rd_int b1, rd_int b2]

/-- Vectors of integers within the bounds are within the unit interval; the bounds have the vectors 0 and 1. -/
theorem C75_int_vector (hl : |l| ≤ 2 ^ 52) (hu : |u| ≤ 2 ^ 52) (h : l < u) :
    (∀ n, l ≤ n → n ≤ u → (0 : K) ≤ toVecInt l u n ∧ (toVecInt l u n : K) ≤ 1) ∧
    (toVecInt l u l : K) = 0 ∧ (toVecInt l u u : K) = 1 := by
  have hs : (0 : K) < ((u - l : Int) : K) := by exact_mod_cast (by omega : 0 < u - l)
  refine ⟨fun n h1 h2 => ?_, ?_, ?_⟩
  · rw [toVecInt_eq hl hu h h1 h2]
    have hk : (0 : K) ≤ ((n - l : Int) : K) := by exact_mod_cast (by omega : 0 ≤ n - l)
    have hk2 : ((n - l : Int) : K) ≤ ((u - l : Int) : K) := by exact_mod_cast (by omega : n - l ≤ u - l)
    exact ⟨rd_nonneg (div_nonneg hk hs.le), rd_le_one ((div_le_one hs).2 hk2)⟩
  · rw [toVecInt_eq hl hu h (le_refl _) h.le, sub_self, Int.cast_zero, zero_div, rd_zero]
  · rw [toVecInt_eq hl hu h h.le (le_refl _), div_self hs.ne', rd_one]

theorem scale_int (hl : |l| ≤ 2 ^ 52) (hu : |u| ≤ 2 ^ 52) (h : l < u) (x : K) :
    scale x (rd (l : K)) (rd (u : K)) = rd (rd (x * ((u - l : Int) : K)) + l) := by
  have hb : ∀ m : Int, |m| ≤ 2 ^ 52 → |m| ≤ 2 ^ 53 := fun m hm => hm.trans (by norm_num)
  have e2 : (u : K) - l = ((u - l : Int) : K) := by push_cast; ring
  have b2 : |u - l| ≤ 2 ^ 53 := by
    rw [abs_le] at *
    norm_num at *
    omega
  unfold scale
  rw [rd_int (hb _ hl), rd_int (hb _ hu), e2, rd_int b2]

/-- Any vector within the unit interval, not only one of an integer, has a value within the bounds, although integers are
not clipped. -/
theorem C75_int_value_in_bounds (hl : |l| ≤ 2 ^ 52) (hu : |u| ≤ 2 ^ 52) (h : l < u) {x : K} (h1 : 0 ≤ x) (h2 : x ≤ 1) :
    l ≤ toValInt l u x ∧ toValInt l u x ≤ u := by
  have hb : ∀ m : Int, |m| ≤ 2 ^ 52 → |m| ≤ 2 ^ 53 := fun m hm => hm.trans (by norm_num)
  have hs : (0 : K) < ((u - l : Int) : K) := by exact_mod_cast (by omega : 0 < u - l)
  have b2 : |u - l| ≤ 2 ^ 53 := by
    rw [abs_le] at *
    norm_num at *
    omega
  unfold toValInt
  rw [scale_int hl hu h]
  have hw1 : 0 ≤ rd (x * ((u - l : Int) : K)) := rd_nonneg (mul_nonneg h1 hs.le)
  have hw2 : rd (x * ((u - l : Int) : K)) ≤ ((u - l : Int) : K) := by
    have := rd_mono (mul_le_mul_of_nonneg_right h2 hs.le)
    rwa [one_mul, rd_int b2] at this
  push_cast at hw2
  refine rintK_mem ?_ ?_
  · have := rd_mono (by linarith : (l : K) ≤ rd (x * ((u - l : Int) : K)) + l)
    rwa [rd_int (hb _ hl)] at this
  · have := rd_mono (by push_cast; linarith : rd (x * ((u - l : Int) : K)) + l ≤ (u : K))
    rwa [rd_int (hb _ hu)] at this

theorem eta_small {B : K} (hB : B ≤ 2 ^ 60) (h0 : 0 ≤ B) : (2 : K) ^ (-400 : Int) * B ≤ 1 / 2 ^ 100 := by
  have h1 : (2 : K) ^ (-400 : Int) ≤ 1 / 2 ^ 160 := by
    have : (1 : K) / 2 ^ 160 = 2 ^ (-160 : Int) := by
      rw [zpow_neg, one_div]
      norm_cast
    rw [this]
    exact zpow_le_zpow_right₀ (by norm_num) (by norm_num)
  calc (2 : K) ^ (-400 : Int) * B ≤ 1 / 2 ^ 160 * 2 ^ 60 := mul_le_mul h1 hB h0 (by positivity)
    _ = 1 / 2 ^ 100 := by norm_num

/-- The product of the vector with the size of the range is nearly the number of the integer, counted from the lower
bound. -/
theorem product_near {k s : Int} (h0 : 0 ≤ k) (hk : k ≤ s) (hs0 : 0 < s) (hs : s ≤ 2 ^ 53) :
    |rd (rd ((k : K) / s) * s) - k| ≤ 3 * k / 9007199254740992 ∧ 0 ≤ rd (rd ((k : K) / s) * s) := by
  have hsK : (0 : K) < s := by exact_mod_cast hs0
  have hkK : (0 : K) ≤ k := by exact_mod_cast h0
  have hsB : (s : K) ≤ 2 ^ 60 := by
    have : (s : K) ≤ ((2 ^ 53 : Int) : K) := by exact_mod_cast hs
    refine this.trans ?_
    norm_num
  rcases h0.eq_or_lt with rfl | hk0
  · simp only [Int.cast_zero, zero_div, rd_zero, zero_mul, sub_self, abs_zero, mul_zero, le_refl, and_self]
  have hk1 : (1 : K) ≤ k := by exact_mod_cast hk0
  have hη1 := eta_small hsB hsK.le
  have hη2 := eta_small (K := K) (B := 1) (by norm_num) (by norm_num)
  rw [mul_one] at hη2
  have e1 := rd_err' ((k : K) / s)
  rw [abs_of_nonneg (div_nonneg hkK hsK.le)] at e1
  have hv := rd_nonneg (div_nonneg hkK hsK.le)
  have hks : (k : K) / s * s = k := div_mul_cancel₀ _ hsK.ne'
  generalize (2 : K) ^ (-400 : Int) = η at *
  generalize rd ((k : K) / s) = v at *
  have e2 : |v * s - k| ≤ k / 9007199254740992 + 1 / 2 ^ 100 := by
    have : v * s - k = (v - k / s) * s := by rw [sub_mul, hks]
    rw [this, abs_mul, abs_of_pos hsK]
    calc |v - k / s| * s ≤ ((k : K) / s / 9007199254740992 + η) * s := mul_le_mul_of_nonneg_right e1 hsK.le
      _ = (k : K) / s * s / 9007199254740992 + η * s := by ring
      _ = k / 9007199254740992 + η * s := by rw [hks]
      _ ≤ _ := by linarith
  have e3 := rd_err' (v * s)
  have hp := mul_nonneg hv hsK.le
  have hw := rd_nonneg hp
  rw [abs_of_nonneg hp] at e3
  have hη3 := eta_small (K := K) (B := 1) (by norm_num) (by norm_num)
  rw [mul_one] at hη3
  generalize (2 : K) ^ (-400 : Int) = η' at *
  generalize v * s = p at *
  generalize rd p = w at *
  refine ⟨?_, hw⟩
  have e2' := abs_le.1 e2
  have e3' := abs_le.1 e3
  rw [abs_le]
  norm_num at *
  constructor <;> linarith

theorem scaled_near {B : Int} (hB : B ≤ 2 ^ 52) (hl : |l| ≤ B) (hu : |u| ≤ B) (h : l < u) {n : Int} (h1 : l ≤ n)
    (h2 : n ≤ u) :
    |scale (toVecInt l u n : K) (rd (l : K)) (rd (u : K)) - n| ≤ 8 * B / 9007199254740992 := by
  have hl' := hl.trans hB
  have hu' := hu.trans hB
  have hn := abs_int hl hu h1 h2
  rw [scale_int hl' hu' h, toVecInt_eq hl' hu' h h1 h2]
  have hs : u - l ≤ 2 ^ 53 := by
    have := (abs_le.1 hl').1
    have := (abs_le.1 hu').2
    norm_num at *
    omega
  have hp := product_near (K := K) (k := n - l) (s := u - l) (by omega) (by omega) (by omega) hs
  have hη := eta_small (K := K) (B := 1) (by norm_num) (by norm_num)
  rw [mul_one] at hη
  have hk2 : n - l ≤ 2 * B := by
    have := (abs_le.1 hl).1
    have := (abs_le.1 hn).2
    omega
  have hB1 : 1 ≤ B := by
    have := abs_le.1 hl
    have := abs_le.1 hu
    omega
  have hkK : ((n - l : Int) : K) ≤ 2 * B := by exact_mod_cast hk2
  have hBK : (1 : K) ≤ B := by exact_mod_cast hB1
  have hBK2 : (B : K) ≤ 4503599627370496 := by
    have : (B : K) ≤ ((2 ^ 52 : Int) : K) := by exact_mod_cast hB
    refine this.trans ?_
    norm_num
  have hnK : |(n : K)| ≤ B := by exact_mod_cast hn
  have e1 := abs_le.1 hp.1
  have e2 := rd_err' (rd (rd (((n - l : Int) : K) / ((u - l : Int) : K)) * ((u - l : Int) : K)) + (l : K))
  generalize rd (rd (((n - l : Int) : K) / ((u - l : Int) : K)) * ((u - l : Int) : K)) = w at *
  push_cast at e1 hkK
  have hnK' := abs_le.1 hnK
  generalize (2 : K) ^ (-400 : Int) = η at *
  have hw : |w + l| ≤ B + 6 * B / 9007199254740992 := by
    rw [abs_le]
    constructor <;> linarith
  have e2' := abs_le.1 e2
  rw [abs_le]
  norm_num at *
  constructor <;> linarith

/-- With bounds of less than `2 ^ 49` in absolute value, an integer is exactly what one gets back from its vector. -/
theorem C75_int_round_trip (hl : |l| < 2 ^ 49) (hu : |u| < 2 ^ 49) (h : l < u) {n : Int} (h1 : l ≤ n) (h2 : n ≤ u) :
    toValInt l u (toVecInt l u n : K) = n := by
  refine rintK_eq ((scaled_near (B := 2 ^ 49 - 1) (by norm_num) (by omega) (by omega) h h1 h2).trans_lt ?_)
  norm_num

/-- Vectors of integers compare as the integers do. -/
theorem C75_int_order (hl : |l| < 2 ^ 49) (hu : |u| < 2 ^ 49) (h : l < u) {m n : Int} (hm1 : l ≤ m) (hm2 : m ≤ u)
    (hn1 : l ≤ n) (hn2 : n ≤ u) :
    ((toVecInt l u m : K) = toVecInt l u n ↔ m = n) ∧ ((toVecInt l u m : K) < toVecInt l u n ↔ m < n) := by
  have inj : ∀ m n : Int, l ≤ m → m ≤ u → l ≤ n → n ≤ u → (toVecInt l u m : K) = toVecInt l u n → m = n := by
    intro m n h1 h2 h3 h4 he
    rw [← C75_int_round_trip (K := K) hl hu h h1 h2, he, C75_int_round_trip hl hu h h3 h4]
  have hl' : |l| ≤ 2 ^ 52 := hl.le.trans (by norm_num)
  have hu' : |u| ≤ 2 ^ 52 := hu.le.trans (by norm_num)
  have hs : (0 : K) < ((u - l : Int) : K) := by exact_mod_cast (by omega : 0 < u - l)
  have mono : ∀ m n : Int, l ≤ m → m ≤ u → l ≤ n → n ≤ u → m ≤ n → (toVecInt l u m : K) ≤ toVecInt l u n := by
    intro m n h1 h2 h3 h4 hmn
    rw [toVecInt_eq hl' hu' h h1 h2, toVecInt_eq hl' hu' h h3 h4]
    refine rd_mono (div_le_div_of_nonneg_right ?_ hs.le)
    exact_mod_cast (by omega : m - l ≤ n - l)
  refine ⟨⟨inj m n hm1 hm2 hn1 hn2, fun he => by rw [he]⟩, ⟨fun hv => ?_, fun hv => ?_⟩⟩
  · by_contra hc
    exact absurd (mono n m hn1 hn2 hm1 hm2 (not_lt.1 hc)) (not_le.2 hv)
  · refine lt_of_le_of_ne (mono m n hm1 hm2 hn1 hn2 hv.le) ?_
    intro he
    exact hv.ne (inj m n hm1 hm2 hn1 hn2 he)

/-- The tolerance of the check for integers is at least the `2 ^ -17`th part of the integer. -/
theorem close_of_near {a : K} {k : Int} (hk : |k| ≤ 2 ^ 53) (hhalf : |a - k| < 1 / 2)
    (h : |a - k| ≤ |(k : K)| / 2 ^ 17) : closeToInt a := by
  have hr := rintK_eq hhalf
  unfold closeToInt
  rw [hr]
  refine rd_mono ?_
  have h1 : (1 : K) / 2 ^ 17 ≤ rd (1 / 100000) := by
    have hf : IsF64 ((1 : K) / 2 ^ 17) := ⟨1, -17, by norm_num, by norm_num, by norm_num⟩
    have := rd_mono (by norm_num : (1 : K) / 2 ^ 17 ≤ 1 / 100000)
    rwa [rd_of_isF64 hf] at this
  have h2 : |(k : K)| / 2 ^ 17 ≤ rd (rd (1 / 100000) * |(k : K)|) := by
    have hf : IsF64 (|(k : K)| / 2 ^ 17) := by
      refine ⟨|k|, -17, by rwa [abs_abs], by norm_num, ?_⟩
      push_cast
      norm_num
      ring
    have : |(k : K)| / 2 ^ 17 ≤ rd (1 / 100000) * |(k : K)| := by
      calc |(k : K)| / 2 ^ 17 = 1 / 2 ^ 17 * |(k : K)| := by ring
        _ ≤ _ := mul_le_mul_of_nonneg_right h1 (abs_nonneg _)
    have := rd_mono this
    rwa [rd_of_isF64 hf] at this
  have h3 : (0 : K) ≤ rd (1 / 10000000000000) := rd_nonneg (by norm_num)
  linarith

/-- The vector of an integer within the bounds is accepted as a vector, also when it is drawn by the sampler. -/
theorem C75_int_legal (hl : |l| ≤ 2 ^ 49) (hu : |u| ≤ 2 ^ 49) (h : l < u) {n : Int} (h1 : l ≤ n) (h2 : n ≤ u) :
    legalVecSingle l u (toVecInt l u n : K) ∧ drawable (u - l + 1) (toVecInt l u n : K) := by
  have hl' : |l| ≤ 2 ^ 52 := hl.trans (by norm_num)
  have hu' : |u| ≤ 2 ^ 52 := hu.trans (by norm_num)
  have hb : ∀ m : Int, |m| ≤ 2 ^ 52 → |m| ≤ 2 ^ 53 := fun m hm => hm.trans (by norm_num)
  have hs : u - l ≤ 2 ^ 50 := by
    have := (abs_le.1 hl).1
    have := (abs_le.1 hu).2
    norm_num at *
    omega
  have b2 : |u - l| ≤ 2 ^ 53 := by
    rw [abs_le] at *
    norm_num at *
    omega
  have e2 : (u : K) - l = ((u - l : Int) : K) := by push_cast; ring
  have hr := (C75_int_vector (K := K) hl' hu' h).1 n h1 h2
  have hc : closeToInt (rd ((toVecInt l u n : K) * ((u - l : Int) : K))) := by
    rw [toVecInt_eq hl' hu' h h1 h2]
    have hp := (product_near (K := K) (k := n - l) (s := u - l) (by omega) (by omega) (by omega)
      (hs.trans (by norm_num))).1
    have hk0 : (0 : K) ≤ ((n - l : Int) : K) := by exact_mod_cast (by omega : 0 ≤ n - l)
    have hk1 : ((n - l : Int) : K) ≤ 1125899906842624 := by
      have : n - l ≤ 1125899906842624 := by
        norm_num at hs
        omega
      exact_mod_cast this
    refine close_of_near (k := n - l) ?_ (hp.trans_lt ?_) (hp.trans ?_)
    · rw [abs_le] at *
      norm_num at *
      omega
    · linarith
    · rw [abs_of_nonneg hk0]
      generalize ((n - l : Int) : K) = k at *
      norm_num
      linarith
  refine ⟨⟨?_, hr⟩, hr.1, hr.2, ?_⟩
  · rw [rd_int (hb _ hl'), rd_int (hb _ hu'), e2, rd_int b2]
    exact hc
  · rw [show u - l + 1 - 1 = u - l by ring, rd_int b2]
    exact hc

/-- The vector that the sampler makes of the drawn number `k` is exactly the vector of the integer `l + k`. -/
theorem C75_int_drawn (hl : |l| ≤ 2 ^ 52) (hu : |u| ≤ 2 ^ 52) (h : l < u) {k : Int} (h0 : 0 ≤ k) (hk : k < u - l + 1) :
    (drawnVec (u - l + 1) k : K) = toVecInt l u (l + k) := by
  have b1 : |k| ≤ 2 ^ 53 := by
    rw [abs_le] at *
    norm_num at *
    omega
  have b2 : |u - l| ≤ 2 ^ 53 := by
    rw [abs_le] at *
    norm_num at *
    omega
  rw [toVecInt_eq hl hu h (by omega) (by omega)]
  unfold drawnVec
  rw [show u - l + 1 - 1 = u - l by ring, show l + k - l = k by ring, rd_int b1, rd_int b2]

/-- Whatever is quantized, as the neighbours of an integer are, is the vector of an integer within the bounds. -/
theorem C75_int_quantized (hl : |l| ≤ 2 ^ 52) (hu : |u| ≤ 2 ^ 52) (h : l < u) (x : K) :
    ∃ n, l ≤ n ∧ n ≤ u ∧ quantizeUnit (u - l + 1) x = toVecInt l u n := by
  have b2 : |u - l| ≤ 2 ^ 53 := by
    rw [abs_le] at *
    norm_num at *
    omega
  have hs : (0 : K) < ((u - l : Int) : K) := by exact_mod_cast (by omega : 0 < u - l)
  unfold quantizeUnit
  rw [show u - l + 1 - 1 = u - l by ring, rd_int b2]
  generalize hL : (⌊rd (x * rd ((u - l + 1 : Int) : K))⌋ : Int) = L
  have hclip : ∃ k : Int, 0 ≤ k ∧ k ≤ u - l ∧ clip (L : K) 0 ((u - l : Int) : K) = k := by
    unfold clip
    split_ifs with h1 h2
    · exact ⟨0, le_refl _, by omega, by simp⟩
    · exact ⟨u - l, by omega, le_refl _, rfl⟩
    · refine ⟨L, ?_, ?_, rfl⟩
      · exact_mod_cast not_lt.1 h1
      · exact_mod_cast not_lt.1 h2
  obtain ⟨k, h0, hk, he⟩ := hclip
  refine ⟨l + k, by omega, by omega, ?_⟩
  rw [he, toVecInt_eq hl hu h (by omega) (by omega), show l + k - l = k by ring]

/-- Quantizing the vector of an integer gives it back, for ranges of at most `2 ^ 25` integers. -/
theorem C75_int_quantize_fixed (hl : |l| ≤ 2 ^ 52) (hu : |u| ≤ 2 ^ 52) (h : l < u) (hs : u - l < 2 ^ 25) {n : Int}
    (h1 : l ≤ n) (h2 : n ≤ u) : quantizeUnit (u - l + 1) (toVecInt l u n : K) = toVecInt l u n := by
  have b2 : |u - l| ≤ 2 ^ 53 := by
    rw [abs_le]
    norm_num at *
    omega
  have b3 : |u - l + 1| ≤ 2 ^ 53 := by
    rw [abs_le]
    norm_num at *
    omega
  have hsK : (0 : K) < ((u - l : Int) : K) := by exact_mod_cast (by omega : 0 < u - l)
  have hs1 : (1 : K) ≤ ((u - l : Int) : K) := by exact_mod_cast (by omega : 1 ≤ u - l)
  have hsB : ((u - l : Int) : K) ≤ 33554432 := by
    have : u - l ≤ 33554432 := by
      norm_num at hs
      omega
    exact_mod_cast this
  have hk0 : (0 : K) ≤ ((n - l : Int) : K) := by exact_mod_cast (by omega : 0 ≤ n - l)
  have hks : ((n - l : Int) : K) ≤ ((u - l : Int) : K) := by exact_mod_cast (by omega : n - l ≤ u - l)
  rw [toVecInt_eq hl hu h h1 h2]
  unfold quantizeUnit
  rw [show u - l + 1 - 1 = u - l by ring, rd_int b2, rd_int b3]
  congr 2
  have hcast : ((u - l + 1 : Int) : K) = ((u - l : Int) : K) + 1 := by push_cast; ring
  have hkdef : n - l = u - l ∨ n - l + 1 ≤ u - l := by omega
  have hlast : n - l + 1 ≤ u - l → ((n - l : Int) : K) + 1 ≤ ((u - l : Int) : K) := by
    intro hh
    exact_mod_cast hh
  rw [hcast]
  -- names for what occurs
  generalize hk : n - l = k at *
  generalize hss : u - l = s at *
  rcases hkdef with hlastk | hlt
  · subst hlastk
    rw [div_self hsK.ne', rd_one, one_mul]
    have e : ((k : K) + 1) = ((k + 1 : Int) : K) := by push_cast; ring
    rw [e, rd_int b3, Int.floor_intCast]
    unfold clip
    rw [if_neg (by push_cast; linarith), if_pos (by push_cast; linarith)]
  · have hlast' := hlast hlt
    have hfl : ⌊rd (rd ((k : K) / s) * ((s : K) + 1))⌋ = k := by
      rw [Int.floor_eq_iff]
      rcases (by omega : k = 0 ∨ 1 ≤ k) with rfl | hkpos
      · rw [Int.cast_zero, zero_div, rd_zero, zero_mul, rd_zero]
        constructor <;> norm_num
      · have hk1 : (1 : K) ≤ k := by exact_mod_cast hkpos
        have e1 := rd_err' ((k : K) / s)
        have hq0 : (0 : K) ≤ (k : K) / s := div_nonneg hk0 hsK.le
        rw [abs_of_nonneg hq0] at e1
        have hv := rd_nonneg hq0
        have hqs : (k : K) / s * s = k := div_mul_cancel₀ _ hsK.ne'
        -- the quotient is between `1 / s` and `1 - 1 / s`
        have hinv : (1 : K) / s * s = 1 := div_mul_cancel₀ _ hsK.ne'
        have hinv0 : (1 : K) / 33554432 ≤ 1 / s := one_div_le_one_div_of_le hsK hsB
        have hql : (1 : K) / s ≤ (k : K) / s := div_le_div_of_nonneg_right hk1 hsK.le
        have hqu : (k : K) / s ≤ 1 - 1 / s := by
          have : (k : K) / s ≤ (s - 1) / s := div_le_div_of_nonneg_right (by linarith) hsK.le
          refine this.trans (le_of_eq ?_)
          rw [sub_div, div_self hsK.ne']
        have hη := eta_small (K := K) (B := 1) (by norm_num) (by norm_num)
        rw [mul_one] at hη
        have hη0 : (0 : K) < 2 ^ (-400 : Int) := by positivity
        have e2 : |rd ((k : K) / s) * (s + 1) - (k : K) / s * (s + 1)| ≤
            ((k : K) / s / 9007199254740992 + 2 ^ (-400 : Int)) * (s + 1) := by
          rw [← sub_mul, abs_mul, abs_of_nonneg (by linarith : (0 : K) ≤ (s : K) + 1)]
          exact mul_le_mul_of_nonneg_right e1 (by linarith)
        have hp := mul_nonneg hv (by linarith : (0 : K) ≤ (s : K) + 1)
        have e3 := rd_err' (rd ((k : K) / s) * (s + 1))
        rw [abs_of_nonneg hp] at e3
        have hηs : (2 : K) ^ (-400 : Int) * (s + 1) ≤ 1 / 2 ^ 100 :=
          eta_small (by
            have : (33554432 : K) + 1 ≤ 2 ^ 60 := by norm_num
            linarith) (by linarith)
        have e4 : (k : K) / s * (s + 1) = k + (k : K) / s := by rw [mul_add, hqs, mul_one]
        have e5 : ((k : K) / s / 9007199254740992 + 2 ^ (-400 : Int)) * (s + 1) =
            (k + (k : K) / s) / 9007199254740992 + 2 ^ (-400 : Int) * (s + 1) := by
          rw [add_mul, div_mul_eq_mul_div, e4]
        rw [e5, e4] at e2
        generalize (2 : K) ^ (-400 : Int) * (s + 1) = ηs at *
        generalize (2 : K) ^ (-400 : Int) = η at *
        generalize rd ((k : K) / s) * (s + 1) = p at *
        generalize rd p = w at *
        generalize (1 : K) / s = i at *
        generalize (k : K) / s = q at *
        have e2' := abs_le.1 e2
        have e3' := abs_le.1 e3
        norm_num at *
        constructor <;> linarith
    rw [hfl]
    unfold clip
    rw [if_neg (not_lt.2 hk0), if_neg (not_lt.2 hks)]

/-- Also the check of arrays of vectors accepts the vector of an integer, when the integer is not zero and the bounds are
at most `2 ^ 32`, or when the bounds are at most 100. -/
theorem C75_int_legal_array_partial (h : l < u) {n : Int} (h1 : l ≤ n) (h2 : n ≤ u)
    (hb : (n ≠ 0 ∧ |l| ≤ 2 ^ 32 ∧ |u| ≤ 2 ^ 32) ∨ (|l| ≤ 100 ∧ |u| ≤ 100)) :
    legalVecArray l u (toVecInt l u n : K) := by
  have hbig : |l| ≤ 2 ^ 32 ∧ |u| ≤ 2 ^ 32 := by
    rcases hb with h | h
    · exact h.2
    · exact ⟨h.1.trans (by norm_num), h.2.trans (by norm_num)⟩
  have hl' : |l| ≤ 2 ^ 53 := hbig.1.trans (by norm_num)
  have hu' : |u| ≤ 2 ^ 53 := hbig.2.trans (by norm_num)
  have hn := abs_int hbig.1 hbig.2 h1 h2
  have hsc := scaled_near (K := K) (B := 2 ^ 32) (by norm_num) hbig.1 hbig.2 h h1 h2
  have hhalf : |scale (toVecInt l u n : K) (rd (l : K)) (rd (u : K)) - n| < 1 / 2 := by
    refine hsc.trans_lt ?_
    norm_num
  have hr := rintK_eq hhalf
  refine ⟨?_, ?_, ?_⟩
  · rw [hr, rd_int hl']
    exact_mod_cast h1
  · rw [hr, rd_int hu']
    exact_mod_cast h2
  · rcases hb with hb | hb
    · refine close_of_near (k := n) (hn.trans (by norm_num)) hhalf (hsc.trans ?_)
      have : (1 : K) ≤ |(n : K)| := by
        have : 1 ≤ |n| := Int.one_le_abs hb.1
        exact_mod_cast this
      norm_num
      linarith
    · have hsc := scaled_near (K := K) (B := 100) (by norm_num) hb.1 hb.2 h h1 h2
      generalize scale (toVecInt l u n : K) (rd (l : K)) (rd (u : K)) = a at *
      unfold closeToInt
      rw [hr]
      refine rd_mono ?_
      have h3 : (7 : K) / 2 ^ 46 ≤ rd (1 / 10000000000000) := by
        have hf : IsF64 ((7 : K) / 2 ^ 46) := ⟨7, -46, by norm_num, by norm_num, by norm_num⟩
        have := rd_mono (by norm_num : (7 : K) / 2 ^ 46 ≤ 1 / 10000000000000)
        rwa [rd_of_isF64 hf] at this
      have h4 : (0 : K) ≤ rd (rd (1 / 100000) * |(n : K)|) :=
        rd_nonneg (mul_nonneg (rd_nonneg (by norm_num)) (abs_nonneg _))
      norm_num at *
      linarith

end Integers

/-! ## Where double precision is not enough -/

/-- For `UniformIntegerHyperparameter("x", -1007, 993)` the value 0 is legal and so is its vector when it is checked
alone, but the check of arrays, which `pdf_values` and `pdf_vector` use, rejects the same vector. -/
theorem C75_legal_array_fails :
    ∃ l u n : Int, l ≤ n ∧ n ≤ u ∧ legalVecSingle l u (toVecInt l u n : ℚ) ∧ ¬ legalVecArray l u (toVecInt l u n : ℚ) := by
  refine ⟨-1007, 993, 0, by norm_num, by norm_num,
    (C75_int_legal (by norm_num) (by norm_num) (by norm_num) (by norm_num) (by norm_num)).1, ?_⟩
  have hv : (toVecInt (-1007) 993 0 : ℚ) = 4535124824762089 * 2 ^ (-53 : Int) := by
    rw [toVecInt_eq (by norm_num) (by norm_num) (by norm_num) (by norm_num) (by norm_num)]
    rw [rd_eval (-53) 4535124824762089 (by norm_num) (by norm_num) (by norm_num) (by norm_num [abs_lt])]
    norm_num
  have hw : rd ((4535124824762089 * 2 ^ (-53 : Int) : ℚ) * ((993 - -1007 : Int) : ℚ)) = 1007 - 1 / 2 ^ 43 := by
    rw [rd_eval (-43) 8857665673363455 (by norm_num) (by norm_num) (by norm_num) (by norm_num [abs_lt])]
    norm_num
  have hf : IsF64 (-(1 / 2 ^ 43) : ℚ) := ⟨-1, -43, by norm_num, by norm_num, by norm_num⟩
  have hf' : IsF64 (1 / 2 ^ 43 : ℚ) := ⟨1, -43, by norm_num, by norm_num, by norm_num⟩
  have hf2 : IsF64 (15 / 2 ^ 47 : ℚ) := ⟨15, -47, by norm_num, by norm_num, by norm_num⟩
  rintro ⟨-, -, hc⟩
  rw [scale_int (by norm_num) (by norm_num) (by norm_num), hv, hw] at hc
  rw [show (1007 - 1 / 2 ^ 43 : ℚ) + ((-1007 : Int) : ℚ) = -(1 / 2 ^ 43) by norm_num, rd_of_isF64 hf] at hc
  unfold closeToInt at hc
  rw [rintK_eq (n := 0) (by norm_num [abs_lt])] at hc
  simp only [Int.cast_zero, sub_zero, abs_neg, abs_zero, mul_zero, rd_zero, add_zero] at hc
  rw [abs_of_pos (by positivity), rd_of_isF64 hf', rd_rd] at hc
  have h2 := rd_mono (by norm_num : (1 / 10000000000000 : ℚ) ≤ 15 / 2 ^ 47)
  rw [rd_of_isF64 hf2] at h2
  have := hc.trans h2
  norm_num at this

/-- Beyond `2 ^ 53` the bounds are rounded: the vector 1 of `UniformIntegerHyperparameter("x", 0, 2 ** 54 + 3)` is the
vector of its upper bound, and has a value above the upper bound. -/
theorem C75_int_above_bound :
    ∃ u : Int, toVecInt 0 u u = (1 : ℚ) ∧ u < toValInt 0 u (1 : ℚ) := by
  have hu : rd ((18014398509481987 : Int) : ℚ) = 18014398509481988 := by
    rw [rd_eval 2 4503599627370497 (by norm_num) (by norm_num) (by norm_num) (by norm_num [abs_lt])]
    norm_num
  have hf : rd (18014398509481988 : ℚ) = 18014398509481988 :=
    rd_of_isF64 ⟨4503599627370497, 2, by norm_num, by norm_num, by norm_num⟩
  refine ⟨18014398509481987, ?_, ?_⟩
  · unfold toVecInt normalize
    rw [hu, Int.cast_zero, rd_zero, if_neg (by norm_num), sub_zero, hf, div_self (by norm_num), rd_one]
  · unfold toValInt scale
    rw [hu, Int.cast_zero, rd_zero, sub_zero, hf, one_mul, hf, add_zero, hf]
    rw [rintK_eq (n := 18014398509481988) (by norm_num)]
    norm_num

theorem rd_1000 : rd (1000 : ℚ) = 1000 ∧ rd (2000 : ℚ) = 2000 ∧ rd (-1000 : ℚ) = -1000 :=
  ⟨by simpa using rd_int (K := ℚ) (n := 1000) (by norm_num), by simpa using rd_int (K := ℚ) (n := 2000) (by norm_num),
    by simpa using rd_int (K := ℚ) (n := -1000) (by norm_num)⟩

/-- With larger bounds a value of 13 places is not what one gets back: 1e-13 between -1000 and 1000 becomes 2e-13. -/
theorem C75_float_round_trip_fails :
    ∃ (lo hi : ℚ) (d : Int), IsF64 lo ∧ IsF64 hi ∧ lo ≤ rd ((d : ℚ) / 10 ^ 13) ∧ rd ((d : ℚ) / 10 ^ 13) ≤ hi ∧
      round13 (toValFlt lo hi (toVecFlt lo hi (rd ((d : ℚ) / 10 ^ 13)))) = rd (((d + 1 : Int) : ℚ) / 10 ^ 13) ∧
      rd ((d : ℚ) / 10 ^ 13) ≠ rd (((d + 1 : Int) : ℚ) / 10 ^ 13) := by
  have hx : rd (((1 : Int) : ℚ) / 10 ^ 13) = 7922816251426434 * 2 ^ (-96 : Int) := by
    rw [rd_eval (-96) 7922816251426434 (by norm_num) (by norm_num) (by norm_num) (by norm_num [abs_lt])]
    norm_num
  have hx2 : rd (((1 + 1 : Int) : ℚ) / 10 ^ 13) = 7922816251426434 * 2 ^ (-95 : Int) := by
    rw [rd_eval (-95) 7922816251426434 (by norm_num) (by norm_num) (by norm_num) (by norm_num [abs_lt])]
    norm_num
  refine ⟨-1000, 1000, 1, ⟨-1000, 0, by norm_num, by norm_num, by norm_num⟩,
    ⟨1000, 0, by norm_num, by norm_num, by norm_num⟩, ?_, ?_, ?_, ?_⟩
  · rw [hx]; norm_num
  · rw [hx]; norm_num
  · have hA : rd ((7922816251426434 * 2 ^ (-96 : Int) : ℚ) - -1000) = 8796093022208001 * 2 ^ (-43 : Int) := by
      rw [rd_eval (-43) 8796093022208001 (by norm_num) (by norm_num) (by norm_num) (by norm_num [abs_lt])]
      norm_num
    have hv : rd ((8796093022208001 * 2 ^ (-43 : Int) : ℚ) / 2000) = 4503599627370497 * 2 ^ (-53 : Int) := by
      rw [rd_eval (-53) 4503599627370497 (by norm_num) (by norm_num) (by norm_num) (by norm_num [abs_lt])]
      norm_num
    have hw : rd ((4503599627370497 * 2 ^ (-53 : Int) : ℚ) * 2000) = 8796093022208002 * 2 ^ (-43 : Int) := by
      rw [rd_eval (-43) 8796093022208002 (by norm_num) (by norm_num) (by norm_num) (by norm_num [abs_lt])]
      norm_num
    have hy : rd ((8796093022208002 * 2 ^ (-43 : Int) : ℚ) + -1000) = 1 / 2 ^ 42 := by
      rw [rd_of_isF64 ⟨1, -42, by norm_num, by norm_num, by norm_num⟩]
      norm_num
    have hY : rd ((1 / 2 ^ 42 : ℚ) * 10 ^ 13) = 5120000000000000 * 2 ^ (-51 : Int) := by
      rw [rd_eval (-51) 5120000000000000 (by norm_num) (by norm_num) (by norm_num) (by norm_num [abs_lt])]
      norm_num
    have h2000 : rd ((1000 : ℚ) - -1000) = 2000 := by
      rw [show (1000 : ℚ) - -1000 = 2000 by norm_num]
      exact rd_1000.2.1
    rw [hx]
    unfold toValFlt toVecFlt normalize scale
    rw [if_neg (by norm_num), hA, h2000, hv, hw, hy]
    unfold clip
    rw [if_neg (by norm_num), if_neg (by norm_num)]
    unfold round13
    rw [hY, rintK_eq (n := 2) (by norm_num [abs_lt])]
    norm_num
  · rw [hx, hx2]
    norm_num

/-- ... and different values have the same vector: a condition on such a parent is decided for 4e-13 as for 5e-13. -/
theorem C75_float_collision :
    ∃ (lo hi : ℚ) (d e : Int), IsF64 lo ∧ IsF64 hi ∧ lo ≤ rd ((d : ℚ) / 10 ^ 13) ∧ rd ((e : ℚ) / 10 ^ 13) ≤ hi ∧
      rd ((d : ℚ) / 10 ^ 13) < rd ((e : ℚ) / 10 ^ 13) ∧
      toVecFlt lo hi (rd ((d : ℚ) / 10 ^ 13)) = toVecFlt lo hi (rd ((e : ℚ) / 10 ^ 13)) := by
  have hx : rd (((4 : Int) : ℚ) / 10 ^ 13) = 7922816251426434 * 2 ^ (-94 : Int) := by
    rw [rd_eval (-94) 7922816251426434 (by norm_num) (by norm_num) (by norm_num) (by norm_num [abs_lt])]
    norm_num
  have hx2 : rd (((5 : Int) : ℚ) / 10 ^ 13) = 4951760157141521 * 2 ^ (-93 : Int) := by
    rw [rd_eval (-93) 4951760157141521 (by norm_num) (by norm_num) (by norm_num) (by norm_num [abs_lt])]
    norm_num
  refine ⟨-1000, 1000, 4, 5, ⟨-1000, 0, by norm_num, by norm_num, by norm_num⟩,
    ⟨1000, 0, by norm_num, by norm_num, by norm_num⟩, ?_, ?_, ?_, ?_⟩
  · rw [hx]; norm_num
  · rw [hx2]; norm_num
  · rw [hx, hx2]; norm_num
  · have hA : rd ((7922816251426434 * 2 ^ (-94 : Int) : ℚ) - -1000) = 8796093022208004 * 2 ^ (-43 : Int) := by
      rw [rd_eval (-43) 8796093022208004 (by norm_num) (by norm_num) (by norm_num) (by norm_num [abs_lt])]
      norm_num
    have hA2 : rd ((4951760157141521 * 2 ^ (-93 : Int) : ℚ) - -1000) = 8796093022208004 * 2 ^ (-43 : Int) := by
      rw [rd_eval (-43) 8796093022208004 (by norm_num) (by norm_num) (by norm_num) (by norm_num [abs_lt])]
      norm_num
    rw [hx, hx2]
    unfold toVecFlt normalize
    rw [if_neg (by norm_num), if_neg (by norm_num), hA, hA2]

/-- The vector 1 need not have the upper bound as its value. -/
theorem C75_upper_bound_not_reached :
    ∃ lo hi : ℚ, IsF64 lo ∧ IsF64 hi ∧ lo < hi ∧ toVecFlt lo hi hi = 1 ∧ toValFlt lo hi 1 < hi := by
  have hlo : IsF64 (-(2 ^ 41) : ℚ) := ⟨-1, 41, by norm_num, by norm_num, by norm_num⟩
  have hhi : IsF64 (1 / 2 ^ 13 : ℚ) := ⟨1, -13, by norm_num, by norm_num, by norm_num⟩
  have hlt : (-(2 ^ 41) : ℚ) < 1 / 2 ^ 13 := by norm_num
  refine ⟨-(2 ^ 41), 1 / 2 ^ 13, hlo, hhi, hlt, (C75_vector_ends hlo hhi hlt).2, ?_⟩
  have hs : rd ((1 / 2 ^ 13 : ℚ) - -(2 ^ 41)) = 2 ^ 41 := by
    rw [rd_eval (-11) 4503599627370496 (by norm_num) (by norm_num) (by norm_num) (by norm_num [abs_lt])]
    norm_num
  have hf : rd (2 ^ 41 : ℚ) = 2 ^ 41 := rd_of_isF64 ⟨1, 41, by norm_num, by norm_num, by norm_num⟩
  unfold toValFlt scale
  rw [hs, one_mul, hf, show (2 ^ 41 : ℚ) + -(2 ^ 41) = 0 by norm_num, rd_zero]
  unfold clip
  rw [if_neg (by norm_num), if_neg (by norm_num)]
  norm_num

/-! ## The hypotheses are met -/

/-- The bounds of `UniformFloatHyperparameter("lr", 0.5, 2.25)` are doubles; `UniformIntegerHyperparameter("n", -3, 8)`. -/
example : IsF64 (1 / 2 : ℚ) ∧ IsF64 (9 / 4 : ℚ) ∧ (1 / 2 : ℚ) < 9 / 4 ∧ |(1 / 2 : ℚ)| ≤ 32 ∧ |(9 / 4 : ℚ)| ≤ 32 ∧
    (2 : ℚ) ^ (-200 : Int) ≤ 32 ∧ (1 / 2 : ℚ) ≤ rd (((10000000000001 : Int) : ℚ) / 10 ^ 13) ∧
    rd (((10000000000001 : Int) : ℚ) / 10 ^ 13) ≤ 9 / 4 := by
  have e1 : IsF64 (1 / 2 : ℚ) := ⟨1, -1, by norm_num, by norm_num, by norm_num⟩
  have e2 : IsF64 (9 / 4 : ℚ) := ⟨9, -2, by norm_num, by norm_num, by norm_num⟩
  refine ⟨e1, e2, by norm_num, by norm_num [abs_le], by norm_num [abs_le], by norm_num, ?_, ?_⟩
  · have := rd_mono (by norm_num : (1 / 2 : ℚ) ≤ ((10000000000001 : Int) : ℚ) / 10 ^ 13)
    rwa [rd_of_isF64 e1] at this
  · have := rd_mono (by norm_num : ((10000000000001 : Int) : ℚ) / 10 ^ 13 ≤ (9 / 4 : ℚ))
    rwa [rd_of_isF64 e2] at this

example : toValInt (-3) 8 (toVecInt (-3) 8 5 : ℚ) = 5 :=
  C75_int_round_trip (by norm_num) (by norm_num) (by norm_num) (by norm_num) (by norm_num)

/-- Not by exact arithmetic: the vector of 1 in a range of 49 is rounded, and its product with 49 is not 1. -/
example : rd (rd ((1 : ℚ) / 49) * 49) ≠ 1 := by
  rw [rd_eval (x := 1 / 49) (-58) 5882252574524729 (by norm_num) (by norm_num) (by norm_num) (by norm_num [abs_lt])]
  rw [rd_eval (-53) 9007199254740991 (by norm_num) (by norm_num) (by norm_num) (by norm_num [abs_lt])]
  norm_num

/-! ## The theorems applied to concrete ranges -/

example := C75_value_mono (K := ℚ) (lo := 0) (hi := 3) (by norm_num) (x := 1 / 3) (y := 1 / 2) (by norm_num)
example := C75_int_value_in_bounds (K := ℚ) (l := -5) (u := 1000) (by norm_num) (by norm_num) (by norm_num) (x := 1 / 3) (by norm_num) (by norm_num)
example := C75_int_legal_array_partial (K := ℚ) (l := -5) (u := 1000) (by norm_num) (n := 37) (by norm_num) (by norm_num)
  (.inl ⟨by norm_num, by norm_num, by norm_num⟩)

end Verif.F64
