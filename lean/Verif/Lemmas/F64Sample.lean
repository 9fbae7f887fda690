import Verif.Props.F64Log
import Verif.Model.F64Sample

/-!
# Integers on a logarithmic scale, drawn in double precision
-/

set_option autoImplicit false

namespace Verif.F64
open Verif.Num

section
variable {lg ex : ℝ → ℝ} {l u : Int}

theorem log_real_bounds {x : ℝ} (h1 : 1 ≤ x) (h2 : x ≤ 2 ^ 40) : 0 ≤ Real.log x ∧ Real.log x ≤ 40 := by
  refine ⟨Real.log_nonneg h1, ?_⟩
  have := Real.log_le_log (by linarith) h2
  rw [Real.log_pow] at this
  have h3 := Real.log_le_sub_one_of_pos (x := 2) (by norm_num)
  push_cast at this
  linarith

/-- What comes out of the exponential function is near the number. -/
theorem unsafeLog_near_real (ha : Accurate lg ex) (h1 : 1 ≤ l) (h : l < u) (hu : u ≤ 2 ^ 40) {x : ℝ} (hx1 : (l : ℝ) ≤ x)
    (hx2 : x ≤ u) : |ex (scale (normalize (lg x) (lg l) (lg u)) (lg l) (lg u)) - x| ≤ x / 2 ^ 41 := by
  have hlt := log_strict ha h1 h hu
  have hlR : (1 : ℝ) ≤ l := by exact_mod_cast h1
  have huR : (u : ℝ) ≤ 2 ^ 40 := by exact_mod_cast hu
  have hn0 : (0 : ℝ) < x := by linarith
  have hη := eta_tiny
  have b1 := log_int_bounds h1 (h.le.trans hu)
  have b2 := log_int_bounds (h1.trans h.le) hu
  have b3 := log_real_bounds (hlR.trans hx1) (hx2.trans huR)
  have e1 := ha.log_near l (by linarith)
  have e2 := ha.log_near u (by linarith)
  have e3 := ha.log_near x hn0
  rw [abs_of_nonneg b1.1] at e1
  rw [abs_of_nonneg b2.1] at e2
  rw [abs_of_nonneg b3.1] at e3
  have m1 : |lg l| ≤ 41 := by
    rw [abs_le] at *
    norm_num at *
    constructor <;> linarith
  have m2 : |lg u| ≤ 41 := by
    rw [abs_le] at *
    norm_num at *
    constructor <;> linarith
  have hy := scale_normalize_near (ha.isF64 l (by linarith)) (ha.isF64 u (by linarith)) hlt (M := 41) (by
      have : (2 : ℝ) ^ (-200 : Int) ≤ 2 ^ (0 : Int) := zpow_le_zpow_right₀ (by norm_num) (by norm_num)
      rw [zpow_zero] at this
      linarith) m1 m2 (ha.isF64 x hn0) (ha.mono _ _ (by linarith) hx1) (ha.mono _ _ hn0 hx2)
  generalize scale (normalize (lg x) (lg l) (lg u)) (lg l) (lg u) = y at *
  have hd : |y - Real.log x| ≤ 82 / 2 ^ 50 := by
    rw [abs_le] at *
    norm_num at *
    constructor <;> linarith
  refine (exp_near_log ha hn0 hd (by norm_num)).trans ?_
  have : (1 : ℝ) ≤ x := by linarith
  norm_num at *
  linarith

/-- Integers of this size are doubles. -/
theorem rd_size (h1 : 1 ≤ l) (h : l < u) (hu : u ≤ 2 ^ 40) : rd ((u - l : Int) : ℝ) = ((u - l : Int) : ℝ) :=
  rd_int40 (by omega) (by omega)

/-- The levels. -/
theorem quantizeOrig_level (h1 : 1 ≤ l) (h : l < u) (hu : u ≤ 2 ^ 40) (x : ℝ) :
    ∃ k : Int, 0 ≤ k ∧ k ≤ u - l ∧ quantizeOrig l u x = atLevel l u ((k : Int) : ℝ) ∧
      ∀ j : Int, 0 ≤ j → j ≤ u - l → ⌊rd (rd (rd (x - rd (l : ℝ)) / rd ((u - l : Int) : ℝ)) * rd ((u - l + 1 : Int) : ℝ))⌋ = j → k = j := by
  unfold quantizeOrig
  generalize ⌊rd (rd (rd (x - rd (l : ℝ)) / rd ((u - l : Int) : ℝ)) * rd ((u - l + 1 : Int) : ℝ))⌋ = f
  rw [rd_size h1 h hu]
  have e : clip ((f : Int) : ℝ) 0 ((u - l : Int) : ℝ) = ((if f < 0 then 0 else if u - l < f then u - l else f : Int) : ℝ) := by
    unfold clip
    by_cases h2 : f < 0
    · rw [if_pos h2, if_pos (by exact_mod_cast h2)]
      norm_num
    · rw [if_neg h2, if_neg (by exact_mod_cast h2)]
      by_cases h3 : u - l < f
      · rw [if_pos h3, if_pos (by exact_mod_cast h3)]
      · rw [if_neg h3, if_neg (by exact_mod_cast h3)]
  rw [e]
  refine ⟨_, ?_, ?_, rfl, ?_⟩
  · split_ifs <;> omega
  · split_ifs <;> omega
  · intro j hj1 hj2 hj
    subst hj
    split_ifs <;> omega

/-- The number of a level is close to the integer of that level, and within the bounds. -/
theorem atLevel_near (h1 : 1 ≤ l) (h : l < u) (hu : u ≤ 2 ^ 40) {k : Int} (hk0 : 0 ≤ k) (hk : k ≤ u - l) :
    |atLevel l u ((k : Int) : ℝ) - ((l + k : Int) : ℝ)| ≤ ((l + k : Int) : ℝ) / 2 ^ 50 ∧
      (l : ℝ) ≤ atLevel l u ((k : Int) : ℝ) ∧ atLevel l u ((k : Int) : ℝ) ≤ u := by
  unfold atLevel
  rw [rd_size h1 h hu, rd_int40 h1 (h.le.trans hu)]
  have hm : (1 : ℝ) ≤ ((u - l : Int) : ℝ) := by exact_mod_cast (by omega : 1 ≤ u - l)
  have hmB : ((u - l : Int) : ℝ) ≤ 1099511627776 := by
    have : ((u - l : Int) : ℝ) ≤ ((2 ^ 40 : Int) : ℝ) := by exact_mod_cast (by omega : u - l ≤ 2 ^ 40)
    refine this.trans ?_
    norm_num
  have hk0R : (0 : ℝ) ≤ ((k : Int) : ℝ) := by exact_mod_cast hk0
  have hkR : ((k : Int) : ℝ) ≤ ((u - l : Int) : ℝ) := by exact_mod_cast hk
  have hlR : (1 : ℝ) ≤ l := by exact_mod_cast h1
  have hη := eta_tiny
  have hmu : ((u - l : Int) : ℝ) = (u : ℝ) - l := by push_cast; ring
  have il : IsF64 (l : ℝ) := by rw [← rd_int40 h1 (h.le.trans hu)]; exact isF64_rd _
  have iu : IsF64 (u : ℝ) := by rw [← rd_int40 (h1.trans h.le) hu]; exact isF64_rd _
  have im : IsF64 ((u - l : Int) : ℝ) := by rw [← rd_size h1 h hu]; exact isF64_rd _
  rw [Int.cast_add]
  generalize ((u - l : Int) : ℝ) = m at *
  generalize ((k : Int) : ℝ) = k at *
  have q0 : 0 ≤ k / m := by positivity
  have q1 : k / m ≤ 1 := (div_le_one (by linarith)).2 hkR
  have a0 : 0 ≤ rd (k / m) := rd_nonneg q0
  have a1 : rd (k / m) ≤ 1 := by
    have := rd_mono q1
    rwa [rd_one] at this
  have ea := rd_err' (k / m)
  generalize rd (k / m) = a at *
  have b0 : 0 ≤ rd (a * m) := rd_nonneg (by positivity)
  have b1 : rd (a * m) ≤ m := by
    have := rd_mono (show a * m ≤ m by nlinarith)
    rwa [rd_of_isF64 im] at this
  have eb := rd_err' (a * m)
  generalize rd (a * m) = b at *
  have c0 : (l : ℝ) ≤ rd (b + l) := by
    have := rd_mono (show (l : ℝ) ≤ b + l by linarith)
    rwa [rd_of_isF64 il] at this
  have c1 : rd (b + l) ≤ u := by
    have := rd_mono (show b + (l : ℝ) ≤ u by linarith)
    rwa [rd_of_isF64 iu] at this
  have ec := rd_err' (b + (l : ℝ))
  generalize rd (b + (l : ℝ)) = c at *
  refine ⟨?_, c0, c1⟩
  have hkm : k / m * m = k := div_mul_cancel₀ _ (by linarith)
  have e1 : |a * m - k| ≤ k / 9007199254740992 + m * 2 ^ (-400 : Int) := by
    have : a * m - k = (a - k / m) * m := by rw [sub_mul, hkm]
    rw [this, abs_mul, abs_of_pos (by linarith : 0 < m)]
    rw [abs_of_nonneg q0] at ea
    have h2 := mul_le_mul_of_nonneg_right ea (by linarith : 0 ≤ m)
    have h3 : (k / m / 9007199254740992 + 2 ^ (-400 : Int)) * m = k / 9007199254740992 + m * 2 ^ (-400 : Int) := by
      rw [add_mul, div_mul_eq_mul_div, hkm]
      ring
    linarith
  have e2 : m * (2 : ℝ) ^ (-400 : Int) ≤ 1 / 2 ^ 60 := by
    calc m * (2 : ℝ) ^ (-400 : Int) ≤ 1099511627776 * (1 / 2 ^ 100) := by
          refine mul_le_mul hmB hη.2 hη.1.le (by norm_num)
      _ = 1 / 2 ^ 60 := by norm_num
  rw [abs_of_nonneg (by positivity : 0 ≤ a * m)] at eb
  rw [abs_of_nonneg (by linarith : 0 ≤ b + (l : ℝ))] at ec
  generalize a * m = t at *
  rw [abs_le] at *
  norm_num at *
  constructor <;> linarith

/-- The entry made of a draw depends on the level only. -/
theorem drawn_entry (ha : Accurate lg ex) (h1 : 1 ≤ l) (h : l < u) (hu : u ≤ 2 ^ 40) (x : ℝ) :
    ∃ k : Int, 0 ≤ k ∧ k ≤ u - l ∧ drawnLogInt lg ex l u x = toVecLog lg (rd (l : ℝ)) (rd (u : ℝ)) (atLevel l u ((k : Int) : ℝ)) ∧
      ∀ j : Int, 0 ≤ j → j ≤ u - l → ⌊rd (rd (rd (ex (scale x (lg (rd (l : ℝ))) (lg (rd (u : ℝ)))) - rd (l : ℝ)) / rd ((u - l : Int) : ℝ)) *
        rd ((u - l + 1 : Int) : ℝ))⌋ = j → k = j := by
  obtain ⟨k, k0, k1, e, hj⟩ := quantizeOrig_level h1 h hu (ex (scale x (lg (rd (l : ℝ))) (lg (rd (u : ℝ)))))
  refine ⟨k, k0, k1, ?_, hj⟩
  unfold drawnLogInt toVecLog
  rw [e]
  have hb := atLevel_near h1 h hu k0 k1
  have hlR : (1 : ℝ) ≤ l := by exact_mod_cast h1
  have hv : IsF64 (normalize (lg (atLevel l u ((k : Int) : ℝ))) (lg (rd (l : ℝ))) (lg (rd (u : ℝ)))) := by
    unfold normalize
    split_ifs
    · exact ha.isF64 _ (by linarith [hb.2.1])
    · exact isF64_rd _
  unfold scale
  rw [sub_zero, rd_one, mul_one, add_zero, rd_of_isF64 hv, rd_of_isF64 hv]

/-- Reading the entry of a level gives its integer. -/
theorem level_value (ha : Accurate lg ex) (h1 : 1 ≤ l) (h : l < u) (hu : u ≤ 2 ^ 39) {k : Int} (hk0 : 0 ≤ k) (hk : k ≤ u - l) :
    toValLogInt lg ex l u (toVecLog lg (rd (l : ℝ)) (rd (u : ℝ)) (atLevel l u ((k : Int) : ℝ))) = l + k ∧
      legalVecLog lg ex l u (toVecLog lg (rd (l : ℝ)) (rd (u : ℝ)) (atLevel l u ((k : Int) : ℝ))) := by
  have hu' : u ≤ 2 ^ 40 := hu.trans (by norm_num)
  obtain ⟨n1, n2, n3⟩ := atLevel_near h1 h hu' hk0 hk
  have hnear := unsafeLog_near_real ha h1 h hu' n2 n3
  unfold toValLogInt legalVecLog unsafeLog toVecLog
  rw [rd_int40 h1 (h.le.trans hu'), rd_int40 (h1.trans h.le) hu']
  generalize atLevel l u ((k : Int) : ℝ) = q at *
  generalize ex (scale (normalize (lg q) (lg l) (lg u)) (lg l) (lg u)) = y at *
  have hn0 : (1 : ℝ) ≤ ((l + k : Int) : ℝ) := by exact_mod_cast (by omega : 1 ≤ l + k)
  have hnB : ((l + k : Int) : ℝ) ≤ 549755813888 := by
    have : ((l + k : Int) : ℝ) ≤ ((2 ^ 39 : Int) : ℝ) := by exact_mod_cast (by omega : l + k ≤ 2 ^ 39)
    refine this.trans ?_
    norm_num
  have hnear' : |y - ((l + k : Int) : ℝ)| ≤ ((l + k : Int) : ℝ) / 2 ^ 40 * (3 / 4) := by
    generalize ((l + k : Int) : ℝ) = n at *
    rw [abs_le] at *
    norm_num at *
    constructor <;> linarith
  have hhalf : |y - ((l + k : Int) : ℝ)| < 1 / 2 := by
    refine hnear'.trans_lt ?_
    linarith
  have hr := rintK_eq hhalf
  refine ⟨hr, ?_, ?_, ?_⟩
  · rw [hr, rd_int40 h1 (h.le.trans hu')]
    exact_mod_cast (by omega : l ≤ l + k)
  · rw [hr, rd_int40 (h1.trans h.le) hu']
    exact_mod_cast (by omega : l + k ≤ u)
  · refine close_of_near (k := l + k) ?_ hhalf (hnear'.trans ?_)
    · rw [abs_le]
      norm_num at *
      omega
    · rw [abs_of_pos (by linarith : (0 : ℝ) < ((l + k : Int) : ℝ))]
      linarith

/-- Every level comes from some draw. -/
theorem level_drawn (ha : Accurate lg ex) (h1 : 1 ≤ l) (h : l < u) (hu : u ≤ 2 ^ 38) {k : Int} (hk0 : 0 ≤ k) (hk : k ≤ u - l) :
    ∃ x : ℝ, 0 ≤ x ∧ x ≤ 1 ∧ drawnLogInt lg ex l u x = toVecLog lg (rd (l : ℝ)) (rd (u : ℝ)) (atLevel l u ((k : Int) : ℝ)) := by
  have hu' : u ≤ 2 ^ 40 := hu.trans (by norm_num)
  have hlR : (1 : ℝ) ≤ l := by exact_mod_cast h1
  have huR : (l : ℝ) < u := by exact_mod_cast h
  have hlt := log_strict ha h1 h hu'
  have hm : (1 : ℝ) ≤ ((u - l : Int) : ℝ) := by exact_mod_cast (by omega : 1 ≤ u - l)
  have hmu : ((u - l : Int) : ℝ) = (u : ℝ) - l := by push_cast; ring
  have hmu1 : ((u - l + 1 : Int) : ℝ) = ((u - l : Int) : ℝ) + 1 := by push_cast; ring
  have hk0R : (0 : ℝ) ≤ ((k : Int) : ℝ) := by exact_mod_cast hk0
  have hkR : ((k : Int) : ℝ) ≤ ((u - l : Int) : ℝ) := by exact_mod_cast hk
  have huB : (u : ℝ) ≤ 274877906944 := by
    have : (u : ℝ) ≤ ((2 ^ 38 : Int) : ℝ) := by exact_mod_cast hu
    refine this.trans ?_
    norm_num
  obtain ⟨c1, c2⟩ : (l : ℝ) ≤ l + ((u - l : Int) : ℝ) * (((k : Int) : ℝ) + 1 / 2) / (((u - l : Int) : ℝ) + 1) ∧
      l + ((u - l : Int) : ℝ) * (((k : Int) : ℝ) + 1 / 2) / (((u - l : Int) : ℝ) + 1) ≤ u := by
    constructor
    · have : 0 ≤ ((u - l : Int) : ℝ) * (((k : Int) : ℝ) + 1 / 2) / (((u - l : Int) : ℝ) + 1) := by positivity
      linarith
    · have : ((u - l : Int) : ℝ) * (((k : Int) : ℝ) + 1 / 2) / (((u - l : Int) : ℝ) + 1) ≤ ((u - l : Int) : ℝ) := by
        rw [div_le_iff₀ (by linarith)]
        nlinarith
      linarith
  generalize hy : (l : ℝ) + ((u - l : Int) : ℝ) * (((k : Int) : ℝ) + 1 / 2) / (((u - l : Int) : ℝ) + 1) = y at *
  have hvec := C75_log_vector ha (lo := (l : ℝ)) (hi := (u : ℝ)) (by linarith) hlt huR
  refine ⟨toVecLog lg l u y, (hvec.1 y c1 c2).1, (hvec.1 y c1 c2).2, ?_⟩
  obtain ⟨j, -, -, e, hj⟩ := drawn_entry ha h1 h hu' (toVecLog lg l u y)
  rw [e, hj k hk0 hk ?_]
  have hnear := unsafeLog_near_real ha h1 h hu' c1 c2
  unfold toVecLog
  rw [rd_int40 h1 (h.le.trans hu'), rd_int40 (h1.trans h.le) hu', rd_size h1 h hu',
    rd_int40 (n := u - l + 1) (by omega) (by norm_num at *; omega), hmu1]
  generalize ex (scale (normalize (lg y) (lg l) (lg u)) (lg l) (lg u)) = w at *
  have hη := eta_tiny
  generalize hη0 : (2 : ℝ) ^ (-400 : Int) = η at hη
  -- the error of `w`
  have hw : |w - y| ≤ 1 / 8 := by
    refine hnear.trans ?_
    norm_num
    linarith
  generalize ((u - l : Int) : ℝ) = m at *
  have hkm1 : ((k : Int) : ℝ) + 1 ≤ m + 1 := by linarith
  have hmB : m ≤ 274877906944 := by linarith
  rw [Int.floor_eq_iff]
  generalize ((k : Int) : ℝ) = k at *
  have hyl : (y - l) * (m + 1) = m * (k + 1 / 2) := by
    rw [← hy, add_sub_cancel_left, div_mul_cancel₀ _ (by linarith)]
  -- first rounding
  have d1 := rd_err' (w - l)
  rw [hη0] at d1
  have w1 : |w - l| ≤ m + 1 := by
    rw [abs_le] at *
    constructor <;> linarith
  generalize rd (w - (l : ℝ)) = r1 at *
  have f1 : |r1 - (y - l)| ≤ 1 / 7 := by
    have : |w - ↑l| / 9007199254740992 ≤ 1 / 1000 := by
      linarith
    rw [abs_le] at *
    constructor <;> linarith
  -- second rounding
  have d2 := rd_err' (r1 / m)
  rw [hη0] at d2
  have hr1 : |r1 / m - (y - l) / m| ≤ 1 / 7 / m := by
    rw [← sub_div, abs_div, abs_of_pos (by linarith : 0 < m)]
    exact div_le_div_of_nonneg_right f1 (by linarith)
  have hyl2 : (y - l) / m * (m + 1) = k + 1 / 2 := by
    rw [div_mul_eq_mul_div, hyl, mul_div_cancel_left₀ _ (by linarith)]
  have g0 : 0 ≤ (y - l) / m := div_nonneg (by linarith) (by linarith)
  have g1 : (y - l) / m ≤ 1 := (div_le_one (by linarith)).2 (by linarith)
  have hinv : 1 / 7 / m ≤ 1 / 7 := (div_le_iff₀ (by linarith)).2 (by linarith)
  have hinv2 : 1 / 7 / m * (m + 1) ≤ 2 / 7 := by
    rw [div_mul_eq_mul_div, div_le_iff₀ (by linarith)]
    linarith
  have w2 : |r1 / m| ≤ 2 := by
    rw [abs_le] at *
    constructor <;> linarith
  generalize rd (r1 / m) = r2 at *
  have f2 : |r2 - (y - l) / m| ≤ 1 / 7 / m + 1 / 2 ^ 50 := by
    have : |r1 / m| / 9007199254740992 ≤ 2 / 9007199254740992 := by linarith
    rw [abs_le] at *
    constructor <;> linarith
  have f3 : |r2 * (m + 1) - (k + 1 / 2)| ≤ 2 / 7 + 1 / 2 ^ 10 := by
    rw [← hyl2, ← sub_mul, abs_mul, abs_of_pos (by linarith : 0 < m + 1)]
    have := mul_le_mul_of_nonneg_right f2 (by linarith : 0 ≤ m + 1)
    refine this.trans ?_
    rw [add_mul]
    linarith
  -- third rounding
  have d3 := rd_err' (r2 * (m + 1))
  rw [hη0] at d3
  have w3 : |r2 * (m + 1)| ≤ m + 2 := by
    rw [abs_le] at *
    constructor <;> linarith
  generalize rd (r2 * (m + 1)) = r3 at *
  have f4 : |r3 - (k + 1 / 2)| ≤ 3 / 8 := by
    have : |r2 * (m + 1)| / 9007199254740992 ≤ 1 / 1000 := by
      linarith
    rw [abs_le] at *
    constructor <;> linarith
  rw [abs_le] at f4
  constructor <;> linarith

end

end Verif.F64
