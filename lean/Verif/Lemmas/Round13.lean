import Verif.Lemmas.F64Check

/-!
# Rounding to 13 places twice

`np.round(x, 13)` multiplies, rounds to an integer and divides, each operation in double precision.  Doing it twice is the same as doing it
once, for every double.
-/

set_option autoImplicit false

namespace Verif.F64
open Verif Verif.Num

/-- Rounding to integers commutes with the reflection at an integer. -/
theorem rintK_reflect (m : Int) (s : Rat) : rintK (2 * (m : Rat) - s) = 2 * m - rintK s := by
  have h1 := Int.floor_le s
  have h2 := Int.lt_floor_add_one s
  rcases h1.eq_or_lt with h0 | h0
  · have e : 2 * (m : Rat) - s = ((2 * m - ⌊s⌋ : Int) : Rat) := by push_cast; rw [h0]
    have e' : rintK s = ⌊s⌋ := by
      conv_lhs => rw [← h0]
      exact rintK_int _
    rw [e, rintK_int, e']
  · have hf : ⌊2 * (m : Rat) - s⌋ = 2 * m - ⌊s⌋ - 1 := by
      rw [Int.floor_eq_iff]
      push_cast
      constructor <;> linarith
    unfold rintK
    simp only [hf]
    push_cast
    rcases lt_trichotomy (s - (⌊s⌋ : Rat)) (1 / 2) with h | h | h
    · rw [if_neg (by linarith), if_pos (by linarith), if_pos h]
      ring
    · have a1 : ¬ (2 * (m : Rat) - s - (2 * (m : Rat) - (⌊s⌋ : Rat) - 1) < 1 / 2) := by linarith
      have a2 : ¬ (1 / 2 < 2 * (m : Rat) - s - (2 * (m : Rat) - (⌊s⌋ : Rat) - 1)) := by linarith
      have a3 : ¬ (s - (⌊s⌋ : Rat) < 1 / 2) := by linarith
      have a4 : ¬ (1 / 2 < s - (⌊s⌋ : Rat)) := by linarith
      rw [if_neg a1, if_neg a2, if_neg a3, if_neg a4]
      by_cases hm : ⌊s⌋ % 2 = 0
      · rw [if_neg (by omega), if_pos hm]
        ring
      · rw [if_pos (by omega), if_neg hm]
        ring
    · rw [if_pos (by linarith), if_neg (by linarith), if_pos h]
      ring

theorem rintK_neg (s : Rat) : rintK (-s) = -rintK s := by
  have := rintK_reflect 0 s
  simpa using this

theorem rd_neg (x : Rat) : rd (-x) = -rd x := by
  unfold rd
  have hu : ulp (-x) = ulp x := by unfold ulp; rw [abs_neg]
  rw [hu, neg_div, rintK_neg]
  push_cast
  ring

theorem round13_neg (x : Rat) : round13 (-x) = -round13 x := by
  unfold round13
  rw [neg_mul, rd_neg, rintK_neg]
  push_cast
  rw [neg_div, rd_neg]

/-- Rounding in a known binade. -/
theorem rd_binade {x : Rat} {k : Int} (hk : -1022 ≤ k) (h1 : 2 ^ k ≤ x) (h2 : x < 2 ^ (k + 1)) :
    rd x = (rintK (x / 2 ^ (k - 52)) : Rat) * 2 ^ (k - 52) := by
  have hx : 0 < x := lt_of_lt_of_le (by positivity) h1
  have hlog : Int.log 2 |x| = k := by
    rw [abs_of_pos hx]
    refine le_antisymm ?_ ?_
    · have := (Int.lt_zpow_iff_log_lt (b := 2) (by decide) hx).1 (by exact_mod_cast h2)
      omega
    · exact (Int.zpow_le_iff_le_log (b := 2) (by decide) hx).1 (by exact_mod_cast h1)
  have hu : ulp x = 2 ^ (k - 52) := by
    unfold ulp
    rw [hlog, max_eq_left (by omega)]
  unfold rd
  rw [hu]

/-- Rounding commutes with powers of two. -/
theorem rd_scale {x : Rat} {k : Int} {j : Nat} (hk : -1022 ≤ k) (h1 : 2 ^ k ≤ x) (h2 : x < 2 ^ (k + 1)) :
    rd (2 ^ j * x) = 2 ^ j * rd x := by
  have e1 : ∀ a : Int, (2 : Rat) ^ (a + j) = 2 ^ j * 2 ^ a := by
    intro a
    rw [zpow_add₀ (by norm_num), zpow_natCast, mul_comm]
  have hp : (0 : Rat) < 2 ^ j := by positivity
  rw [rd_binade (k := k + j) (by omega) (by rw [e1]; exact mul_le_mul_of_nonneg_left h1 hp.le)
    (by rw [show k + j + 1 = (k + 1) + j by ring, e1]; exact mul_lt_mul_of_pos_left h2 hp), rd_binade hk h1 h2,
    show k + (j : Int) - 52 = (k - 52) + j by ring, e1, mul_div_mul_left _ _ hp.ne']
  ring

/-- A rounded double is a double. -/
theorem isF64_rint {y : Rat} (h : IsF64 y) : IsF64 ((rintK y : Int) : Rat) := by
  obtain ⟨m, e, hm, he, rfl⟩ := h
  rcases le_or_gt 0 e with h0 | h0
  · obtain ⟨n, rfl⟩ := Int.eq_ofNat_of_zero_le h0
    have e1 : (m : Rat) * 2 ^ (n : Int) = ((m * 2 ^ n : Int) : Rat) := by push_cast; rw [zpow_natCast]
    refine ⟨m, n, hm, by omega, ?_⟩
    show (rintK ((m : Rat) * 2 ^ (n : Int)) : Rat) = (m : Rat) * 2 ^ (n : Int)
    rw [e1, rintK_int]
  · refine ⟨rintK ((m : Rat) * 2 ^ e), 0, ?_, by norm_num, by simp⟩
    have hb := cast_abs_le (K := Rat) hm
    have h2 : (2 : Rat) ^ e ≤ 1 := zpow_le_one_of_nonpos₀ (by norm_num) h0.le
    have h3 : |(m : Rat) * 2 ^ e| ≤ ((2 ^ 53 : Int) : Rat) := by
      rw [abs_mul, abs_of_pos (by positivity : (0 : Rat) < 2 ^ e)]
      calc |(m : Rat)| * 2 ^ e ≤ |(m : Rat)| * 1 := mul_le_mul_of_nonneg_left h2 (abs_nonneg _)
        _ ≤ _ := by rw [mul_one]; refine hb.trans (le_of_eq ?_); norm_num
    rw [abs_le] at h3
    have := rintK_mem (l := -2 ^ 53) (u := 2 ^ 53) (q := (m : Rat) * 2 ^ e) (by push_cast at *; exact h3.1) h3.2
    rw [abs_le]
    exact this

/-- Powers of two survive division and multiplication by `10 ^ 13`. -/
theorem round_two_pow (j : Nat) : rd (rd ((2 : Rat) ^ j / 10 ^ 13) * 10 ^ 13) = 2 ^ j := by
  have h1 : rd ((1 : Rat) / 10 ^ 13) = 7922816251426434 * 2 ^ (-96 : Int) := by
    rw [rd_eval (-96) 7922816251426434 (by norm_num) (by norm_num) (by norm_num) (by norm_num [abs_lt])]
    norm_num
  have h2 : rd ((7922816251426434 * 2 ^ (-96 : Int)) * 10 ^ 13 : Rat) = 1 := by
    rw [rd_eval (-52) 4503599627370496 (by norm_num) (by norm_num) (by norm_num) (by norm_num [abs_lt])]
    norm_num
  have e : (2 : Rat) ^ j / 10 ^ 13 = 2 ^ j * (1 / 10 ^ 13) := by ring
  rw [e, rd_scale (k := -44) (by norm_num) (by norm_num) (by norm_num), h1, mul_assoc,
    rd_scale (k := 0) (by norm_num) (by norm_num) (by norm_num), h2, mul_one]

/-- What is rounded to an integer that is not a power of two from above is rounded to it from below as well, and conversely. -/
theorem round_sym {n : Int} {k : Nat} (hn : IsF64 (n : Rat)) (h1 : 2 ^ k < n) (h2 : n < 2 ^ (k + 1)) {d : Rat} (hd : 0 ≤ d) :
    rintK (rd ((n : Rat) + d)) = n ↔ rintK (rd ((n : Rat) - d)) = n := by
  have h1' : (2 : Rat) ^ (k : Int) < n := by rw [zpow_natCast]; exact_mod_cast h1
  have h2' : (n : Rat) < 2 ^ ((k : Int) + 1) := by
    rw [show (k : Int) + 1 = ((k + 1 : Nat) : Int) by push_cast; ring, zpow_natCast]; exact_mod_cast h2
  have hM := rd_binade (by omega) h1'.le h2'
  rw [rd_of_isF64 hn] at hM
  generalize hM' : rintK ((n : Rat) / 2 ^ ((k : Int) - 52)) = M at hM
  -- a step to the neighbouring integer that is a double
  obtain ⟨g, hg0, hgd, hg1, hg2⟩ : ∃ g : Int, 0 < g ∧ (∀ t : Int, t = n - g ∨ t = n + g → IsF64 (t : Rat)) ∧
      2 ^ k ≤ n - g ∧ n + g ≤ 2 ^ (k + 1) := by
    rcases Nat.lt_or_ge k 53 with hk | hk
    · have hp : (2 : Int) ^ (k + 1) ≤ 2 ^ 53 := pow_le_pow_right₀ (by norm_num) (by omega)
      have hp0 : (0 : Int) < 2 ^ k := by positivity
      refine ⟨1, by norm_num, ?_, by omega, by omega⟩
      intro t ht
      refine ⟨t, 0, ?_, by norm_num, by simp⟩
      rw [abs_le]
      omega
    · obtain ⟨j, rfl⟩ : ∃ j, k = j + 52 := ⟨k - 52, by omega⟩
      have hz : (2 : Rat) ^ (((j + 52 : Nat) : Int) - 52) = ((2 ^ j : Int) : Rat) := by
        rw [show ((j + 52 : Nat) : Int) - 52 = (j : Int) by push_cast; ring, zpow_natCast]
        push_cast
        rfl
      rw [hz] at hM
      have hM2 : n = M * 2 ^ j := by exact_mod_cast hM
      have hj : (0 : Int) < 2 ^ j := by positivity
      have b1 : 2 ^ 52 < M := by
        rw [hM2, pow_add, mul_comm] at h1
        exact lt_of_mul_lt_mul_right h1 hj.le
      have b2 : M < 2 ^ 53 := by
        rw [hM2, show j + 52 + 1 = j + 53 by ring, pow_add, mul_comm ((2 : Int) ^ j)] at h2
        exact lt_of_mul_lt_mul_right h2 hj.le
      refine ⟨2 ^ j, hj, ?_, ?_, ?_⟩
      · intro t ht
        have : ∃ N : Int, (N = M - 1 ∨ N = M + 1) ∧ t = N * 2 ^ j := by
          rcases ht with rfl | rfl
          · exact ⟨M - 1, .inl rfl, by rw [hM2]; ring⟩
          · exact ⟨M + 1, .inr rfl, by rw [hM2]; ring⟩
        obtain ⟨N, hN, rfl⟩ := this
        refine ⟨N, j, ?_, by omega, by push_cast; rw [zpow_natCast]⟩
        rw [abs_le]
        omega
      · rw [hM2, pow_add]
        nlinarith
      · rw [hM2, show j + 52 + 1 = j + 53 by ring, pow_add]
        nlinarith
  have hR : ∀ t : Int, IsF64 (t : Rat) → rintK (rd (t : Rat)) = t := by
    intro t ht
    rw [rd_of_isF64 ht, rintK_int]
  -- both hypotheses keep the offset below the step
  have key : d < g → (rintK (rd ((n : Rat) + d)) = n ↔ rintK (rd ((n : Rat) - d)) = n) := by
    intro hlt
    have c1 : (2 : Rat) ^ (k : Int) ≤ n - d := by
      have : ((2 ^ k : Int) : Rat) ≤ ((n - g : Int) : Rat) := by exact_mod_cast hg1
      rw [zpow_natCast]
      push_cast at this
      linarith
    have c2 : (n : Rat) + d < 2 ^ ((k : Int) + 1) := by
      have : ((n + g : Int) : Rat) ≤ ((2 ^ (k + 1) : Int) : Rat) := by exact_mod_cast hg2
      rw [show (k : Int) + 1 = ((k + 1 : Nat) : Int) by push_cast; ring, zpow_natCast]
      push_cast at this
      linarith
    have hu : (2 : Rat) ^ ((k : Int) - 52) ≠ 0 := by positivity
    have hr : rd ((n : Rat) - d) = 2 * n - rd ((n : Rat) + d) := by
      rw [rd_binade (by omega) c1 (by linarith), rd_binade (k := k) (by omega) (by linarith) c2]
      have : ((n : Rat) - d) / 2 ^ ((k : Int) - 52) = 2 * (M : Rat) - ((n : Rat) + d) / 2 ^ ((k : Int) - 52) := by
        rw [eq_sub_iff_add_eq, ← add_div, div_eq_iff hu, hM]
        ring
      rw [this, rintK_reflect]
      push_cast
      rw [sub_mul, mul_assoc, ← hM]
    rw [hr, rintK_reflect]
    omega
  constructor
  · intro h
    refine (key ?_).1 h
    by_contra hc
    have := rintK_mono (rd_mono (show ((n + g : Int) : Rat) ≤ (n : Rat) + d by push_cast; linarith))
    rw [hR _ (hgd _ (.inr rfl)), h] at this
    omega
  · intro h
    refine (key ?_).2 h
    by_contra hc
    have := rintK_mono (rd_mono (show (n : Rat) - d ≤ ((n - g : Int) : Rat) by push_cast; linarith))
    rw [hR _ (hgd _ (.inl rfl)), h] at this
    omega

theorem round13_idem_pos {x : Rat} (hx : IsF64 x) (h0 : 0 ≤ x) : round13 (round13 x) = round13 x := by
  unfold round13
  generalize hn : rintK (rd (x * 10 ^ 13)) = n
  have hn64 : IsF64 (n : Rat) := by rw [← hn]; exact isF64_rint (isF64_rd _)
  have hn0 : 0 ≤ n := by
    rw [← hn]
    have := rintK_mono (rd_nonneg (show (0 : Rat) ≤ x * 10 ^ 13 by positivity))
    simpa using (rintK_int (K := Rat) 0).symm.le.trans (by simpa using this)
  generalize hz : rd ((n : Rat) / 10 ^ 13) = z
  by_cases hzx : z = x
  · rw [hzx, hn, hz, hzx]
  have hnear : |(n : Rat) / 10 ^ 13 - z| ≤ |(n : Rat) / 10 ^ 13 - x| := by rw [← hz]; exact rd_nearest _ hx
  have hnear' : |(n : Rat) - z * 10 ^ 13| ≤ |(n : Rat) - x * 10 ^ 13| := by
    have hc : (0 : Rat) < 10 ^ 13 := by norm_num
    have e : ∀ t : Rat, |(n : Rat) - t * 10 ^ 13| = |(n : Rat) / 10 ^ 13 - t| * 10 ^ 13 := by
      intro t
      have : (n : Rat) - t * 10 ^ 13 = ((n : Rat) / 10 ^ 13 - t) * 10 ^ 13 := by field_simp
      rw [this, abs_mul, abs_of_pos hc]
    rw [e, e]
    exact mul_le_mul_of_nonneg_right hnear hc.le
  have hnn : rintK (rd (n : Rat)) = n := by rw [rd_of_isF64 hn64, rintK_int]
  -- it is enough that `z * 10 ^ 13` is rounded to the same integer
  suffices h : rintK (rd (z * 10 ^ 13)) = n by rw [h, hz]
  by_cases hpow : ∃ j : Nat, n = 2 ^ j
  · obtain ⟨j, rfl⟩ := hpow
    have := round_two_pow j
    have hc : (((2 ^ j : Int)) : Rat) = 2 ^ j := by push_cast; rfl
    rw [hc] at hz
    rw [← hz, this, ← hc, rintK_int]
  · -- between two powers of two, or zero
    have hsym : ∀ d : Rat, 0 ≤ d → (rintK (rd ((n : Rat) + d)) = n ↔ rintK (rd ((n : Rat) - d)) = n) := by
      intro d hd
      rcases hn0.eq_or_lt with h | h
      · rw [← h]
        simp only [Int.cast_zero, zero_add, zero_sub, rd_neg, rintK_neg]
        omega
      · obtain ⟨m, rfl⟩ := Int.eq_ofNat_of_zero_le hn0
        have hm : m ≠ 0 := by rintro rfl; simp at h
        refine round_sym (k := Nat.log 2 m) hn64 ?_ ?_ hd
        · have := Nat.pow_log_le_self 2 hm
          have h2 : (2 ^ Nat.log 2 m : Nat) ≠ m := fun e => hpow ⟨Nat.log 2 m, by exact_mod_cast e.symm⟩
          have h3 : 2 ^ Nat.log 2 m < m := lt_of_le_of_ne this h2
          exact_mod_cast h3
        · have := Nat.lt_pow_succ_log_self (b := 2) (by norm_num) m
          exact_mod_cast this
    -- the point `n + t` is rounded to `n` for every `|t|` up to the distance of `x * 10 ^ 13`
    have hx' : rintK (rd ((n : Rat) + |(n : Rat) - x * 10 ^ 13|)) = n := by
      rcases le_total (n : Rat) (x * 10 ^ 13) with h | h
      · rw [abs_of_nonpos (by linarith), show (n : Rat) + -((n : Rat) - x * 10 ^ 13) = x * 10 ^ 13 by ring, hn]
      · rw [hsym _ (abs_nonneg _), abs_of_nonneg (by linarith), sub_sub_cancel, hn]
    have hz' : rintK (rd ((n : Rat) + |(n : Rat) - z * 10 ^ 13|)) = n := by
      have a := rintK_mono (rd_mono (show (n : Rat) + |(n : Rat) - z * 10 ^ 13| ≤ (n : Rat) + |(n : Rat) - x * 10 ^ 13| by linarith))
      have b := rintK_mono (rd_mono (show (n : Rat) ≤ (n : Rat) + |(n : Rat) - z * 10 ^ 13| by linarith [abs_nonneg ((n : Rat) - z * 10 ^ 13)]))
      rw [hx'] at a
      rw [hnn] at b
      exact le_antisymm a b
    rcases le_total (n : Rat) (z * 10 ^ 13) with h | h
    · rw [abs_of_nonpos (by linarith), show (n : Rat) + -((n : Rat) - z * 10 ^ 13) = z * 10 ^ 13 by ring] at hz'
      exact hz'
    · rw [hsym _ (abs_nonneg _), abs_of_nonneg (by linarith), sub_sub_cancel] at hz'
      exact hz'

/-- Rounding a double to 13 places twice is the same as doing it once. -/
theorem round13_idem {x : Rat} (hx : IsF64 x) : round13 (round13 x) = round13 x := by
  rcases le_total 0 x with h | h
  · exact round13_idem_pos hx h
  · have hx' : IsF64 (-x) := by
      obtain ⟨m, e, hm, he, rfl⟩ := hx
      exact ⟨-m, e, by rwa [abs_neg], he, by push_cast; ring⟩
    have := round13_idem_pos hx' (by linarith)
    rw [round13_neg, round13_neg, neg_inj] at this
    exact this

end Verif.F64
