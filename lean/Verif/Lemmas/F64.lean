import Verif.Model.F64
import Verif.Spec.F64
import Verif.Lemmas.Numeric
import Mathlib.Tactic.Linarith
import Mathlib.Tactic.Positivity
import Mathlib.Tactic.Ring
import Mathlib.Tactic.FieldSimp
import Mathlib.Tactic.NormNum

/-!
# Facts about rounding to double precision
-/

set_option autoImplicit false

namespace Verif.F64

open Verif.Num

variable {K : Type} [Field K] [LinearOrder K] [IsStrictOrderedRing K] [FloorRing K]

theorem rintK_nearest (q : K) (m : Int) : |q - (rintK q : K)| ≤ |q - m| := by
  have h1 := Int.floor_le q
  have h2 := Int.lt_floor_add_one q
  rcases lt_or_ge ⌊q⌋ m with h | h
  · have hm : ((⌊q⌋ : Int) : K) + 1 ≤ m := by exact_mod_cast h
    rw [abs_of_nonpos (by linarith : q - m ≤ 0)]
    unfold rintK
    simp only
    split_ifs <;> push_cast <;> (rw [abs_le]; constructor <;> linarith)
  · have hm : (m : K) ≤ ⌊q⌋ := by exact_mod_cast h
    rw [abs_of_nonneg (by linarith : 0 ≤ q - m)]
    unfold rintK
    simp only
    split_ifs <;> push_cast <;> (rw [abs_le]; constructor <;> linarith)

theorem rintK_eq {q : K} {n : Int} (h : |q - n| < 1 / 2) : rintK q = n := by
  have h1 := rintK_nearest q n
  have h2 : |(rintK q : K) - n| < 1 := by
    have : (rintK q : K) - n = (q - n) - (q - rintK q) := by ring
    rw [this]
    calc _ ≤ |q - n| + |q - rintK q| := abs_sub _ _
      _ < 1 := by linarith
  have h3 : |rintK q - n| < 1 := by exact_mod_cast h2
  have := Int.abs_lt_one_iff.1 h3
  omega

theorem ulp_pos (x : K) : 0 < ulp x := by unfold ulp; positivity


theorem two53 : (2 : K) ^ (53 : Int) = 9007199254740992 := by norm_num

theorem cast_abs_le {m : Int} (h : |m| ≤ 2 ^ 53) : |(m : K)| ≤ 2 ^ (53 : Int) := by
  rw [two53]
  have h' : |m| ≤ 9007199254740992 := by
    refine h.trans (le_of_eq ?_)
    norm_num
  have : ((|m| : Int) : K) ≤ ((9007199254740992 : Int) : K) := by exact_mod_cast h'
  push_cast at this
  exact this

/-- Either a number is large enough for its spacing to be relative, or the spacing is the least one. -/
theorem ulp_cases (x : K) (hx : x ≠ 0) :
    ∃ e : Int, -1074 ≤ e ∧ ulp x = 2 ^ e ∧ |x| < 2 ^ (e + 53) ∧ ((2 : K) ^ (e + 52) ≤ |x| ∨ e = -1074) := by
  have hp : 0 < |x| := abs_pos.2 hx
  have h1 := Int.zpow_log_le_self (b := 2) (by decide) hp
  have h2 := Int.lt_zpow_succ_log_self (b := 2) (by decide) |x|
  push_cast at h1 h2
  refine ⟨max (Int.log 2 |x| - 52) (-1074), le_max_right _ _, rfl, ?_, ?_⟩
  · refine h2.trans_le (zpow_le_zpow_right₀ (by norm_num) ?_)
    have := le_max_left (Int.log 2 |x| - 52) (-1074)
    omega
  · rcases le_total (Int.log 2 |x| - 52) (-1074) with h | h
    · exact .inr (max_eq_right h)
    · left
      rw [max_eq_left h]
      have : Int.log 2 |x| - 52 + 52 = Int.log 2 |x| := by ring
      rw [this]
      exact h1

theorem rd_zero : rd (0 : K) = 0 := by
  unfold rd
  rw [zero_div]
  have := rintK_int (K := K) 0
  simp only [Int.cast_zero] at this
  rw [this]
  simp

/-- A multiple of the spacing is not changed. -/
theorem rd_of_multiple {x : K} {n : Int} (h : x = n * ulp x) : rd x = x := by
  unfold rd
  have hq : x / ulp x = n := by
    rw [div_eq_iff (ulp_pos x).ne']
    exact h
  rw [hq, rintK_int]
  exact h.symm

/-- Rounding does not change doubles. -/
theorem rd_of_isF64 {x : K} (h : IsF64 x) : rd x = x := by
  obtain ⟨m, e, hm, he, hx⟩ := h
  by_cases h0 : x = 0
  · rw [h0, rd_zero]
  obtain ⟨E, hE, hu, hlt, hge⟩ := ulp_cases x h0
  rcases le_or_gt E e with hle | hgt
  · refine rd_of_multiple (n := m * 2 ^ (e - E).toNat) ?_
    rw [hu, hx]
    push_cast
    rw [← zpow_natCast, Int.toNat_of_nonneg (by omega), mul_assoc, ← zpow_add₀ (by norm_num)]
    congr 2
    ring
  · rcases hge with hge | hge
    · -- the number is `± 2 ^ (e + 53)` and `E = e + 1`
      have hm' := cast_abs_le (K := K) hm
      have hpe : (0 : K) < 2 ^ e := by positivity
      have habs : |x| = |(m : K)| * 2 ^ e := by rw [hx, abs_mul, abs_of_pos hpe]
      have h1 : (2 : K) ^ (E + 52) ≤ 2 ^ (e + 53) := by
        calc (2 : K) ^ (E + 52) ≤ |(m : K)| * 2 ^ e := by rw [← habs]; exact hge
          _ ≤ 2 ^ (53 : Int) * 2 ^ e := mul_le_mul_of_nonneg_right hm' hpe.le
          _ = 2 ^ (e + 53) := by rw [← zpow_add₀ (by norm_num : (2 : K) ≠ 0), add_comm]
      have h2 : E + 52 ≤ e + 53 := (zpow_le_zpow_iff_right₀ (by norm_num : (1 : K) < 2)).1 h1
      have hEe : E = e + 1 := by omega
      have h3 : |(m : K)| = 2 ^ (53 : Int) := by
        refine le_antisymm hm' ?_
        have : (2 : K) ^ (53 : Int) * 2 ^ e ≤ |(m : K)| * 2 ^ e := by
          rw [← zpow_add₀ (by norm_num : (2 : K) ≠ 0), ← habs]
          refine le_trans (le_of_eq ?_) hge
          congr 1
          omega
        exact le_of_mul_le_mul_right this hpe
      have h4 : |m| = 2 ^ 53 := by
        have : ((|m| : Int) : K) = ((2 ^ 53 : Int) : K) := by
          push_cast
          rw [h3]
          norm_num
        exact_mod_cast this
      have h5 : ∃ k : Int, m = 2 * k := by
        rcases abs_eq (by norm_num : (0 : Int) ≤ 2 ^ 53) |>.1 h4 with h | h
        · exact ⟨2 ^ 52, by rw [h]; norm_num⟩
        · exact ⟨-2 ^ 52, by rw [h]; norm_num⟩
      obtain ⟨k, hk⟩ := h5
      refine rd_of_multiple (n := k) ?_
      rw [hu, hx, hEe, hk, zpow_add₀ (by norm_num : (2 : K) ≠ 0)]
      push_cast
      ring
    · omega

/-- Rounding yields doubles. -/
theorem isF64_rd (x : K) : IsF64 (rd x) := by
  by_cases h0 : x = 0
  · rw [h0, rd_zero]
    exact ⟨0, 0, by norm_num, by norm_num, by simp⟩
  obtain ⟨E, hE, hu, hlt, hge⟩ := ulp_cases x h0
  refine ⟨rintK (x / ulp x), E, ?_, hE, ?_⟩
  · have hq : |x / ulp x| < 2 ^ (53 : Int) := by
      rw [abs_div, abs_of_pos (ulp_pos x), div_lt_iff₀ (ulp_pos x), hu, ← zpow_add₀ (by norm_num : (2 : K) ≠ 0)]
      rw [add_comm]
      exact hlt
    have hq' := abs_lt.1 hq
    rw [two53] at hq'
    have := rintK_mem (l := -9007199254740992) (u := 9007199254740992) (q := x / ulp x) (by
        push_cast
        exact hq'.1.le) (by
        push_cast
        exact hq'.2.le)
    refine (abs_le.2 this).trans (le_of_eq ?_)
    norm_num
  · unfold rd
    rw [hu]

theorem rd_rd (x : K) : rd (rd x) = rd x := rd_of_isF64 (isF64_rd x)

/-- No double is nearer. -/
theorem rd_nearest (x : K) {z : K} (hz : IsF64 z) : |x - rd x| ≤ |x - z| := by
  by_cases h0 : x = 0
  · rw [h0, rd_zero, sub_zero, abs_zero]
    exact abs_nonneg _
  obtain ⟨E, hE, hu, hlt, hge⟩ := ulp_cases x h0
  have hup := ulp_pos x
  -- multiples of the spacing
  have key : ∀ n : Int, |x - rd x| ≤ |x - n * ulp x| := by
    intro n
    have h := rintK_nearest (x / ulp x) n
    have e1 : x - rd x = (x / ulp x - rintK (x / ulp x)) * ulp x := by
      unfold rd
      rw [sub_mul, div_mul_cancel₀ _ hup.ne']
    have e2 : x - n * ulp x = (x / ulp x - n) * ulp x := by
      rw [sub_mul, div_mul_cancel₀ _ hup.ne']
    rw [e1, e2, abs_mul, abs_mul]
    exact mul_le_mul_of_nonneg_right h (abs_nonneg _)
  obtain ⟨m, e, hm, he, hzx⟩ := hz
  rcases le_or_gt E e with hle | hgt
  · have : z = ((m * 2 ^ (e - E).toNat : Int) : K) * ulp x := by
      rw [hu, hzx]
      push_cast
      rw [← zpow_natCast, Int.toNat_of_nonneg (by omega), mul_assoc, ← zpow_add₀ (by norm_num)]
      congr 2
      ring
    rw [this]
    exact key _
  · rcases hge with hge | hge
    · have hpe : (0 : K) < 2 ^ e := by positivity
      have hm' := cast_abs_le (K := K) hm
      have hz : |z| ≤ 2 ^ (E + 52) := by
        rw [hzx, abs_mul, abs_of_pos hpe]
        calc |(m : K)| * 2 ^ e ≤ 2 ^ (53 : Int) * 2 ^ e := mul_le_mul_of_nonneg_right hm' hpe.le
          _ = 2 ^ (53 + e) := by rw [← zpow_add₀ (by norm_num : (2 : K) ≠ 0)]
          _ ≤ 2 ^ (E + 52) := zpow_le_zpow_right₀ (by norm_num) (by omega)
      have hpow : (2 : K) ^ (E + 52) = ((2 ^ 52 : Int) : K) * ulp x := by
        rw [hu, add_comm, zpow_add₀ (by norm_num : (2 : K) ≠ 0)]
        norm_num
      have hz' := abs_le.1 hz
      rcases le_total 0 x with hx | hx
      · have hk := key (2 ^ 52)
        rw [← hpow] at hk
        rw [abs_of_nonneg hx] at hge
        refine hk.trans ?_
        rw [abs_of_nonneg (by linarith), abs_of_nonneg (by linarith)]
        linarith
      · have hk := key (-2 ^ 52)
        have : ((-2 ^ 52 : Int) : K) * ulp x = - 2 ^ (E + 52) := by
          rw [hpow]
          push_cast
          ring
        rw [this] at hk
        rw [abs_of_nonpos hx] at hge
        refine hk.trans ?_
        rw [abs_of_nonpos (by linarith), abs_of_nonpos (by linarith)]
        linarith
    · omega

/-- Rounding keeps the order. -/
theorem rd_mono {x y : K} (h : x ≤ y) : rd x ≤ rd y := by
  by_contra hc
  have hc := not_le.1 hc
  have h1 := rd_nearest x (isF64_rd y)
  have h2 := rd_nearest y (isF64_rd x)
  have hne : x ≠ y := by
    rintro rfl
    exact lt_irrefl _ hc
  have hlt : x < y := lt_of_le_of_ne h hne
  -- compare with the middle of the two results
  rcases le_or_gt (rd x + rd y) (2 * x) with hm | hm
  · -- `y` is beyond the middle
    have h3 : |y - rd x| < |y - rd y| := by
      rw [abs_lt]
      constructor
      · rw [neg_lt, abs_of_pos (by linarith)]
        linarith
      · rw [abs_of_pos (by linarith)]
        linarith
    linarith
  · have h3 : |x - rd y| < |x - rd x| := by
      rw [abs_lt]
      rcases le_total x (rd x) with hx | hx
      · rw [abs_of_nonpos (by linarith)]
        constructor <;> linarith
      · rw [abs_of_nonneg (by linarith)]
        constructor <;> linarith
    linarith

/-- The rounding error. -/
theorem rd_err (x : K) : |rd x - x| ≤ |x| / 2 ^ 53 + 2 ^ (-1075 : Int) := by
  by_cases h0 : x = 0
  · rw [h0, rd_zero, sub_zero, abs_zero, zero_div, zero_add]
    positivity
  obtain ⟨E, hE, hu, hlt, hge⟩ := ulp_cases x h0
  have hup := ulp_pos x
  have h1 : |rd x - x| ≤ ulp x / 2 := by
    have h := rintK_dist (x / ulp x)
    have e1 : rd x - x = -((x / ulp x - rintK (x / ulp x)) * ulp x) := by
      unfold rd
      rw [sub_mul, div_mul_cancel₀ _ hup.ne']
      ring
    rw [e1, abs_neg, abs_mul, abs_of_pos hup]
    calc _ ≤ 1 / 2 * ulp x := mul_le_mul_of_nonneg_right h hup.le
      _ = ulp x / 2 := by ring
  refine h1.trans ?_
  rcases hge with hge | hge
  · have : ulp x / 2 ≤ |x| / 2 ^ 53 := by
      rw [hu, le_div_iff₀ (by positivity)]
      refine le_trans (le_of_eq ?_) hge
      rw [zpow_add₀ (by norm_num : (2 : K) ≠ 0)]
      have : (2 : K) ^ (52 : Int) = 2 ^ 52 := by norm_cast
      rw [this]
      ring
    have : (0 : K) ≤ 2 ^ (-1075 : Int) := by positivity
    linarith
  · rw [hu, hge]
    have : (2 : K) ^ (-1074 : Int) / 2 = 2 ^ (-1075 : Int) := by
      rw [show (-1075 : Int) = -1074 - 1 by rfl, zpow_sub_one₀ (by norm_num : (2 : K) ≠ 0), div_eq_mul_inv]
    rw [this]
    have : (0 : K) ≤ |x| / 2 ^ 53 := by positivity
    linarith

/-- Integers of at most 53 bits are doubles. -/
theorem rd_int {n : Int} (h : |n| ≤ 2 ^ 53) : rd (n : K) = n :=
  rd_of_isF64 ⟨n, 0, h, by norm_num, by simp⟩

theorem rd_one : rd (1 : K) = 1 := by
  have := rd_int (K := K) (n := 1) (by norm_num)
  simpa using this

theorem rd_nonneg {x : K} (h : 0 ≤ x) : 0 ≤ rd x := by
  have := rd_mono h
  rwa [rd_zero] at this

theorem rd_le_one {x : K} (h : x ≤ 1) : rd x ≤ 1 := by
  have := rd_mono h
  rwa [rd_one] at this

/-- The difference of two different doubles does not vanish: gradual underflow. -/
theorem rd_sub_pos {x y : K} (hx : IsF64 x) (hy : IsF64 y) (h : x < y) : 0 < rd (y - x) := by
  obtain ⟨m, e, _, he, rfl⟩ := hx
  obtain ⟨m', e', _, he', rfl⟩ := hy
  have hs : ∀ (m e : Int), -1074 ≤ e → ∃ k : Int, (m : K) * 2 ^ e = k * 2 ^ (-1074 : Int) := by
    intro m e he
    refine ⟨m * 2 ^ (e + 1074).toNat, ?_⟩
    push_cast
    rw [← zpow_natCast, Int.toNat_of_nonneg (by omega), mul_assoc, ← zpow_add₀ (by norm_num)]
    congr 2
    ring
  obtain ⟨k, hk⟩ := hs m e he
  obtain ⟨k', hk'⟩ := hs m' e' he'
  have hp : (0 : K) < 2 ^ (-1074 : Int) := by positivity
  rw [hk, hk'] at h ⊢
  have hkk : k < k' := by
    have := lt_of_mul_lt_mul_right h hp.le
    exact_mod_cast this
  have h1 : (2 : K) ^ (-1074 : Int) ≤ k' * 2 ^ (-1074 : Int) - k * 2 ^ (-1074 : Int) := by
    rw [← sub_mul]
    have : (1 : K) ≤ k' - k := by
      have : ((1 : Int) : K) ≤ ((k' - k : Int) : K) := by exact_mod_cast (by omega : (1 : Int) ≤ k' - k)
      push_cast at this
      exact this
    calc (2 : K) ^ (-1074 : Int) = 1 * 2 ^ (-1074 : Int) := (one_mul _).symm
      _ ≤ _ := mul_le_mul_of_nonneg_right this hp.le
  have h2 : rd ((2 : K) ^ (-1074 : Int)) = 2 ^ (-1074 : Int) :=
    rd_of_isF64 ⟨1, -1074, by norm_num, le_refl _, by simp⟩
  have := rd_mono h1
  rw [h2] at this
  exact hp.trans_le this

/-- The rounding of a positive number, from its leading bit. -/
theorem rd_eval {x : K} (E n : Int) (hE : -1074 ≤ E) (h1 : 2 ^ (E + 52) ≤ x) (h2 : x < 2 ^ (E + 53))
    (h : |x / 2 ^ E - n| < 1 / 2) : rd x = n * 2 ^ E := by
  have hx : 0 < x := lt_of_lt_of_le (by positivity) h1
  have hlog : Int.log 2 |x| = E + 52 := by
    rw [abs_of_pos hx]
    have e1 := (Int.zpow_le_iff_le_log (b := 2) (by decide) hx (x := E + 52)).1 (by push_cast; exact h1)
    have e2 := (Int.lt_zpow_iff_log_lt (b := 2) (by decide) hx (x := E + 53)).1 (by push_cast; exact h2)
    omega
  have hu : ulp x = 2 ^ E := by
    unfold ulp
    rw [hlog, show E + 52 - 52 = E by ring, max_eq_left hE]
  unfold rd
  rw [hu, rintK_eq h]

end Verif.F64
