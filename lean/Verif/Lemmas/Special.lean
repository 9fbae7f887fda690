import Verif.Model.Special
import Verif.Props.F64

/-!
# Lemmas about infinities, NaN and overflow
-/

set_option autoImplicit false

namespace Verif.F64

open Verif.Num

section
variable {K : Type} [Field K] [LinearOrder K] [IsStrictOrderedRing K] [FloorRing K]

theorem isF64_two_pow (n : Nat) : IsF64 ((2 : K) ^ n) := ⟨1, n, by norm_num, by omega, by norm_num⟩

theorem isF64_neg_pow (n : Nat) : IsF64 (-(2 : K) ^ n) := ⟨-1, n, by norm_num, by omega, by push_cast; rw [zpow_natCast]; ring⟩

theorem rd_le_of {x b : K} (hb : IsF64 b) (h : x ≤ b) : rd x ≤ b := by
  rw [← rd_of_isF64 hb]
  exact rd_mono h

theorem le_rd_of {x b : K} (hb : IsF64 b) (h : b ≤ x) : b ≤ rd x := by
  rw [← rd_of_isF64 hb]
  exact rd_mono h

theorem big_pos : (0 : K) < 2 ^ 1024 := by positivity

theorem one_lt_big : (1 : K) < 2 ^ 1024 := one_lt_pow₀ (by norm_num) (by norm_num)

theorem ofExact_fin {x : K} (h1 : -2 ^ 1024 < rd x) (h2 : rd x < 2 ^ 1024) : ofExact x = .fin (rd x) := by
  unfold ofExact
  rw [if_neg (not_le.2 h2), if_neg (not_le.2 h1)]

theorem ofExact_nonneg {x : K} (h1 : 0 ≤ x) (h2 : rd x < 2 ^ 1024) : ofExact x = .fin (rd x) :=
  ofExact_fin ((neg_lt_zero.2 big_pos).trans_le (rd_nonneg h1)) h2

theorem ofExact_inf {x : K} (h : 2 ^ 1024 ≤ rd x) : ofExact x = .inf := by
  unfold ofExact
  rw [if_pos h]

theorem pow_lt_big {n : Nat} (h : n < 1024) : (2 : K) ^ n < 2 ^ 1024 := pow_lt_pow_right₀ (by norm_num) h

/-- A result of size at most `2 ^ n` does not overflow if `n < 1024`. -/
theorem ofExact_pow {x : K} {n : Nat} (hn : n < 1024) (h : |x| ≤ 2 ^ n) : ofExact x = .fin (rd x) ∧ |rd x| ≤ 2 ^ n := by
  obtain ⟨h1, h2⟩ := abs_le.1 h
  have a := le_rd_of (isF64_neg_pow n) h1
  have b := rd_le_of (isF64_two_pow n) h2
  have c := pow_lt_big (K := K) hn
  exact ⟨ofExact_fin ((neg_lt_neg c).trans_le a) (b.trans_lt c), abs_le.2 ⟨a, b⟩⟩

theorem rint_near (x : K) : |(rintK x : K) - x| ≤ 1 := by
  have h := rintK_nearest x ⌊x⌋
  rw [abs_sub_comm]
  refine h.trans ?_
  rw [abs_of_nonneg (by linarith [Int.floor_le x])]
  linarith [Int.lt_floor_add_one x]

/-- Rounding to 13 places without overflow is that of `Model/F64.lean`; the result has at most the size `2 ^ 982`. -/
theorem round13X_fin {x : K} (h1 : -2 ^ 1024 < rd (x * 10 ^ 13)) (h2 : rd (x * 10 ^ 13) < 2 ^ 1024) :
    round13X (.fin x) = .fin (round13 x) ∧ |round13 x| ≤ 2 ^ 982 := by
  have hr := rint_near (rd (x * 10 ^ 13))
  have hq : |(rintK (rd (x * 10 ^ 13)) : K) / 10 ^ 13| ≤ 2 ^ 982 := by
    rw [abs_div, abs_of_pos (by positivity : (0 : K) < 10 ^ 13), div_le_iff₀ (by positivity)]
    have e : (2 : K) ^ 1024 = 2 ^ 982 * 2 ^ 42 := by rw [← pow_add]
    have p : (1 : K) ≤ 2 ^ 982 := one_le_pow₀ (by norm_num)
    rw [e] at h1 h2
    clear e
    generalize (2 : K) ^ 982 = P at *
    generalize rd (x * 10 ^ 13) = r at *
    obtain ⟨a1, a2⟩ := abs_le.1 hr
    rw [abs_le]
    norm_num at *
    constructor <;> linarith
  obtain ⟨a, b⟩ := ofExact_pow (by norm_num) hq
  refine ⟨?_, b⟩
  unfold round13X round13
  simp only [Dbl.mul]
  rw [ofExact_fin h1 h2]
  simp only [rintX, Dbl.div]
  rw [if_neg (by positivity), a]

theorem round13X_nan : round13X (.nan : Dbl K) = .nan := rfl

theorem round13X_inf : round13X (.inf : Dbl K) = .inf := by
  have h : (0 : K) < 10 ^ 13 := by positivity
  simp [round13X, Dbl.mul, infTimes, rintX, Dbl.div]

theorem round13X_ninf : round13X (.ninf : Dbl K) = .ninf := by
  have h : (0 : K) < 10 ^ 13 := by positivity
  simp [round13X, Dbl.mul, infTimes, Dbl.neg, rintX, Dbl.div]

theorem round13X_big {x : K} (h : 2 ^ 1024 ≤ rd (x * 10 ^ 13)) : round13X (.fin x) = .inf := by
  unfold round13X
  simp only [Dbl.mul]
  rw [ofExact_inf h]
  simp only [rintX, Dbl.div]
  rw [if_pos (by positivity)]

theorem round13X_small {x : K} (h : rd (x * 10 ^ 13) ≤ -2 ^ 1024) : round13X (.fin x) = .ninf := by
  unfold round13X
  simp only [Dbl.mul]
  have : ofExact (x * 10 ^ 13) = .ninf := by
    unfold ofExact
    rw [if_neg (not_le.2 (h.trans_lt ((neg_lt_zero.2 big_pos).trans big_pos))), if_pos h]
  rw [this]
  simp only [rintX, Dbl.div]
  rw [if_pos (by positivity)]

/-- What is finite after rounding is a double of size at most `2 ^ 982`. -/
theorem round13X_eq_fin {a : Dbl K} {y : K} (h : round13X a = .fin y) : IsF64 y ∧ |y| ≤ 2 ^ 982 ∧ ∃ x, a = .fin x ∧ y = round13 x := by
  cases a with
  | nan => rw [round13X_nan] at h; cases h
  | inf => rw [round13X_inf] at h; cases h
  | ninf => rw [round13X_ninf] at h; cases h
  | fin x =>
    rcases le_or_gt (2 ^ 1024) (rd (x * 10 ^ 13)) with h1 | h1
    · rw [round13X_big h1] at h; cases h
    · rcases le_or_gt (rd (x * 10 ^ 13)) (-2 ^ 1024) with h2 | h2
      · rw [round13X_small h2] at h; cases h
      · obtain ⟨a, b⟩ := round13X_fin h2 h1
        rw [a] at h
        injection h with h
        subst h
        exact ⟨isF64_rd _, b, x, rfl, rfl⟩

theorem round13X_not_nan {a : Dbl K} (h : a ≠ .nan) : round13X a ≠ .nan := by
  cases a with
  | nan => exact absurd rfl h
  | inf => rw [round13X_inf]; simp
  | ninf => rw [round13X_ninf]; simp
  | fin x =>
    rcases le_or_gt (2 ^ 1024) (rd (x * 10 ^ 13)) with h1 | h1
    · rw [round13X_big h1]; simp
    · rcases le_or_gt (rd (x * 10 ^ 13)) (-2 ^ 1024) with h2 | h2
      · rw [round13X_small h2]; simp
      · rw [(round13X_fin h2 h1).1]; simp

/-! ## Conversions with finite bounds -/

theorem sub_fin {x y : K} : Dbl.sub (.fin x) (.fin y) = ofExact (x - y) := by
  simp [Dbl.sub, Dbl.neg, Dbl.add, sub_eq_add_neg]

/-- A difference that does not overflow: normalising gives what it gives in `Model/F64.lean`. -/
theorem normalizeX_fin {lo hi x : K} (hlo : IsF64 lo) (hhi : IsF64 hi) (h : lo < hi) (hd : rd (hi - lo) < 2 ^ 1024) (h1 : lo ≤ x)
    (h2 : x ≤ hi) : normalizeX (.fin x) (.fin lo) (.fin hi) = .fin (normalize x lo hi) := by
  have hs := rd_sub_pos hlo hhi h
  have hm : rd (x - lo) ≤ rd (hi - lo) := rd_mono (by linarith)
  have h0 : 0 ≤ rd (x - lo) := rd_nonneg (by linarith)
  unfold normalizeX normalize
  by_cases hc : lo = 0 ∧ hi = 1
  · rw [if_pos (by rw [hc.1, hc.2]; exact ⟨rfl, rfl⟩), if_pos hc]
  · rw [if_neg (by simpa using hc), if_neg hc, sub_fin, sub_fin, ofExact_nonneg (by linarith) hd, ofExact_nonneg (by linarith) (hm.trans_lt hd)]
    simp only [Dbl.div]
    rw [if_neg hs.ne']
    exact ofExact_nonneg (div_nonneg h0 hs.le) ((rd_le_one ((div_le_one hs).2 hm)).trans_lt one_lt_big)

/-- Scaling an entry between 0 and 1 gives what it gives in `Model/F64.lean`, or that overflows. -/
theorem scaleX_fin {lo hi e : K} (hlo : IsF64 lo) (hl : -2 ^ 1024 < lo) (h : lo < hi) (hd : rd (hi - lo) < 2 ^ 1024)
    (h0 : 0 ≤ e) (h1 : e ≤ 1) : scaleX (.fin e) (.fin lo) (.fin hi) = ofExact (rd (e * rd (hi - lo)) + lo) ∧ lo ≤ scale e lo hi := by
  have hs : 0 ≤ rd (hi - lo) := rd_nonneg (by linarith)
  have hm : rd (e * rd (hi - lo)) ≤ rd (hi - lo) := rd_le_of (isF64_rd _) (mul_le_of_le_one_left hs h1)
  have hp : 0 ≤ e * rd (hi - lo) := mul_nonneg h0 hs
  refine ⟨?_, le_rd_of hlo (by linarith [rd_nonneg hp])⟩
  unfold scaleX
  rw [sub_fin, ofExact_nonneg (by linarith) hd]
  simp only [Dbl.mul]
  rw [ofExact_nonneg hp (hm.trans_lt hd)]
  rfl

theorem clipX_fin {x lo hi : K} (h : lo ≤ hi) : clipX (.fin x) (.fin lo) (.fin hi) = .fin (clip x lo hi) := by
  unfold clipX clip
  simp only [Dbl.max, Dbl.min, reduceCtorEq, or_self, if_false, Dbl.le, decide_eq_true_eq]
  split_ifs <;> first | rfl | (congr 1; linarith) | (exfalso; simp_all; linarith) | skip
  all_goals simp_all [Dbl.le] <;> linarith

theorem clipX_inf {lo hi : K} : clipX .inf (.fin lo) (.fin hi) = .fin hi := by
  simp [clipX, Dbl.max, Dbl.min, Dbl.le]

/-- A value read from an entry between 0 and 1 is the one of `Model/F64.lean`, also if scaling overflows: it is clipped. -/
theorem clip_scaleX {lo hi e : K} (hlo : IsF64 lo) (hl : -2 ^ 1024 < lo) (hh : hi < 2 ^ 1024) (h : lo < hi) (hd : rd (hi - lo) < 2 ^ 1024)
    (h0 : 0 ≤ e) (h1 : e ≤ 1) : clipX (scaleX (.fin e) (.fin lo) (.fin hi)) (.fin lo) (.fin hi) = .fin (toValFlt lo hi e) := by
  obtain ⟨a, b⟩ := scaleX_fin hlo hl h hd h0 h1
  rw [a]
  rcases le_or_gt (2 ^ 1024) (scale e lo hi) with hc | hc
  · rw [ofExact_inf hc, clipX_inf]
    unfold toValFlt clip
    rw [if_neg (not_lt.2 b), if_pos (hh.trans_le hc)]
  · rw [ofExact_fin (hl.trans_le b) hc]
    exact clipX_fin h.le

theorem legalValX_fin {lo hi : K} {x : Dbl K} (h : legalValX (.fin lo) (.fin hi) x = true) : ∃ y, x = .fin y ∧ lo ≤ y ∧ y ≤ hi := by
  cases x <;> simp_all [legalValX, Dbl.le]

theorem legalVecX_fin {e : Dbl K} (h : legalVecX e = true) : ∃ y : K, e = .fin y ∧ 0 ≤ y ∧ y ≤ 1 := by
  cases e <;> simp_all [legalVecX, Dbl.le]

end

end Verif.F64
