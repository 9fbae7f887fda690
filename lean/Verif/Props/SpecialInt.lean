import Verif.Model.SpecialInt
import Verif.Props.Special

/-!
# C111: default values of integers
-/

set_option autoImplicit false

namespace Verif.F64

open Verif.Num

section
variable {K : Type} [Field K] [LinearOrder K] [IsStrictOrderedRing K] [FloorRing K] {lg ex : K → K} {log : Bool}

/-- **C111**: an infinity or NaN as the default value of an integer is refused with a `TypeError`, whatever the (finite) bounds. -/
theorem C111_int_default_not_finite {a b : Arg K} {l u : Int} (ha : keepInt a = .ok l) (hb : keepInt b = .ok u) {d : Dbl K}
    (hd : ∀ x, d ≠ .fin x) : mkIntDefaultX lg ex log a b (some (.flt d)) = .error .type := by
  unfold mkIntDefaultX
  rw [ha, hb]
  cases d with
  | fin x => exact absurd rfl (hd x)
  | inf => rfl
  | ninf => rfl
  | nan => rfl

theorem legalIntX_int {l u d : Int} (h : legalIntX (K := K) l u (.int d) = .ok true) :
    -2 ^ 63 ≤ d ∧ d < 2 ^ 64 ∧ rd (l : K) ≤ rd (d : K) ∧ rd (d : K) ≤ rd (u : K) := by
  simp only [legalIntX] at h
  split at h
  · rename_i h1
    simp only [Except.ok.injEq, decide_eq_true_eq] at h
    exact ⟨h1.1, h1.2, h.1, h.2⟩
  · cases h

theorem le_of_rd_le {l d : Int} (hl : |l| < 2 ^ 53) (h : rd (l : K) ≤ rd (d : K)) : l ≤ d := by
  obtain ⟨a, b⟩ := abs_lt.1 hl
  by_contra hc
  have hc' : d ≤ l - 1 := by omega
  have h1 : rd (d : K) ≤ rd ((l - 1 : Int) : K) := rd_mono (by exact_mod_cast hc')
  rw [rd_int (K := K) (n := l - 1) (abs_le.2 ⟨by omega, by omega⟩)] at h1
  rw [rd_int (K := K) (n := l) hl.le] at h
  have := h.trans h1
  have : l ≤ l - 1 := by exact_mod_cast this
  omega

theorem ge_of_rd_le {d u : Int} (hu : |u| < 2 ^ 53) (h : rd (d : K) ≤ rd (u : K)) : d ≤ u := by
  obtain ⟨a, b⟩ := abs_lt.1 hu
  by_contra hc
  have hc' : u + 1 ≤ d := by omega
  have h1 : rd ((u + 1 : Int) : K) ≤ rd (d : K) := rd_mono (by exact_mod_cast hc')
  rw [rd_int (K := K) (n := u + 1) (abs_le.2 ⟨by omega, by omega⟩)] at h1
  rw [rd_int (K := K) (n := u) hu.le] at h
  have := h1.trans h
  have : u + 1 ≤ u := by exact_mod_cast this
  omega

/-- **C111**: what is accepted has the bounds of `C111_int_accepted`, and its default value is finite, fits into 64 bits (without a sign) and
is a legal value of the hyperparameter.  Between bounds below `2 ^ 53`, it is between the bounds. -/
theorem C111_int_default_accepted {a b : Arg K} {o : Option (Arg K)} {l u d : Int} (h : mkIntDefaultX lg ex log a b o = .ok (l, u, d)) :
    mkIntX log a b = .ok (l, u) ∧ legalIntX (K := K) l u (.int d) = .ok true ∧ -2 ^ 63 ≤ d ∧ d < 2 ^ 64 ∧
      (|l| < 2 ^ 53 → |u| < 2 ^ 53 → l ≤ d ∧ d ≤ u) ∧ (∀ n, o = some (.int n) → d = n) := by
  unfold mkIntDefaultX at h
  split at h
  · cases h
  split at h
  · cases h
  split at h
  · cases h
  · cases h
  split at h
  · cases h
  rename_i l' u' hm
  split at h
  · cases h
  rename_i d' hd
  split at h
  · cases h
  · cases h
  rename_i hl
  cases h
  obtain ⟨h1, h2, h3, h4⟩ := legalIntX_int hl
  refine ⟨hm, hl, h1, h2, fun b1 b2 => ⟨le_of_rd_le b1 h3, ge_of_rd_le b2 h4⟩, ?_⟩
  rintro n rfl
  simp only [intArg, Except.ok.injEq] at hd
  exact hd.symm

theorem closeIntX_int {n : Int} (hn : |n| ≤ 2 ^ 53) : closeIntX (.fin (n : K)) = true := by
  simp only [closeIntX]
  rw [rintK_eq (q := (n : K)) (n := n) (by simp), sub_self, abs_zero, rd_zero, decide_eq_true_eq]
  refine rd_nonneg (add_nonneg (rd_nonneg (by norm_num)) (rd_nonneg (mul_nonneg (rd_nonneg (by norm_num)) (abs_nonneg _))))

theorem f64Arg_int {n : Int} (hn : |n| ≤ 2 ^ 53) : f64Arg (.int n : Arg K) = .ok (.fin (n : K)) := by
  have : |(n : K)| ≤ 2 ^ 53 := by exact_mod_cast hn
  have := (ofExact_pow (n := 53) (by norm_num) this).1
  simp only [f64Arg, this, rd_int hn]

/-- **C111**: an integer between bounds below `2 ^ 53`, as an `int` or as a `float`, is accepted as the default value and kept; an integer that is not between them is
refused. -/
theorem C111_int_default_kept {l u n : Int} (hl : |l| < 2 ^ 53) (hu : |u| < 2 ^ 53) (hlu : l < u) (hlog : log = true → 0 < l) :
    (l ≤ n → n ≤ u → mkIntDefaultX (K := K) lg ex log (.int l) (.int u) (some (.int n)) = .ok (l, u, n) ∧
      mkIntDefaultX (K := K) lg ex log (.int l) (.int u) (some (.flt (.fin (n : K)))) = .ok (l, u, n)) ∧
    (n < l ∨ u < n → ∃ e, mkIntDefaultX (K := K) lg ex log (.int l) (.int u) (some (.int n)) = .error e) := by
  have k1 := C111_int_bounds_kept (K := K) hl.le
  have k2 := C111_int_bounds_kept (K := K) hu.le
  obtain ⟨a, b⟩ := abs_lt.1 hl
  obtain ⟨c, d⟩ := abs_lt.1 hu
  constructor
  · intro h1 h2
    have hn : |n| ≤ 2 ^ 53 := abs_le.2 ⟨by omega, by omega⟩
    have hm : mkIntX (K := K) log (.int l) (.int u) = .ok (l, u) := by
      unfold mkIntX
      rw [k1, k2]
      simp only [i64]
      rw [if_pos ⟨by norm_num at *; omega, by norm_num at *; omega⟩]
      simp only
      rw [if_pos ⟨by norm_num at *; omega, by norm_num at *; omega⟩]
      simp only
      rw [if_neg (by omega), if_neg]
      intro hc
      simp only [Bool.and_eq_true, decide_eq_true_eq] at hc
      have := hlog hc.1
      omega
    have hle : legalIntX (K := K) l u (.int n) = .ok true := by
      simp only [legalIntX]
      rw [if_pos ⟨by norm_num at *; omega, by norm_num at *; omega⟩]
      simp only [Except.ok.injEq, decide_eq_true_eq]
      exact ⟨rd_mono (by exact_mod_cast h1), rd_mono (by exact_mod_cast h2)⟩
    have hi : intArg (.flt (.fin (n : K))) = .ok n := by
      simp only [intArg, Int.floor_intCast, Int.ceil_intCast, ite_self]
    unfold mkIntDefaultX
    refine ⟨by simp only [k1, k2, f64Arg_int hn, Except.map, closeIntX_int hn, hm, intArg, hle], ?_⟩
    simp only [k1, k2, f64Arg, Except.map, closeIntX_int hn, hm, hi, hle]
  · intro h1
    cases hr : mkIntDefaultX (K := K) lg ex log (.int l) (.int u) (some (.int n)) with
    | error e => exact ⟨e, rfl⟩
    | ok r =>
      exfalso
      obtain ⟨l', u', d'⟩ := r
      obtain ⟨m1, -, -, -, m2, m3⟩ := C111_int_default_accepted hr
      obtain ⟨-, -, -, -, e1, e2⟩ := C111_int_accepted m1
      rw [k1] at e1
      rw [k2] at e2
      cases e1
      cases e2
      have := m2 hl hu
      have e := m3 n rfl
      omega

theorem rd_half {n : Int} (hn : |n| ≤ 2 ^ 53) : rd ((n : K) / 2) = (n : K) / 2 :=
  rd_of_isF64 ⟨n, -1, hn, by norm_num, by rw [zpow_neg_one, div_eq_mul_inv]⟩

/-- **C111**: without a default value, on a linear scale between bounds of at most 52 bits, the constructor accepts, with the bounds as they
are given and their mean, rounded, as the default value. -/
theorem C111_int_no_default {l u : Int} (hl : |l| ≤ 2 ^ 52) (hu : |u| ≤ 2 ^ 52) (hlu : l < u) :
    ∃ d, mkIntDefaultX (K := K) lg ex false (.int l) (.int u) none = .ok (l, u, d) ∧ l ≤ d ∧ d ≤ u ∧ |2 * d - (l + u)| ≤ 1 := by
  obtain ⟨a, b⟩ := abs_le.1 hl
  obtain ⟨c, e⟩ := abs_le.1 hu
  norm_num at a b c e
  have hl' : |l| < 2 ^ 53 := abs_lt.2 ⟨by norm_num; omega, by norm_num; omega⟩
  have hu' : |u| < 2 ^ 53 := abs_lt.2 ⟨by norm_num; omega, by norm_num; omega⟩
  have k1 := C111_int_bounds_kept (K := K) hl'.le
  have k2 := C111_int_bounds_kept (K := K) hu'.le
  have hm : mkIntX (K := K) false (.int l) (.int u) = .ok (l, u) := by
    unfold mkIntX
    rw [k1, k2]
    simp only [i64]
    rw [if_pos ⟨by norm_num; omega, by norm_num; omega⟩]
    simp only
    rw [if_pos ⟨by norm_num; omega, by norm_num; omega⟩]
    simp only
    rw [if_neg (by omega), if_neg (by simp)]
  have hluK : (l : K) < u := by exact_mod_cast hlu
  have hlo : IsF64 (l : K) := by rw [← rd_int (K := K) hl'.le]; exact isF64_rd _
  have hhi : IsF64 (u : K) := by rw [← rd_int (K := K) hu'.le]; exact isF64_rd _
  have hdiff : rd ((u : K) - l) = (u : K) - l := by
    have := rd_int (K := K) (n := u - l) (abs_le.2 ⟨by norm_num; omega, by norm_num; omega⟩)
    push_cast at this
    exact this
  have habs : |(l : K)| ≤ 2 ^ 52 ∧ |(u : K)| ≤ 2 ^ 52 := ⟨by exact_mod_cast hl, by exact_mod_cast hu⟩
  have hbig : (2 : K) ^ 52 < 2 ^ 1024 := pow_lt_big (by norm_num)
  have hbig2 : (2 : K) ^ 53 < 2 ^ 1024 := pow_lt_big (by norm_num)
  have hl1 : -2 ^ 1024 < (l : K) := lt_of_lt_of_le (neg_lt_neg hbig) (abs_le.1 habs.1).1
  have hu1 : (u : K) < 2 ^ 1024 := lt_of_le_of_lt (abs_le.1 habs.2).2 hbig
  have hd : rd ((u : K) - l) < 2 ^ 1024 := by
    rw [hdiff]
    refine lt_of_le_of_lt ?_ hbig2
    have : u - l ≤ 2 ^ 53 := by norm_num; omega
    exact_mod_cast this
  obtain ⟨hs, -⟩ := scaleX_fin (e := (1 / 2 : K)) hlo hl1 hluK hd (by norm_num) (by norm_num)
  have hmul0 : 0 ≤ rd (1 / 2 * rd ((u : K) - l)) := rd_nonneg (mul_nonneg (by norm_num) (rd_nonneg (by linarith)))
  have hmul1 : rd (1 / 2 * rd ((u : K) - l)) ≤ (u : K) - l := by
    rw [← hdiff]
    refine rd_le_of (isF64_rd _) ?_
    rw [hdiff]
    linarith
  have y1 : (l : K) ≤ rd (rd (1 / 2 * rd ((u : K) - l)) + l) := le_rd_of hlo (by linarith)
  have y2 : rd (rd (1 / 2 * rd ((u : K) - l)) + l) ≤ u := rd_le_of hhi (by linarith)
  have hfin : ofExact (rd (1 / 2 * rd ((u : K) - l)) + l) = .fin (rd (rd (1 / 2 * rd ((u : K) - l)) + l)) :=
    ofExact_fin (lt_of_lt_of_le hl1 y1) (lt_of_le_of_lt y2 hu1)
  obtain ⟨hr1, hr2⟩ := rintK_mem y1 y2
  have hmean : rd (rd (1 / 2 * rd ((u : K) - l)) + l) = ((l + u : Int) : K) / 2 := by
    have e1 : rd (1 / 2 * rd ((u : K) - l)) = ((u - l : Int) : K) / 2 := by
      rw [hdiff, ← rd_half (K := K) (n := u - l) (abs_le.2 ⟨by norm_num; omega, by norm_num; omega⟩)]
      push_cast
      congr 1
      ring
    rw [e1, ← rd_half (K := K) (n := l + u) (abs_le.2 ⟨by norm_num; omega, by norm_num; omega⟩)]
    push_cast
    congr 1
    ring
  refine ⟨rintK (rd (rd (1 / 2 * rd ((u : K) - l)) + l)), ?_, hr1, hr2, ?_⟩
  swap
  · rw [hmean]
    have hdist := rintK_dist (((l + u : Int) : K) / 2)
    have h2 : |((2 * rintK (((l + u : Int) : K) / 2) - (l + u) : Int) : K)| ≤ 1 := by
      rw [abs_le] at hdist ⊢
      push_cast at hdist ⊢
      constructor <;> linarith [hdist.1, hdist.2]
    exact_mod_cast h2
  have hle : legalIntX (K := K) l u (.int (rintK (rd (rd (1 / 2 * rd ((u : K) - l)) + l)))) = .ok true := by
    simp only [legalIntX]
    rw [if_pos ⟨by norm_num; omega, by norm_num; omega⟩]
    simp only [Except.ok.injEq, decide_eq_true_eq]
    exact ⟨rd_mono (by exact_mod_cast hr1), rd_mono (by exact_mod_cast hr2)⟩
  have hmid : middleX lg ex false l u = .ok (rintK (rd (rd (1 / 2 * rd ((u : K) - l)) + l))) := by
    unfold middleX
    simp only [rd_int hl'.le, rd_int hu'.le, hs, hfin, Bool.false_eq_true, if_false]
  unfold mkIntDefaultX
  simp only [k1, k2, hm, hmid, hle]

/-- **C111 is false of the code** for large numbers: between 0 and `2 ^ 53`, the integer `2 ^ 53 + 1` is accepted as the default value, and
kept, although it is not in the range. -/
theorem C111_int_default_outside : mkIntDefaultX (K := K) lg ex false (.int 0) (.int (2 ^ 53)) (some (.int (2 ^ 53 + 1))) =
    .ok (0, 2 ^ 53, 2 ^ 53 + 1) := by
  have hlo : keepInt (K := K) (.int 0) = .ok 0 := C111_int_bounds_kept (by norm_num)
  have hhi : keepInt (K := K) (.int (2 ^ 53)) = .ok (2 ^ 53) := C111_int_bounds_kept (by norm_num)
  have hm : mkIntX (K := K) false (.int 0) (.int (2 ^ 53)) = .ok (0, 2 ^ 53) := by
    unfold mkIntX
    rw [hlo, hhi]
    simp only [i64]
    norm_num
  have hf : f64Arg (.int (2 ^ 53 + 1) : Arg K) = .ok (.fin ((2 ^ 53 : Int) : K)) := by
    have h : |(((2 ^ 53 + 1 : Int)) : K)| ≤ 2 ^ 54 := by
      rw [abs_of_pos (by positivity)]
      push_cast
      norm_num
    have := (ofExact_pow (n := 54) (by norm_num) h).1
    simp only [f64Arg, this, rd_53_succ]
  have hc : closeIntX (.fin ((2 ^ 53 : Int) : K)) = true := closeIntX_int (by norm_num)
  have hle : legalIntX (K := K) 0 (2 ^ 53) (.int (2 ^ 53 + 1)) = .ok true := by
    simp only [legalIntX]
    rw [if_pos ⟨by norm_num, by norm_num⟩, rd_53_succ]
    have h1 : rd (((0 : Int)) : K) ≤ ((2 ^ 53 : Int) : K) := by
      rw [Int.cast_zero, rd_zero]
      positivity
    have h2 : rd (((2 ^ 53 : Int)) : K) = ((2 ^ 53 : Int) : K) := rd_int (by norm_num)
    rw [h2]
    simp only [Except.ok.injEq, decide_eq_true_eq]
    exact ⟨h1, le_refl _⟩
  unfold mkIntDefaultX
  simp only [hlo, hhi, hf, Except.map, hc, hm, intArg, hle]

/-- **C111 is false of the code** for default values that are only close to an integer: they are accepted as integers, but cut and not
rounded.  Between 1 and 10 the value `5 - 2 ** -17`, which is a legal value and read as 5, becomes the default value 4. -/
theorem C111_int_default_cut :
    legalIntX (K := K) 1 10 (.flt (.fin (5 - 2 ^ (-17 : Int)))) = .ok true ∧ rintK ((5 : K) - 2 ^ (-17 : Int)) = 5 ∧
    mkIntDefaultX (K := K) lg ex false (.int 1) (.int 10) (some (.flt (.fin (5 - 2 ^ (-17 : Int))))) = .ok (1, 10, 4) := by
  have hp : (2 : K) ^ (-17 : Int) = 1 / 131072 := by norm_num
  have hr : rintK ((5 : K) - 2 ^ (-17 : Int)) = 5 := rintK_eq (n := 5) (by
    rw [hp, abs_lt]
    constructor <;> norm_num)
  have hclose : rd |(5 : K) - 2 ^ (-17 : Int) - ((5 : Int) : K)| ≤ rd (rd (1 / 10000000000000) + rd (rd (1 / 100000) * |((5 : Int) : K)|)) := by
    have e : |(5 : K) - 2 ^ (-17 : Int) - ((5 : Int) : K)| = 2 ^ (-17 : Int) := by
      rw [show (5 : K) - 2 ^ (-17 : Int) - ((5 : Int) : K) = -2 ^ (-17 : Int) by push_cast; ring, abs_neg, abs_of_pos (by positivity)]
    have hf : IsF64 ((2 : K) ^ (-17 : Int)) := ⟨1, -17, by norm_num, by norm_num, by simp⟩
    rw [e]
    refine rd_mono ?_
    have h1 : (2 : K) ^ (-17 : Int) ≤ rd (1 / 100000) := le_rd_of hf (by rw [hp]; norm_num)
    have h0 : (0 : K) ≤ rd (1 / 10000000000000) := rd_nonneg (by norm_num)
    have h2 : (2 : K) ^ (-17 : Int) ≤ rd (rd (1 / 100000) * |((5 : Int) : K)|) := le_rd_of hf (by
      have : |((5 : Int) : K)| = 5 := by norm_num
      rw [this]
      have : (0 : K) < 2 ^ (-17 : Int) := by positivity
      linarith)
    linarith
  have r1 : rd (((1 : Int)) : K) = ((1 : Int) : K) := rd_int (by norm_num)
  have r10 : rd (((10 : Int)) : K) = ((10 : Int) : K) := rd_int (by norm_num)
  have r4 : rd (((4 : Int)) : K) = ((4 : Int) : K) := rd_int (by norm_num)
  have hleg : legalIntX (K := K) 1 10 (.flt (.fin (5 - 2 ^ (-17 : Int)))) = .ok true := by
    simp only [legalIntX, hr, Except.ok.injEq, decide_eq_true_eq]
    refine ⟨by rw [r1]; norm_num, by rw [r10]; norm_num, hclose⟩
  refine ⟨hleg, hr, ?_⟩
  have k1 : keepInt (K := K) (.int 1) = .ok 1 := C111_int_bounds_kept (by norm_num)
  have k2 : keepInt (K := K) (.int 10) = .ok 10 := C111_int_bounds_kept (by norm_num)
  have hm : mkIntX (K := K) false (.int 1) (.int 10) = .ok (1, 10) := by
    unfold mkIntX
    rw [k1, k2]
    simp only [i64]
    norm_num
  have hc : closeIntX (.fin ((5 : K) - 2 ^ (-17 : Int))) = true := by
    simp only [closeIntX, hr, decide_eq_true_eq]
    exact hclose
  have hi : intArg (.flt (.fin ((5 : K) - 2 ^ (-17 : Int)))) = .ok 4 := by
    simp only [intArg]
    rw [if_pos (by rw [hp]; norm_num), Except.ok.injEq, Int.floor_eq_iff, hp]
    constructor <;> norm_num
  have hl4 : legalIntX (K := K) 1 10 (.int 4) = .ok true := by
    simp only [legalIntX]
    rw [if_pos ⟨by norm_num, by norm_num⟩, r1, r10, r4]
    simp only [Except.ok.injEq, decide_eq_true_eq]
    constructor <;> norm_num
  unfold mkIntDefaultX
  simp only [k1, k2, f64Arg, Except.map, hc, hm, hi, hl4]

end

section Examples

example (lg ex : Rat → Rat) : mkIntDefaultX (K := Rat) lg ex true (.int 1) (.int 10) (some (.int 5)) = .ok (1, 10, 5) :=
  (C111_int_default_kept (by norm_num) (by norm_num) (by norm_num) (by intro; norm_num)).1 (by norm_num) (by norm_num) |>.1

example (lg ex : Rat → Rat) : ∃ d, mkIntDefaultX (K := Rat) lg ex false (.int (-3)) (.int 10) none = .ok (-3, 10, d) ∧ -3 ≤ d ∧ d ≤ 10 ∧
    |2 * d - (-3 + 10)| ≤ 1 :=
  C111_int_no_default (by norm_num) (by norm_num) (by norm_num)

example (lg ex : Rat → Rat) : mkIntDefaultX (K := Rat) lg ex false (.int (-3)) (.int 10) (some (.flt .nan)) = .error .type :=
  C111_int_default_not_finite (C111_int_bounds_kept (by norm_num)) (C111_int_bounds_kept (by norm_num)) (by intro x hx; cases hx)

end Examples

end Verif.F64
