import Verif.Lemmas.F64Sample
import Mathlib.Analysis.SpecialFunctions.Log.Deriv

/-!
# C104: integers that are drawn on a logarithmic scale

Entries of drawn integers decode to integers within the bounds, and every integer can be drawn.  The entry of a drawn integer need not be the
one that `to_vector` gives for it: conditions and clauses, which compare entries, then do not see the integer that the user sees.
-/

set_option autoImplicit false

namespace Verif.F64
open Verif.Num

section
variable {lg ex : ℝ → ℝ} {l u : Int}

/-- **C104**, values: whatever is drawn, its entry is accepted by the checks of vectors and decodes to an integer within the bounds. -/
theorem C104_log_drawn_value (ha : Accurate lg ex) (h1 : 1 ≤ l) (h : l < u) (hu : u ≤ 2 ^ 39) (x : ℝ) :
    ∃ n, l ≤ n ∧ n ≤ u ∧ toValLogInt lg ex l u (drawnLogInt lg ex l u x) = n ∧ legalVecLog lg ex l u (drawnLogInt lg ex l u x) := by
  obtain ⟨k, k0, k1, e, -⟩ := drawn_entry ha h1 h (hu.trans (by norm_num)) x
  have hv := level_value ha h1 h hu k0 k1
  refine ⟨l + k, by omega, by omega, ?_, ?_⟩
  · rw [e]; exact hv.1
  · rw [e]; exact hv.2

/-- **C104**, every integer within the bounds can be drawn. -/
theorem C104_log_all_drawn (ha : Accurate lg ex) (h1 : 1 ≤ l) (h : l < u) (hu : u ≤ 2 ^ 38) {n : Int} (hn1 : l ≤ n) (hn2 : n ≤ u) :
    ∃ x : ℝ, 0 ≤ x ∧ x ≤ 1 ∧ toValLogInt lg ex l u (drawnLogInt lg ex l u x) = n := by
  obtain ⟨x, x0, x1, e⟩ := level_drawn ha h1 h hu (k := n - l) (by omega) (by omega)
  refine ⟨x, x0, x1, ?_⟩
  rw [e, (level_value ha h1 h (hu.trans (by norm_num)) (by omega) (by omega)).1]
  omega

/-- **C104**, same integer, same entry: two draws that are read as the same integer have the same entry. -/
theorem C104_log_same_entry (ha : Accurate lg ex) (h1 : 1 ≤ l) (h : l < u) (hu : u ≤ 2 ^ 39) {x y : ℝ}
    (hxy : toValLogInt lg ex l u (drawnLogInt lg ex l u x) = toValLogInt lg ex l u (drawnLogInt lg ex l u y)) :
    drawnLogInt lg ex l u x = drawnLogInt lg ex l u y := by
  obtain ⟨k, k0, k1, e, -⟩ := drawn_entry ha h1 h (hu.trans (by norm_num)) x
  obtain ⟨j, j0, j1, e', -⟩ := drawn_entry ha h1 h (hu.trans (by norm_num)) y
  rw [e, e', (level_value ha h1 h hu k0 k1).1, (level_value ha h1 h hu j0 j1).1] at hxy
  rw [e, e', show k = j by omega]

/-- **C104**, entries (the guard: `upper - lower` is a power of two): the entry of a drawn integer is the one that `to_vector` gives for it. -/
theorem C104_log_drawn_entry_partial (ha : Accurate lg ex) (h1 : 1 ≤ l) {j : Nat} (hj : u = l + 2 ^ j) (hu : u ≤ 2 ^ 39) (x : ℝ) :
    drawnLogInt lg ex l u x = toVecLogInt lg l u (toValLogInt lg ex l u (drawnLogInt lg ex l u x)) := by
  have h : l < u := by
    have : (0 : Int) < 2 ^ j := by positivity
    omega
  have hu' : u ≤ 2 ^ 40 := hu.trans (by norm_num)
  obtain ⟨k, k0, k1, e, -⟩ := drawn_entry ha h1 h hu' x
  have hv := (level_value ha h1 h hu k0 k1).1
  rw [e, hv]
  have hat : atLevel l u ((k : Int) : ℝ) = ((l + k : Int) : ℝ) := by
    unfold atLevel
    rw [rd_size h1 h hu', rd_int40 h1 (h.le.trans hu')]
    have hm : ((u - l : Int) : ℝ) = 2 ^ j := by
      rw [hj]
      push_cast
      ring
    have hj40 : j < 40 := by
      by_contra hc
      have : (2 : Int) ^ 40 ≤ 2 ^ j := pow_le_pow_right₀ (by norm_num) (not_lt.1 hc)
      omega
    have hd : IsF64 (((k : Int) : ℝ) / 2 ^ j) := by
      refine ⟨k, -(j : Int), ?_, by omega, ?_⟩
      · rw [abs_of_nonneg k0]
        norm_num at *
        omega
      · rw [zpow_neg, zpow_natCast, div_eq_mul_inv]
    rw [hm, rd_of_isF64 hd, div_mul_cancel₀ _ (by positivity)]
    have hk : |k| ≤ 2 ^ 53 := by
      rw [abs_of_nonneg k0]
      norm_num at *
      omega
    rw [rd_int hk]
    have : ((k : Int) : ℝ) + (l : ℝ) = ((l + k : Int) : ℝ) := by push_cast; ring
    rw [this, rd_int40 (by omega) (by omega)]
  unfold toVecLogInt
  rw [hat, rd_int40 (n := l + k) (by omega) (by omega)]

end

/-- The hypotheses of the theorems above are met: bounds 1 and 1025, with the best possible logarithm and exponential function. -/
example (x : ℝ) : drawnLogInt (fun x => rd (Real.log x)) (fun y => rd (Real.exp y)) 1 1025 x =
    toVecLogInt (fun x => rd (Real.log x)) 1 1025 (toValLogInt (fun x => rd (Real.log x)) (fun y => rd (Real.exp y)) 1 1025
      (drawnLogInt (fun x => rd (Real.log x)) (fun y => rd (Real.exp y)) 1 1025 x)) :=
  C104_log_drawn_entry_partial accurate_rd (j := 10) (by norm_num) (by norm_num) (by norm_num) x

example : ∃ x : ℝ, 0 ≤ x ∧ x ≤ 1 ∧ toValLogInt (fun x => rd (Real.log x)) (fun y => rd (Real.exp y)) 3 1000000
    (drawnLogInt (fun x => rd (Real.log x)) (fun y => rd (Real.exp y)) 3 1000000 x) = 77 :=
  C104_log_all_drawn accurate_rd (by norm_num) (by norm_num) (by norm_num) (by norm_num) (by norm_num)

/-! ## A drawn integer that is not the integer -/

namespace ExLog

theorem log2 : |Real.log 2 - 0.693147180559945309417232121458176568| ≤ 1 / 10 ^ 24 := by
  have h := Real.abs_log_sub_add_sum_range_le (x := 1 / 2) (by norm_num [abs_lt]) 84
  have e : Real.log (1 - 1 / 2) = - Real.log 2 := by
    rw [← Real.log_inv]
    norm_num
  rw [e] at h
  norm_num [Finset.sum_range_succ, abs_le] at h ⊢
  constructor <;> linarith

theorem log34 : |Real.log (3 / 4) + 0.28768207245178092743921900599382743| ≤ 1 / 10 ^ 24 := by
  have h := Real.abs_log_sub_add_sum_range_le (x := 1 / 4) (by norm_num [abs_lt]) 42
  have e : (1 : ℝ) - 1 / 4 = 3 / 4 := by norm_num
  rw [e] at h
  norm_num [Finset.sum_range_succ, abs_le] at h ⊢
  constructor <;> linarith

theorem log811 : |Real.log (8 / 11) + 0.318453731118534615810247213590599595| ≤ 1 / 10 ^ 24 := by
  have h := Real.abs_log_sub_add_sum_range_le (x := 3 / 11) (by norm_num [abs_lt]) 44
  have e : (1 : ℝ) - 3 / 11 = 8 / 11 := by norm_num
  rw [e] at h
  norm_num [Finset.sum_range_succ, abs_le] at h ⊢
  constructor <;> linarith

theorem log24 : |Real.log 24 - 3.178053830347945619646941601297| ≤ 1 / 10 ^ 22 := by
  have h2 := log2
  have h3 := log34
  have e : Real.log 24 = 5 * Real.log 2 + Real.log (3 / 4) := by
    rw [show (24 : ℝ) = 2 ^ 5 * (3 / 4) by norm_num, Real.log_mul (by norm_num) (by norm_num), Real.log_pow]
    norm_num
  rw [e]
  norm_num [abs_le] at h2 h3 ⊢
  constructor <;> linarith

theorem log44 : |Real.log 44 - 3.784189633918261162896407820881| ≤ 1 / 10 ^ 22 := by
  have h2 := log2
  have h3 := log811
  have e : Real.log 44 = 5 * Real.log 2 - Real.log (8 / 11) := by
    rw [show (44 : ℝ) = 2 ^ 5 / (8 / 11) by norm_num, Real.log_div (by norm_num) (by norm_num), Real.log_pow]
    norm_num
  rw [e]
  norm_num [abs_le] at h2 h3 ⊢
  constructor <;> linarith

/-- The double before 24. -/
noncomputable def q : ℝ := 6755399441055743 * 2 ^ (-48 : Int)

theorem logq : |Real.log q - 3.178053830347945471617204984609| ≤ 1 / 10 ^ 20 := by
  have h := log24
  have hq : q = 24 * (1 - 1 / 6755399441055744) := by norm_num [q, zpow_neg]
  have e : Real.log q = Real.log 24 + Real.log (1 - 1 / 6755399441055744) := by
    rw [hq, Real.log_mul (by norm_num) (by norm_num)]
  have h1 := Real.abs_log_sub_add_sum_range_le (x := 1 / 6755399441055744) (by norm_num [abs_lt]) 2
  rw [e]
  generalize Real.log (1 - 1 / 6755399441055744) = d at *
  norm_num [Finset.sum_range_succ, abs_le] at h h1 ⊢
  constructor <;> linarith

theorem rd24 : rd (Real.log 24) = 7156341023059193 * 2 ^ (-51 : Int) := by
  have h := log24
  rw [rd_eval (-51) 7156341023059193 (by norm_num) ?_ ?_ ?_]
  · norm_num
  all_goals
    norm_num [abs_le, abs_lt, zpow_neg] at h ⊢
    first
      | linarith
      | constructor <;> linarith

theorem rdlq : rd (Real.log q) = 7156341023059192 * 2 ^ (-51 : Int) := by
  have h := logq
  generalize Real.log q = y at h ⊢
  rw [rd_eval (-51) 7156341023059192 (by norm_num) ?_ ?_ ?_]
  · norm_num
  all_goals
    norm_num [abs_le, abs_lt, zpow_neg] at h ⊢
    first
      | linarith
      | constructor <;> linarith

theorem rd44 : rd (Real.log 44) = 8521237512606787 * 2 ^ (-51 : Int) := by
  have h := log44
  rw [rd_eval (-51) 8521237512606787 (by norm_num) ?_ ?_ ?_]
  · norm_num
  all_goals
    norm_num [abs_le, abs_lt, zpow_neg] at h ⊢
    first
      | linarith
      | constructor <;> linarith

theorem level23 : atLevel 1 44 ((23 : Int) : ℝ) = q := by
  unfold atLevel q
  have e43 : rd ((44 - 1 : Int) : ℝ) = 43 := by rw [rd_int (by norm_num [abs_le])]; norm_num
  have e1 : rd ((1 : Int) : ℝ) = 1 := by rw [rd_int (by norm_num [abs_le])]; norm_num
  rw [e43, e1]
  have a : rd (((23 : Int) : ℝ) / 43) = 4817804252535879 * 2 ^ (-53 : Int) := by
    rw [rd_eval (-53) 4817804252535879 (by norm_num) (by norm_num) (by norm_num) (by norm_num [abs_lt])]
    norm_num
  have b : rd ((4817804252535879 * 2 ^ (-53 : Int) : ℝ) * 43) = 6473924464345087 * 2 ^ (-48 : Int) := by
    rw [rd_eval (-48) 6473924464345087 (by norm_num) (by norm_num) (by norm_num) (by norm_num [abs_lt])]
    norm_num
  have c : rd ((6473924464345087 * 2 ^ (-48 : Int) : ℝ) + 1) = 6755399441055743 * 2 ^ (-48 : Int) := by
    rw [rd_eval (-48) 6755399441055743 (by norm_num) (by norm_num) (by norm_num) (by norm_num [abs_lt])]
    norm_num
  rw [a, b, c]

/-- The entry of the level is less than the entry of the integer. -/
theorem below : toVecLog (fun x => rd (Real.log x)) (rd ((1 : Int) : ℝ)) (rd ((44 : Int) : ℝ)) (atLevel 1 44 ((23 : Int) : ℝ)) <
    toVecLogInt (fun x => rd (Real.log x)) 1 44 24 := by
  have e44 : rd ((44 : Int) : ℝ) = 44 := by rw [rd_int (by norm_num [abs_le])]; norm_num
  have e24 : rd ((24 : Int) : ℝ) = 24 := by rw [rd_int (by norm_num [abs_le])]; norm_num
  have e1 : rd ((1 : Int) : ℝ) = 1 := by rw [rd_int (by norm_num [abs_le])]; norm_num
  rw [level23]
  unfold toVecLogInt toVecLog
  rw [e44, e24, e1]
  simp only [Real.log_one, rd_zero, rd24, rdlq, rd44]
  unfold normalize
  have hne : ¬ ((0 : ℝ) = 0 ∧ (8521237512606787 * 2 ^ (-51 : Int) : ℝ) = 1) := by norm_num
  rw [if_neg hne, if_neg hne]
  simp only [sub_zero]
  have i1 : rd (7156341023059192 * 2 ^ (-51 : Int) : ℝ) = 7156341023059192 * 2 ^ (-51 : Int) := by rw [← rdlq, rd_rd]
  have i2 : rd (7156341023059193 * 2 ^ (-51 : Int) : ℝ) = 7156341023059193 * 2 ^ (-51 : Int) := by rw [← rd24, rd_rd]
  have i3 : rd (8521237512606787 * 2 ^ (-51 : Int) : ℝ) = 8521237512606787 * 2 ^ (-51 : Int) := by rw [← rd44, rd_rd]
  rw [i1, i2, i3]
  have a : rd ((7156341023059192 * 2 ^ (-51 : Int) : ℝ) / (8521237512606787 * 2 ^ (-51 : Int))) = 7564463428487654 * 2 ^ (-53 : Int) := by
    rw [rd_eval (-53) 7564463428487654 (by norm_num) (by norm_num) (by norm_num) (by norm_num [abs_lt])]
    norm_num
  have b : rd ((7156341023059193 * 2 ^ (-51 : Int) : ℝ) / (8521237512606787 * 2 ^ (-51 : Int))) = 7564463428487655 * 2 ^ (-53 : Int) := by
    rw [rd_eval (-53) 7564463428487655 (by norm_num) (by norm_num) (by norm_num) (by norm_num [abs_lt])]
    norm_num
  rw [a, b]
  norm_num

end ExLog

/-- **C104 is false of the code for entries.**  With the logarithm and the exponential function computed as well as doubles allow, take an
integer between 1 and 44 on a logarithmic scale.  24 can be drawn, and whenever it is drawn, its entry is less than `to_vector(24)`.  So
`ForbiddenEqualsClause(n, 24)` and `EqualsCondition(child, n, 24)` miss every drawn 24, and `LessThanCondition(child, n, 24)` holds for it. -/
theorem C104_log_drawn_entry_differs : ∃ lg ex : ℝ → ℝ, Accurate lg ex ∧ (∀ x, NearestF64 (Real.log x) (lg x)) ∧
    (∀ y, NearestF64 (Real.exp y) (ex y)) ∧
    (∃ x, 0 ≤ x ∧ x ≤ 1 ∧ toValLogInt lg ex 1 44 (drawnLogInt lg ex 1 44 x) = 24) ∧
    ∀ x, toValLogInt lg ex 1 44 (drawnLogInt lg ex 1 44 x) = 24 → drawnLogInt lg ex 1 44 x < toVecLogInt lg 1 44 24 := by
  refine ⟨fun x => rd (Real.log x), fun y => rd (Real.exp y), accurate_rd, fun x => C75_rounding _, fun y => C75_rounding _,
    C104_log_all_drawn accurate_rd (by norm_num) (by norm_num) (by norm_num) (by norm_num) (by norm_num), fun x hx => ?_⟩
  obtain ⟨k, k0, k1, e, -⟩ := drawn_entry accurate_rd (l := 1) (u := 44) (by norm_num) (by norm_num) (by norm_num) x
  rw [e, (level_value accurate_rd (by norm_num) (by norm_num) (by norm_num) k0 k1).1] at hx
  obtain rfl : k = 23 := by omega
  rw [e]
  exact ExLog.below

end Verif.F64
