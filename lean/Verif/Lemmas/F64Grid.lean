import Mathlib.Analysis.SpecialFunctions.Pow.Real
import Mathlib.Analysis.Complex.ExponentialBounds
import Verif.Model.F64Grid
import Verif.Lemmas.F64Neighbors

/-!
# Lemmas: evenly spaced numbers in double precision
-/

set_option autoImplicit false

namespace Verif.F64
open Verif Verif.Num

section
variable {K : Type} [Field K] [LinearOrder K] [IsStrictOrderedRing K] [FloorRing K]

theorem isF64_pow {e : Int} (he : -1074 ≤ e) : IsF64 ((2 : K) ^ e) := ⟨1, e, by norm_num, he, by simp⟩

theorem linspace_length (a b : K) (n : Nat) (e : Bool) : (linspace a b n e).length = n := by simp [linspace]

/-- The inner points. -/
def innerPoint (a b : K) (n i : Nat) : K :=
  let step := rd (rd (b - a) / ((n - 1 : Nat) : K))
  rd ((if n - 1 = 0 then rd ((i : K) * rd (b - a))
      else if step = 0 then rd (rd ((i : K) / ((n - 1 : Nat) : K)) * rd (b - a)) else rd ((i : K) * step)) + a)

theorem linspace_get {a b : K} {n i : Nat} (hi : i < n) :
    (linspace a b n true)[i]? = some (if 1 < n ∧ i = n - 1 then b else innerPoint a b n i) := by
  unfold linspace innerPoint
  rw [List.getElem?_map, List.getElem?_range hi]
  simp

/-- The first of the numbers. -/
theorem innerPoint_zero {a b : K} {n : Nat} (ha : IsF64 a) : innerPoint a b n 0 = a := by
  unfold innerPoint
  have e0 : rd (0 : K) = 0 := rd_zero
  simp [e0, rd_of_isF64 ha]

section
variable {a b : K} {n : Nat}

/-- The step between the numbers. -/
theorem step_pos (ha : IsF64 a) (hb : IsF64 b) (hgap : (2 : K) ^ (-900 : Int) ≤ b - a) (hn : 2 ≤ n) (hn' : n ≤ 2 ^ 50) :
    0 < rd (rd (b - a) / ((n - 1 : Nat) : K)) := by
  have h1 : (2 : K) ^ (-900 : Int) ≤ rd (b - a) := by
    have := rd_mono hgap
    rwa [rd_of_isF64 (isF64_pow (by norm_num))] at this
  have hd : (0 : K) < ((n - 1 : Nat) : K) := by exact_mod_cast (by omega : 0 < n - 1)
  have hd' : ((n - 1 : Nat) : K) ≤ 2 ^ (50 : Int) := by
    have : ((n - 1 : Nat) : K) ≤ ((2 ^ 50 : Nat) : K) := by exact_mod_cast (by omega : n - 1 ≤ 2 ^ 50)
    refine this.trans (le_of_eq ?_)
    norm_num
  have h2 : (2 : K) ^ (-950 : Int) ≤ rd (b - a) / ((n - 1 : Nat) : K) := by
    rw [le_div_iff₀ hd]
    calc (2 : K) ^ (-950 : Int) * ((n - 1 : Nat) : K) ≤ 2 ^ (-950 : Int) * 2 ^ (50 : Int) := by
          apply mul_le_mul_of_nonneg_left hd' (by positivity)
      _ = 2 ^ (-900 : Int) := by rw [← zpow_add₀ two_ne_zero]; norm_num
      _ ≤ _ := h1
  have h3 := rd_mono h2
  rw [rd_of_isF64 (isF64_pow (by norm_num))] at h3
  exact lt_of_lt_of_le (by positivity) h3

theorem innerPoint_eq (ha : IsF64 a) (hb : IsF64 b) (hgap : (2 : K) ^ (-900 : Int) ≤ b - a) (hn : 2 ≤ n) (hn' : n ≤ 2 ^ 50) (i : Nat) :
    innerPoint a b n i = rd (rd ((i : K) * rd (rd (b - a) / ((n - 1 : Nat) : K))) + a) := by
  unfold innerPoint
  simp only
  rw [if_neg (by omega), if_neg (step_pos ha hb hgap hn hn').ne']

theorem innerPoint_mono (ha : IsF64 a) (hb : IsF64 b) (hgap : (2 : K) ^ (-900 : Int) ≤ b - a) (hn : 2 ≤ n) (hn' : n ≤ 2 ^ 50) {i j : Nat}
    (hij : i ≤ j) : innerPoint a b n i ≤ innerPoint a b n j := by
  rw [innerPoint_eq ha hb hgap hn hn', innerPoint_eq ha hb hgap hn hn']
  apply rd_mono
  have : rd ((i : K) * rd (rd (b - a) / ((n - 1 : Nat) : K))) ≤ rd ((j : K) * rd (rd (b - a) / ((n - 1 : Nat) : K))) := by
    apply rd_mono
    exact mul_le_mul_of_nonneg_right (by exact_mod_cast hij) (step_pos ha hb hgap hn hn').le
  linarith

theorem innerPoint_ge (ha : IsF64 a) (hb : IsF64 b) (hgap : (2 : K) ^ (-900 : Int) ≤ b - a) (hn : 2 ≤ n) (hn' : n ≤ 2 ^ 50) (i : Nat) :
    a ≤ innerPoint a b n i := by
  have := innerPoint_mono ha hb hgap hn hn' (Nat.zero_le i)
  rwa [innerPoint_zero ha] at this

/-- The product of an index and the step, with its error. -/
theorem step_near (hgap : (2 : K) ^ (-900 : Int) ≤ b - a) (hn : 2 ≤ n) (hn' : n ≤ 2 ^ 50) {i : Nat} (hi : i < n) :
    |rd ((i : K) * rd (rd (b - a) / ((n - 1 : Nat) : K))) - (i : K) / ((n - 1 : Nat) : K) * (b - a)| ≤
      (i : K) / ((n - 1 : Nat) : K) * (b - a) * (7 / 2 ^ 54) + 2 ^ (-1000 : Int) := by
  have hd : (0 : K) < ((n - 1 : Nat) : K) := by exact_mod_cast (by omega : 0 < n - 1)
  have hi0 : (0 : K) ≤ (i : K) := by positivity
  have hiN : (i : K) ≤ 2 ^ 50 := by exact_mod_cast (by omega : i ≤ 2 ^ 50)
  have hid : (i : K) / ((n - 1 : Nat) : K) ≤ 1 := by
    rw [div_le_one hd]
    exact_mod_cast (by omega : i ≤ n - 1)
  have hid0 : (0 : K) ≤ (i : K) / ((n - 1 : Nat) : K) := by positivity
  have hη : (2 : K) ^ (-1075 : Int) * 2 ^ 60 ≤ 2 ^ (-1000 : Int) := by
    rw [show (2 : K) ^ (-1000 : Int) = 2 ^ (-1075 : Int) * 2 ^ (75 : Int) by rw [← zpow_add₀ two_ne_zero]; norm_num]
    apply mul_le_mul_of_nonneg_left _ (by positivity)
    norm_num
  have hg0 : 0 < b - a := lt_of_lt_of_le (by positivity) hgap
  have e1 := rd_err (b - a)
  set D := b - a with hD
  set δ := rd D
  have e2 := rd_err (δ / ((n - 1 : Nat) : K))
  set step := rd (δ / ((n - 1 : Nat) : K))
  have e3 := rd_err ((i : K) * step)
  set p := rd ((i : K) * step)
  have η0 : (0 : K) < 2 ^ (-1075 : Int) := by positivity
  generalize (2 : K) ^ (-1075 : Int) = η at *
  set d := ((n - 1 : Nat) : K)
  set r := (i : K) / d with hr
  have hδ0 : 0 ≤ δ := rd_nonneg hg0.le
  have hstep0 : 0 ≤ step := rd_nonneg (by positivity)
  rw [abs_of_pos hg0] at e1
  rw [abs_of_nonneg (by positivity : 0 ≤ δ / d)] at e2
  rw [abs_of_nonneg (by positivity : 0 ≤ (i : K) * step)] at e3
  have er : (i : K) * (δ / d) = r * δ := by rw [hr]; ring
  -- the product of index and step
  have f2 : |(i : K) * step - r * δ| ≤ r * δ / 2 ^ 53 + 2 ^ 50 * η := by
    rw [← er, ← mul_sub, abs_mul, abs_of_nonneg hi0]
    calc (i : K) * |step - δ / d| ≤ (i : K) * (δ / d / 2 ^ 53 + η) := mul_le_mul_of_nonneg_left e2 hi0
      _ = (i : K) * (δ / d) / 2 ^ 53 + (i : K) * η := by ring
      _ ≤ (i : K) * (δ / d) / 2 ^ 53 + 2 ^ 50 * η := by
          have := mul_le_mul_of_nonneg_right hiN η0.le
          linarith
  have f1 : |r * δ - r * D| ≤ r * D / 2 ^ 53 + η := by
    rw [← mul_sub, abs_mul, abs_of_nonneg hid0]
    calc r * |δ - D| ≤ r * (D / 2 ^ 53 + η) := mul_le_mul_of_nonneg_left e1 hid0
      _ = r * D / 2 ^ 53 + r * η := by ring
      _ ≤ r * D / 2 ^ 53 + η := by
          have := mul_le_mul_of_nonneg_right hid η0.le
          linarith
  have hX0 : 0 ≤ r * D := by positivity
  generalize r * D = X at *
  generalize r * δ = Y at *
  generalize (i : K) * step = Z at *
  rw [abs_le] at e3 f1 f2 ⊢
  norm_num at *
  constructor <;> linarith [e3.1, e3.2, f1.1, f1.2, f2.1, f2.2]

/-- The inner points are not greater than the last. -/
theorem innerPoint_le (ha : IsF64 a) (hb : IsF64 b) (hgap : (2 : K) ^ (-900 : Int) ≤ b - a) (hn : 2 ≤ n) (hn' : n ≤ 2 ^ 50) {i : Nat}
    (hi : i < n - 1) : innerPoint a b n i ≤ b := by
  rw [innerPoint_eq ha hb hgap hn hn']
  rw [← rd_of_isF64 hb]
  apply rd_mono
  rw [rd_of_isF64 hb]
  have hs := (abs_le.1 (step_near hgap hn hn' (i := i) (by omega))).2
  have hd : (0 : K) < ((n - 1 : Nat) : K) := by exact_mod_cast (by omega : 0 < n - 1)
  have hdN : ((n - 1 : Nat) : K) ≤ 2 ^ 50 := by exact_mod_cast (by omega : n - 1 ≤ 2 ^ 50)
  have hr : (i : K) / ((n - 1 : Nat) : K) ≤ 1 - 1 / 2 ^ 50 := by
    have h1 : (i : K) / ((n - 1 : Nat) : K) ≤ 1 - 1 / ((n - 1 : Nat) : K) := by
      rw [div_le_iff₀ hd, sub_mul, one_div, inv_mul_cancel₀ hd.ne']
      have : (i : K) + 1 ≤ ((n - 1 : Nat) : K) := by exact_mod_cast (by omega : i + 1 ≤ n - 1)
      linarith
    have h2 : (1 : K) / 2 ^ 50 ≤ 1 / ((n - 1 : Nat) : K) := one_div_le_one_div_of_le hd hdN
    linarith
  have hg0 : 0 < b - a := lt_of_lt_of_le (by positivity) hgap
  have hX := mul_le_mul_of_nonneg_right hr hg0.le
  have hη : (2 : K) ^ (-1000 : Int) * 2 ^ 60 ≤ b - a := by
    refine le_trans ?_ hgap
    rw [show (2 : K) ^ (-900 : Int) = 2 ^ (-1000 : Int) * 2 ^ (100 : Int) by rw [← zpow_add₀ two_ne_zero]; norm_num]
    apply mul_le_mul_of_nonneg_left _ (by positivity)
    norm_num
  have hr0 : 0 ≤ (i : K) / ((n - 1 : Nat) : K) * (b - a) := by positivity
  generalize (i : K) / ((n - 1 : Nat) : K) * (b - a) = X at *
  generalize (2 : K) ^ (-1000 : Int) = η at *
  have : rd ((i : K) * rd (rd (b - a) / ((n - 1 : Nat) : K))) ≤ b - a := by
    norm_num at *
    linarith
  linarith

/-- The points are where they should be. -/
theorem innerPoint_near (ha : IsF64 a) (hb : IsF64 b) (hgap : (2 : K) ^ (-900 : Int) ≤ b - a) (hn : 2 ≤ n) (hn' : n ≤ 2 ^ 50) {i : Nat}
    (hi : i < n) {M : K} (hM1 : |a| ≤ M) (hM2 : |b| ≤ M) :
    |innerPoint a b n i - (a + (i : K) / ((n - 1 : Nat) : K) * (b - a))| ≤ M / 2 ^ 49 + 2 ^ (-998 : Int) := by
  rw [innerPoint_eq ha hb hgap hn hn']
  have hs := step_near hgap hn hn' hi
  have hd : (0 : K) < ((n - 1 : Nat) : K) := by exact_mod_cast (by omega : 0 < n - 1)
  have hid : (i : K) / ((n - 1 : Nat) : K) ≤ 1 := by
    rw [div_le_one hd]
    exact_mod_cast (by omega : i ≤ n - 1)
  have hid0 : (0 : K) ≤ (i : K) / ((n - 1 : Nat) : K) := by positivity
  have hg0 : 0 < b - a := lt_of_lt_of_le (by positivity) hgap
  have hX0 : 0 ≤ (i : K) / ((n - 1 : Nat) : K) * (b - a) := by positivity
  have hX1 : (i : K) / ((n - 1 : Nat) : K) * (b - a) ≤ b - a := by
    have := mul_le_mul_of_nonneg_right hid hg0.le
    linarith
  set p := rd ((i : K) * rd (rd (b - a) / ((n - 1 : Nat) : K)))
  have e := rd_err (p + a)
  generalize (i : K) / ((n - 1 : Nat) : K) * (b - a) = X at *
  have hη0 : (0 : K) < 2 ^ (-1000 : Int) := by positivity
  have hη1 : (2 : K) ^ (-1075 : Int) ≤ 2 ^ (-1000 : Int) := zpow_le_zpow_right₀ (by norm_num) (by norm_num)
  have hη2 : (2 : K) ^ (-998 : Int) = 4 * 2 ^ (-1000 : Int) := by
    rw [show (2 : K) ^ (-998 : Int) = 2 ^ (2 : Int) * 2 ^ (-1000 : Int) by rw [← zpow_add₀ two_ne_zero]; norm_num]
    norm_num
  rw [hη2]
  generalize (2 : K) ^ (-1000 : Int) = η at *
  generalize (2 : K) ^ (-1075 : Int) = ζ at *
  generalize rd (p + a) = z at *
  obtain ⟨a1, a2⟩ := abs_le.1 hM1
  obtain ⟨b1, b2⟩ := abs_le.1 hM2
  obtain ⟨s1, s2⟩ := abs_le.1 hs
  have hpa : |p + a| ≤ M + X * (7 / 2 ^ 54) + η := by
    rw [abs_le]
    constructor <;> linarith
  obtain ⟨z1, z2⟩ := abs_le.1 (e.trans (add_le_add (div_le_div_of_nonneg_right hpa (by norm_num)) hη1))
  rw [abs_le]
  norm_num at *
  constructor <;> linarith

end

end

end Verif.F64

namespace Verif.F64
open Verif Verif.Num

/-! ## The corrections of the end points -/

section
variable {N : Type} [LinearOrder N]

/-- Within the bounds nothing is corrected. -/
theorem clampEnds_id {lo hi : N} : ∀ {xs : List N}, xs ≠ [] → (∀ x ∈ xs, lo ≤ x ∧ x ≤ hi) → clampEnds lo hi xs = some xs
  | [], h, _ => absurd rfl h
  | x :: xs, _, h => by
    unfold clampEnds
    have h0 : ¬ x < lo := not_lt.2 (h x (by simp)).1
    simp only [if_neg h0]
    rw [if_neg (not_lt.2 (h _ (List.getLast_mem _)).2)]

/-- What the corrections do to a list of at least two numbers. -/
theorem clampEnds_get {lo hi : N} : ∀ {xs : List N}, 2 ≤ xs.length → ∃ ys, clampEnds lo hi xs = some ys ∧ ys.length = xs.length ∧
    ∀ i, ys[i]? = (xs[i]?).map (fun x => if i = 0 then max lo x else if i = xs.length - 1 then min hi x else x)
  | [], h => by simp at h
  | [x], h => by simp at h
  | x :: y :: xs, _ => by
    have hfirst : (if x < lo then lo else x) = max lo x := by
      split
      · rename_i h; rw [max_eq_left h.le]
      · rename_i h; rw [max_eq_right (not_lt.1 h)]
    unfold clampEnds
    simp only [hfirst]
    set zs := y :: xs with hzs
    have hne : zs ≠ [] := by simp [hzs]
    have hlast : (max lo x :: zs).getLast (List.cons_ne_nil _ _) = zs.getLast hne := List.getLast_cons hne
    rw [hlast]
    have hsplit : zs = zs.dropLast ++ [zs.getLast hne] := (List.dropLast_append_getLast hne).symm
    have hdl : (max lo x :: zs).dropLast = max lo x :: zs.dropLast := by
      rw [hzs]; rfl
    have hlen : zs.dropLast.length = zs.length - 1 := List.length_dropLast
    have hzl : 1 ≤ zs.length := by rw [hzs]; simp
    have hres : (if hi < zs.getLast hne then (max lo x :: zs).dropLast ++ [hi] else max lo x :: zs) =
        max lo x :: (zs.dropLast ++ [min hi (zs.getLast hne)]) := by
      split
      · rename_i h
        rw [min_eq_left h.le, hdl]; rfl
      · rename_i h
        rw [min_eq_right (not_lt.1 h), ← hsplit]
    rw [hres]
    refine ⟨_, rfl, by simp [hlen]; omega, ?_⟩
    intro i
    cases i with
    | zero => simp
    | succ i =>
      rw [List.getElem?_cons_succ, List.getElem?_cons_succ]
      simp only [Nat.add_eq_zero_iff, one_ne_zero, and_false, if_false, List.length_cons, Nat.add_sub_cancel]
      rcases Nat.lt_trichotomy i zs.dropLast.length with h | h | h
      · rw [List.getElem?_append_left h]
        have : zs[i]? = zs.dropLast[i]? := by
          conv_lhs => rw [hsplit]
          rw [List.getElem?_append_left h]
        rw [this]
        cases zs.dropLast[i]? with
        | none => rfl
        | some z =>
          simp only [Option.map_some]
          rw [if_neg (by omega)]
      · rw [List.getElem?_append_right h.ge, h]
        have : zs[zs.dropLast.length]? = some (zs.getLast hne) := by
          conv_lhs => rw [hsplit]
          rw [List.getElem?_append_right (by simp)]
          simp
        rw [this]
        simp only [Nat.sub_self, List.getElem?_cons_zero, Option.map_some]
        rw [if_pos (by omega)]
      · rw [List.getElem?_append_right h.le, List.getElem?_eq_none (by simp; omega), List.getElem?_eq_none (by omega)]
        rfl

end

/-! ## Logarithmic scales -/

section
variable {lg ex : ℝ → ℝ}

theorem log_size {a : ℝ} (h1 : (2 : ℝ) ^ (-300 : Int) ≤ a) (h2 : a ≤ (2 : ℝ) ^ (300 : Int)) : |Real.log a| ≤ 208 := by
  have ha : 0 < a := lt_of_lt_of_le (by positivity) h1
  have l1 := Real.log_le_log (by positivity) h1
  have l2 := Real.log_le_log ha h2
  rw [Real.log_zpow] at l1 l2
  have := Real.log_two_lt_d9
  rw [abs_le]
  push_cast at *
  constructor <;> linarith

/-- The `i`-th point of a grid on a logarithmic scale is near to where it should be. -/
theorem log_point (ha : Accurate lg ex) {a b : ℝ} (h1 : (2 : ℝ) ^ (-300 : Int) ≤ a) (hab : a ≤ b) (h2 : b ≤ (2 : ℝ) ^ (300 : Int)) {n i : Nat}
    (hgap : n = 1 ∨ (2 : ℝ) ^ (-900 : Int) ≤ lg b - lg a) (hn' : n ≤ 2 ^ 50) (hi : i < n) {y : ℝ}
    (hy : (linspace (lg a) (lg b) n true)[i]? = some y) :
    |ex y - a * (b / a) ^ ((i : ℝ) / ((n - 1 : Nat) : ℝ))| ≤ a * (b / a) ^ ((i : ℝ) / ((n - 1 : Nat) : ℝ)) / 2 ^ 40 := by
  have ha0 : 0 < a := lt_of_lt_of_le (by positivity) h1
  have hb0 : 0 < b := ha0.trans_le hab
  set r := (i : ℝ) / ((n - 1 : Nat) : ℝ) with hr
  have hr0 : 0 ≤ r := by positivity
  have hr1 : r ≤ 1 := by
    rcases Nat.eq_zero_or_pos (n - 1) with h | h
    · rw [hr, h]; simp
    · rw [hr, div_le_one (by exact_mod_cast h)]
      exact_mod_cast (by omega : i ≤ n - 1)
  set t := Real.log a + r * (Real.log b - Real.log a) with ht
  have hexp : a * (b / a) ^ r = Real.exp t := by
    rw [ht, Real.exp_add, Real.exp_log ha0, Real.rpow_def_of_pos (by positivity), Real.log_div hb0.ne' ha0.ne', mul_comm r]
  rw [hexp]
  have La := log_size h1 (hab.trans h2)
  have Lb := log_size (h1.trans hab) h2
  have na := ha.log_near a ha0
  have nb := ha.log_near b hb0
  have hη : (0 : ℝ) < 2 ^ (-400 : Int) := by positivity
  have hη2 : (2 : ℝ) ^ (-400 : Int) ≤ 1 / 2 ^ 60 := by
    rw [one_div, ← zpow_natCast, ← zpow_neg]
    exact zpow_le_zpow_right₀ (by norm_num) (by norm_num)
  have na' : |lg a - Real.log a| ≤ 209 / 2 ^ 50 := by
    refine na.trans ?_
    have := div_le_div_of_nonneg_right La (by positivity : (0 : ℝ) ≤ 2 ^ 50)
    norm_num at *
    linarith
  have nb' : |lg b - Real.log b| ≤ 209 / 2 ^ 50 := by
    refine nb.trans ?_
    have := div_le_div_of_nonneg_right Lb (by positivity : (0 : ℝ) ≤ 2 ^ 50)
    norm_num at *
    linarith
  have hlin : |lg a + r * (lg b - lg a) - t| ≤ 209 / 2 ^ 50 := by
    have e : lg a + r * (lg b - lg a) - t = (1 - r) * (lg a - Real.log a) + r * (lg b - Real.log b) := by rw [ht]; ring
    rw [e]
    refine (abs_add_le _ _).trans ?_
    rw [abs_mul, abs_mul, abs_of_nonneg (by linarith : (0 : ℝ) ≤ 1 - r), abs_of_nonneg hr0]
    nlinarith
  have hyl : |y - (lg a + r * (lg b - lg a))| ≤ 210 / 2 ^ 49 + 1 / 2 ^ 60 := by
    rw [linspace_get hi] at hy
    split at hy
    · rename_i hc
      cases hy
      have : r = 1 := by
        rw [hr, hc.2, div_self]
        exact_mod_cast (by omega : n - 1 ≠ 0)
      rw [this]
      norm_num
    · rename_i hc
      cases hy
      by_cases h0 : i = 0
      · subst h0
        rw [innerPoint_zero (ha.isF64 a ha0)]
        have : r = 0 := by rw [hr]; simp
        rw [this]
        norm_num
      · have hg : (2 : ℝ) ^ (-900 : Int) ≤ lg b - lg a := by
          rcases hgap with h | h
          · omega
          · exact h
        refine (innerPoint_near (ha.isF64 a ha0) (ha.isF64 b hb0) hg (by omega) hn' hi (M := 210) ?_ ?_).trans ?_
        · rw [abs_le] at *
          norm_num at *
          constructor <;> linarith
        · rw [abs_le] at *
          norm_num at *
          constructor <;> linarith
        · have : (2 : ℝ) ^ (-998 : Int) ≤ 1 / 2 ^ 60 := by
            rw [one_div, ← zpow_natCast, ← zpow_neg]
            exact zpow_le_zpow_right₀ (by norm_num) (by norm_num)
          linarith
  have hd : |y - t| ≤ 630 / 2 ^ 50 := by
    have := abs_add_le (y - (lg a + r * (lg b - lg a))) (lg a + r * (lg b - lg a) - t)
    rw [show y - (lg a + r * (lg b - lg a)) + (lg a + r * (lg b - lg a) - t) = y - t by ring] at this
    norm_num at *
    linarith
  -- the exponential function
  have hexpy : |Real.exp y - Real.exp t| ≤ Real.exp t * (631 / 2 ^ 50) := by
    have e : Real.exp y = Real.exp t * Real.exp (y - t) := by rw [← Real.exp_add]; ring_nf
    rw [e, show Real.exp t * Real.exp (y - t) - Real.exp t = Real.exp t * (Real.exp (y - t) - 1) by ring, abs_mul,
      abs_of_pos (Real.exp_pos t)]
    apply mul_le_mul_of_nonneg_left _ (Real.exp_pos t).le
    have h3 := Real.abs_exp_sub_one_sub_id_le (x := y - t) (hd.trans (by norm_num))
    have h4 : (y - t) ^ 2 ≤ 1 / 2 ^ 50 := by
      rw [← sq_abs]
      calc |y - t| ^ 2 ≤ (630 / 2 ^ 50) ^ 2 := by gcongr
        _ ≤ 1 / 2 ^ 50 := by norm_num
    have h5 := abs_add_le (Real.exp (y - t) - 1 - (y - t)) (y - t)
    rw [show Real.exp (y - t) - 1 - (y - t) + (y - t) = Real.exp (y - t) - 1 by ring] at h5
    norm_num at *
    linarith
  have hex := ha.exp_near y
  have hsmall : (2 : ℝ) ^ (-400 : Int) ≤ Real.exp t / 2 ^ 60 := by
    have h3 : (2 : ℝ) ^ (-300 : Int) ≤ Real.exp t := by
      refine h1.trans ?_
      rw [← hexp]
      have : 1 ≤ (b / a) ^ r := Real.one_le_rpow (by rw [one_le_div ha0]; exact hab) hr0
      nlinarith
    have h4 : (2 : ℝ) ^ (-400 : Int) ≤ 2 ^ (-300 : Int) / 2 ^ 60 := by
      rw [le_div_iff₀ (by positivity), ← zpow_natCast, ← zpow_add₀ two_ne_zero]
      exact zpow_le_zpow_right₀ (by norm_num) (by norm_num)
    exact h4.trans (div_le_div_of_nonneg_right h3 (by positivity))
  have hE := Real.exp_pos t
  generalize Real.exp t = E at *
  generalize Real.exp y = Y at *
  generalize (2 : ℝ) ^ (-400 : Int) = η at *
  obtain ⟨p1, p2⟩ := abs_le.1 hexpy
  obtain ⟨q1, q2⟩ := abs_le.1 hex
  rw [abs_le]
  norm_num at *
  constructor <;> linarith

end

end Verif.F64
