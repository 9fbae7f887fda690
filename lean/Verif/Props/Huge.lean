import Verif.Lemmas.Huge
import Verif.Props.Density
import Mathlib.Analysis.Calculus.Deriv.MeanValue
import Mathlib.Analysis.SpecialFunctions.Pow.Deriv
import Mathlib.MeasureTheory.Integral.DominatedConvergence

/-!
# C120: densities of integers with any number of values
-/

set_option autoImplicit false

namespace Verif.Huge

open Verif.Num Verif.Dens Verif.Spec MeasureTheory

variable {rv ppf : ℝ → ℝ} {M : ℝ} {steps : Nat}

theorem integral_mono_interval (p : OnePeak rv M) {a b : ℝ} (h0 : 0 ≤ a) (hab : a ≤ b) (h1 : b ≤ 1) :
    0 ≤ (∫ x in a..b, rv x) ∧ (∫ x in a..b, rv x) ≤ 1 := by
  have nn : ∀ {a b : ℝ}, a ≤ b → 0 ≤ ∫ x in a..b, rv x :=
    fun h => intervalIntegral.integral_nonneg h fun x _ => p.nonneg x
  have e1 := intervalIntegral.integral_add_adjacent_intervals (OnePeak.integrable p 0 a) (OnePeak.integrable p a b)
  have e2 := intervalIntegral.integral_add_adjacent_intervals (OnePeak.integrable p 0 b) (OnePeak.integrable p b 1)
  have := p.one
  have a1 := nn h0
  have a2 := nn hab
  have a3 := nn h1
  exact ⟨a2, by linarith⟩

theorem pts_grid (hs : 2 ≤ steps) (f : ℝ → ℝ) : densitySum f steps = ((pts 0 (1 / ((steps : ℝ) - 1)) steps).map f).sum := by
  unfold densitySum pts
  rw [List.map_map]
  congr 1
  apply List.map_congr_left
  intro k _
  simp only [Function.comp]
  congr 1
  ring

/-- The densities at the values, before they are divided. -/
theorem grid_sum (p : OnePeak rv M) (hs : 2 ≤ steps) :
    (steps : ℝ) - 1 - M ≤ densitySum rv steps ∧ densitySum rv steps ≤ (steps : ℝ) - 1 + M := by
  obtain ⟨n, rfl⟩ : ∃ n, steps = n + 1 := ⟨steps - 1, by omega⟩
  have hn : (0 : ℝ) < n := by exact_mod_cast (by omega : 0 < n)
  have hc : ((n + 1 : Nat) : ℝ) - 1 = n := by push_cast; ring
  rw [pts_grid hs, hc]
  have a1 := sum_le_integral p (s := 0) (h := 1 / (n : ℝ)) (by positivity) n
  have a2 := integral_le_sum p (s := 0) (h := 1 / (n : ℝ)) (by positivity) n
  have e : (0 : ℝ) + n * (1 / n) = 1 := by field_simp; ring
  rw [e, p.one] at a1 a2
  rw [sum_succ] at a1 ⊢
  have := p.nonneg (0 + n * (1 / n))
  generalize ((pts 0 (1 / (n : ℝ)) n).map rv).sum = X at *
  generalize rv (0 + n * (1 / n)) = y at *
  have b1 := mul_le_mul_of_nonneg_left a1 hn.le
  have b2 := mul_le_mul_of_nonneg_left a2 hn.le
  have k1 : (n : ℝ) * (1 / n * (X + y)) = X + y := by field_simp
  have k2 : (n : ℝ) * (1 + 1 / n * M) = n + M := by field_simp
  have k3 : (n : ℝ) * (1 / n * (X + M)) = X + M := by field_simp
  rw [k1, k2] at b1
  rw [k3] at b2
  constructor <;> linarith

/-- The sum by which the code divides. -/
theorem norm_bounds (p : OnePeak rv M) {a b num : ℝ} {C : Nat} (hC : 0 < C) (h0 : 0 ≤ a) (hab : a < b) (h1 : b ≤ 1)
    (hn : 1 < num) : ∃ N, (linspaceReal a b num C).map (fun cs => (cs.map fun c => (c.map rv).sum).sum) = some N ∧
      (∫ x in a..b, rv x) ≤ (b - a) / (num - 1) * (N + M) ∧ N ≤ num / (b - a) + M := by
  obtain ⟨cs, hcs, n, d, d0, d1, d2, d3, d4, hsum⟩ := linspaceReal_sum (f := rv) hn.le hC hab
  refine ⟨_, by rw [hcs]; rfl, ?_, ?_⟩
  all_goals dsimp only
  all_goals rw [hsum]
  all_goals have hh : 0 < (b - a) / d := div_pos (sub_pos.2 hab) d0
  · have a1 := integral_le_sum p (s := a) hh.le n
    have hb : b ≤ a + n * ((b - a) / d) := by
      have : (b - a) / d * d ≤ (b - a) / d * n := mul_le_mul_of_nonneg_left d3 hh.le
      rw [div_mul_cancel₀ _ d0.ne'] at this
      linarith
    have e := intervalIntegral.integral_add_adjacent_intervals (OnePeak.integrable p a b)
      (OnePeak.integrable p b (a + n * ((b - a) / d)))
    have nn : 0 ≤ ∫ x in b..(a + n * ((b - a) / d)), rv x := intervalIntegral.integral_nonneg hb fun x _ => p.nonneg x
    have hN : 0 ≤ ((pts a ((b - a) / d) n).map rv).sum :=
      List.sum_nonneg fun x hx => by obtain ⟨y, _, rfl⟩ := List.mem_map.1 hx; exact p.nonneg y
    have hM : 0 ≤ M := (p.nonneg 0).trans (p.le 0)
    have hle : (b - a) / d ≤ (b - a) / (num - 1) := div_le_div_of_nonneg_left (sub_pos.2 hab).le (by linarith) d1.le
    have := mul_le_mul_of_nonneg_right hle (add_nonneg hN hM)
    linarith
  · obtain ⟨k, rfl⟩ : ∃ k, n = k + 1 := ⟨n - 1, by
      have : (0 : ℝ) < n := d0.trans_le d3
      have : 0 < n := by exact_mod_cast this
      omega⟩
    have a1 := sum_le_integral p (s := a) hh.le k
    have hk : (k : ℝ) < d := by push_cast at d4; linarith
    have hb : a + k * ((b - a) / d) ≤ b := by
      have : (b - a) / d * k ≤ (b - a) / d * d := mul_le_mul_of_nonneg_left hk.le hh.le
      rw [div_mul_cancel₀ _ d0.ne'] at this
      linarith
    have ha : a ≤ a + k * ((b - a) / d) := by
      have : 0 ≤ (k : ℝ) * ((b - a) / d) := mul_nonneg (by positivity) hh.le
      linarith
    have a2 := (integral_mono_interval p h0 ha (hb.trans h1)).2
    have a3 : ((pts a ((b - a) / d) (k + 1)).map rv).sum ≤ d / (b - a) + M := by
      have : (b - a) / d * ((pts a ((b - a) / d) (k + 1)).map rv).sum ≤ (b - a) / d * (d / (b - a) + M) := by
        have e : (b - a) / d * (d / (b - a)) = 1 := by
          have := (sub_pos.2 hab).ne'
          field_simp
        rw [mul_add, e]
        linarith
      exact le_of_mul_le_mul_left this hh
    have : d / (b - a) ≤ num / (b - a) := div_le_div_of_nonneg_right d2 (sub_pos.2 hab).le
    linarith

theorem sum_div (d : ℝ → ℝ) (N : ℝ) (hs : 2 ≤ steps) (h : ∀ x, 0 ≤ x → x ≤ 1 → d x = rv x / N) :
    densitySum d steps = densitySum rv steps / N := by
  unfold densitySum
  rw [← sum_map_div, List.map_map]
  congr 1
  apply List.map_congr_left
  intro k hk
  have hS : (2 : ℝ) ≤ steps := by exact_mod_cast hs
  have hk : ((k + 1 : Nat) : ℝ) ≤ steps := by exact_mod_cast List.mem_range.1 hk
  push_cast at hk
  exact h _ (div_nonneg (by positivity) (by linarith)) ((div_le_one (by linarith)).2 (by linarith))

theorem pdf_of_norm {N : ℝ} {C : Nat} (h : norm rv ppf steps C = some N) :
    ∃ d : ℝ → ℝ, (∀ x, pdf rv ppf steps C x = some (d x)) ∧ ∀ x, 0 ≤ x → x ≤ 1 → d x = rv x / N := by
  classical
  refine ⟨fun x => if 0 ≤ x ∧ x ≤ 1 then rv x / N else 0, fun x => ?_, fun x h0 h1 => if_pos ⟨h0, h1⟩⟩
  unfold pdf
  rw [h]
  simp only [Option.map_some, Option.some.injEq]
  congr

/-- Up to ten million values the densities are those of C47, C78 and C85. -/
theorem C120_small (hs : 2 ≤ steps) (hc : steps ≤ chunkSize) (x : ℝ) :
    pdf rv ppf steps chunkSize x = some ((discretized rv steps).pdf x) := by
  have hS : (2 : ℝ) ≤ steps := by exact_mod_cast hs
  have hpos : (0 : ℝ) < (steps : ℝ) - 1 := by linarith
  have q0 : quantize (0 : ℝ) 0 1 steps = 0 := by simp [quantize, clip, hpos.le, not_lt.2 hpos.le]
  have q1 : quantize (1 : ℝ) 0 1 steps = 1 := by
    simp only [quantize, and_self, if_true, one_mul, Int.floor_natCast, Int.cast_natCast, clip]
    rw [if_neg (by linarith), if_pos (by linarith), div_self hpos.ne']
  have hnum : ((1 : ℝ) - 0) / ((1 - 0) / ((steps : ℝ) - 1)) + 1 = steps := by
    rw [sub_zero, one_div_one_div]; ring
  have hp : points ppf steps chunkSize = some [pdfPoints steps] := by
    unfold points middle
    rw [if_neg (by omega)]
    simp only [q0, q1]
    rw [hnum]
    unfold linspaceReal pdfPoints
    rw [if_pos ⟨by linarith, by decide, by norm_num⟩, if_pos (by exact_mod_cast hc), Int.floor_natCast, Int.toNat_natCast]
  unfold pdf norm
  rw [hp]
  simp only [Option.map_some, List.map_cons, List.map_nil, List.sum_cons, List.sum_nil, add_zero]
  rfl

/-- **C120, up to ten million values.** The densities of a normal or beta distributed integer add up to one, up to an error
that is small if there are many more values than the largest density. -/
theorem C120_sum_close (p : OnePeak rv M) (hs : 2 ≤ steps) (hc : steps ≤ chunkSize) (hM : M < (steps : ℝ) - 1) :
    ∃ d : ℝ → ℝ, (∀ x, pdf rv ppf steps chunkSize x = some (d x)) ∧
      |densitySum d steps - 1| ≤ (2 * M + 1) / ((steps : ℝ) - 1 - M) := by
  have hS : (2 : ℝ) ≤ steps := by exact_mod_cast hs
  have hpos : (0 : ℝ) < (steps : ℝ) - 1 := by linarith
  have q0 : quantize (0 : ℝ) 0 1 steps = 0 := by simp [quantize, clip, hpos.le, not_lt.2 hpos.le]
  have q1 : quantize (1 : ℝ) 0 1 steps = 1 := by
    simp only [quantize, and_self, if_true, one_mul, Int.floor_natCast, Int.cast_natCast, clip]
    rw [if_neg (by linarith), if_pos (by linarith), div_self hpos.ne']
  have hnum : ((1 : ℝ) - 0) / ((1 - 0) / ((steps : ℝ) - 1)) + 1 = steps := by
    rw [sub_zero, one_div_one_div]; ring
  have hn : ∃ N, norm rv ppf steps chunkSize = some N ∧ (steps : ℝ) - 1 - M ≤ N ∧ N ≤ steps + M := by
    obtain ⟨N, n1, n2, n3⟩ := norm_bounds p (a := 0) (b := 1) (num := steps) (C := chunkSize) (by decide) (le_refl _)
      (by norm_num) (le_refl _) (by linarith)
    refine ⟨N, ?_, ?_, by simpa using n3⟩
    · unfold norm points middle
      rw [if_neg (by omega)]
      simp only [q0, q1]
      rw [hnum]
      exact n1
    · rw [p.one, sub_zero, one_div, ← div_eq_inv_mul, le_div_iff₀ hpos] at n2
      linarith
  obtain ⟨N, hN, n1, n2⟩ := hn
  obtain ⟨d, hd, hdx⟩ := pdf_of_norm hN
  refine ⟨d, hd, ?_⟩
  obtain ⟨g1, g2⟩ := grid_sum p hs
  have hN0 : 0 < N := by linarith
  rw [sum_div d N hs hdx, div_sub_one hN0.ne', abs_div, abs_of_pos hN0]
  have h1 : |densitySum rv steps - N| ≤ 2 * M + 1 := abs_le.2 ⟨by linarith, by linarith⟩
  have hMnn : 0 ≤ M := (p.nonneg 0).trans (p.le 0)
  exact div_le_div₀ (by linarith) h1 (by linarith) n1

/-- **C120, false of the code for more than ten million values:** the densities of all values do not add up to one but to about
the width of the part of the range that has all but a millionth of the probability.  The distances between the points that
are summed are too small: they are computed as if this part had as many values as the whole range. -/
theorem C120_sum_is_width (p : OnePeak rv M) (hq : Quantile rv ppf) (hs : chunkSize < steps) (hM : M ≤ ((steps : ℝ) - 1) / 1000) :
    ∃ d : ℝ → ℝ, (∀ x, pdf rv ppf steps chunkSize x = some (d x)) ∧
      0.99 * middleWidth ppf ≤ densitySum d steps ∧ densitySum d steps ≤ 1.01 * middleWidth ppf := by
  have hcs : chunkSize = 10000000 := rfl
  have hs2 : 2 ≤ steps := by omega
  obtain ⟨B, hB⟩ : ∃ B : ℝ, (steps : ℝ) - 1 = B := ⟨_, rfl⟩
  have hB7 : (10000000 : ℝ) ≤ B := by
    have : ((10000000 + 1 : Nat) : ℝ) ≤ steps := by exact_mod_cast (by omega : 10000000 + 1 ≤ steps)
    push_cast at this
    linarith
  rw [hB] at hM
  obtain ⟨l0, l1, lI⟩ := hq 0.0000005 (by norm_num) (by norm_num)
  obtain ⟨u0, u1, uI⟩ := hq 0.9999995 (by norm_num) (by norm_num)
  have eL : (1 - confidence) / 2 = 0.0000005 := by norm_num [confidence]
  have eU : (1 + confidence) / 2 = 0.9999995 := by norm_num [confidence]
  unfold middleWidth
  obtain ⟨L, hL⟩ : ∃ L, ppf 0.0000005 = L := ⟨_, rfl⟩
  obtain ⟨U, hU⟩ : ∃ U, ppf 0.9999995 = U := ⟨_, rfl⟩
  rw [hL] at l0 l1 lI
  rw [hU] at u0 u1 uI
  rw [hL, hU]
  have hmid : middle ppf steps chunkSize = (L, U) := by
    unfold middle
    rw [if_pos hs, eL, eU, hL, hU, max_eq_left l0, min_eq_left u1]
  have hIm : ∫ x in L..U, rv x = 0.999999 := by
    have := intervalIntegral.integral_add_adjacent_intervals (OnePeak.integrable p 0 L) (OnePeak.integrable p L U)
    rw [lI, uI] at this
    linarith
  have hM0 : 0 ≤ M := (p.nonneg 0).trans (p.le 0)
  have hLU : L < U := by
    by_contra hcon
    have : 0 ≤ ∫ x in U..L, rv x := intervalIntegral.integral_nonneg (not_lt.1 hcon) fun x _ => p.nonneg x
    rw [intervalIntegral.integral_symm, hIm] at this
    linarith
  have hw : 0.999999 ≤ M * (U - L) := by
    obtain ⟨m, m1, m2⟩ := p.peak
    have := cell_le m1 m2 hLU.le fun x _ _ => p.le x
    linarith
  have hBp : 0 < B := by linarith
  obtain ⟨qa, qa0, qa1⟩ := quantize_near l0 l1 hs2
  obtain ⟨qb, qb0, qb1⟩ := quantize_near u0 u1 hs2
  rw [hB] at qa qb
  obtain ⟨a, ha⟩ : ∃ a, quantize L 0 1 steps = a := ⟨_, rfl⟩
  obtain ⟨b, hb⟩ : ∃ b, quantize U 0 1 steps = b := ⟨_, rfl⟩
  rw [ha] at qa qa0 qa1
  rw [hb] at qb qb0 qb1
  obtain ⟨qa2, qa3⟩ := abs_le.1 qa
  obtain ⟨qb2, qb3⟩ := abs_le.1 qb
  have hwB : 999 ≤ (U - L) * B := by
    have : M * (U - L) ≤ B / 1000 * (U - L) := mul_le_mul_of_nonneg_right hM (sub_pos.2 hLU).le
    linarith
  have hinv : 1 / B ≤ (U - L) / 999 := by
    rw [div_le_div_iff₀ hBp (by norm_num)]
    linarith
  have hab : 0.99 * (U - L) ≤ b - a := by linarith
  have hwpos : 0 < U - L := sub_pos.2 hLU
  have hab' : a < b := by linarith
  have hnum : 1 < (b - a) / ((U - L) / B) + 1 := by
    have : 0 < (b - a) / ((U - L) / B) := div_pos (by linarith) (div_pos hwpos hBp)
    linarith
  obtain ⟨N, n1, n2, n3⟩ := norm_bounds p (C := chunkSize) (by decide) qa0 hab' qb1 hnum
  have hN : norm rv ppf steps chunkSize = some N := by
    unfold norm points
    rw [hmid]
    simp only [ha, hb, hB]
    exact n1
  obtain ⟨d, hd, hdx⟩ := pdf_of_norm hN
  refine ⟨d, hd, ?_⟩
  obtain ⟨g1, g2⟩ := grid_sum p hs2
  rw [hB] at g1 g2
  rw [sum_div d N hs2 hdx]
  have hA : 0.999999 - 2 * (M / B) ≤ ∫ x in a..b, rv x := by
    have e1 := intervalIntegral.integral_add_adjacent_intervals (OnePeak.integrable p a L) (OnePeak.integrable p L U)
    have e2 := intervalIntegral.integral_add_adjacent_intervals (OnePeak.integrable p a U) (OnePeak.integrable p U b)
    have key : ∀ {s t : ℝ}, |t - s| ≤ 1 / B → -(M / B) ≤ ∫ x in s..t, rv x := by
      intro s t hst
      have := intervalIntegral.norm_integral_le_of_norm_le_const (f := rv) (a := s) (b := t) (C := M)
        (fun x _ => by rw [Real.norm_eq_abs, abs_of_nonneg (p.nonneg x)]; exact p.le x)
      rw [Real.norm_eq_abs] at this
      have h2 := (abs_le.1 this).1
      have h3 : M * |t - s| ≤ M * (1 / B) := mul_le_mul_of_nonneg_left hst hM0
      rw [mul_one_div] at h3
      linarith
    have k1 := key (s := a) (t := L) (by rw [abs_sub_comm]; exact qa)
    have k2 := key (s := U) (t := b) qb
    linarith
  have hMB : M / B ≤ 1 / 1000 := by
    rw [div_le_iff₀ hBp]
    linarith
  have hfr : (b - a) / ((b - a) / ((U - L) / B) + 1 - 1) = (U - L) / B := by
    have : b - a ≠ 0 := by linarith
    rw [add_sub_cancel_right]
    field_simp
  rw [hfr] at n2
  have hw1 : U - L ≤ 1 := by linarith
  have hNlow : 0.996 * B ≤ (U - L) * N := by
    have h1 : 0.997999 ≤ (U - L) / B * (N + M) := by linarith
    have h2 : (U - L) / B * (N + M) = ((U - L) * N + (U - L) * M) / B := by ring
    rw [h2, le_div_iff₀ hBp] at h1
    have h3 : (U - L) * M ≤ 1 * M := mul_le_mul_of_nonneg_right hw1 hM0
    linarith
  have hN0 : 0 < N := by
    by_contra hcon
    have : (U - L) * N ≤ 0 := mul_nonpos_of_nonneg_of_nonpos hwpos.le (not_lt.1 hcon)
    linarith
  have hNup : (U - L) * N ≤ 1.0015 * B := by
    have e : ((b - a) / ((U - L) / B) + 1) / (b - a) = B / (U - L) + 1 / (b - a) := by
      have : b - a ≠ 0 := by linarith
      field_simp
    rw [e] at n3
    have h1 := mul_le_mul_of_nonneg_left n3 hwpos.le
    have e2 : (U - L) * (B / (U - L) + 1 / (b - a) + M) = B + (U - L) / (b - a) + (U - L) * M := by
      field_simp
    rw [e2] at h1
    have h2 : (U - L) / (b - a) ≤ 2 := by
      rw [div_le_iff₀ (by linarith)]
      linarith
    have h3 : (U - L) * M ≤ 1 * M := mul_le_mul_of_nonneg_right hw1 hM0
    linarith
  constructor
  · rw [le_div_iff₀ hN0]
    nlinarith
  · rw [div_le_iff₀ hN0]
    nlinarith

/-! ## Normal and beta distributions have one peak -/

theorem onePeak_normed {k : ℝ → ℝ} {m : ℝ} (hc : Continuous k) (h0 : ∀ x, 0 ≤ x → x ≤ 1 → 0 ≤ k x)
    (hp : ∀ x, 0 < x → x < 1 → 0 < k x) (hm : unit m)
    (h1 : ∀ x y, 0 ≤ x → x ≤ y → y ≤ m → k x ≤ k y) (h2 : ∀ x y, m ≤ x → x ≤ y → y ≤ 1 → k y ≤ k x) :
    OnePeak (normed k) (k m / ∫ y in (0 : ℝ)..1, k y) := by
  have hZ := integral_pos hc hp
  have nn : ∀ x, 0 ≤ normed k x := fun x => by
    by_cases hx : unit x
    · rw [normed_pos hx]; exact div_nonneg (h0 x hx.1 hx.2) hZ.le
    · rw [normed_neg hx]
  refine ⟨nn, fun x => ?_, ⟨m, fun x hx y hy hxy => ?_, fun x hx y hy hxy => ?_⟩, ?_⟩
  · by_cases hx : unit x
    · rw [normed_pos hx]
      apply div_le_div_of_nonneg_right _ hZ.le
      rcases le_total x m with h | h
      · exact h1 x m hx.1 h (le_refl _)
      · exact h2 m x (le_refl _) h hx.2
    · rw [normed_neg hx]; exact div_nonneg (h0 m hm.1 hm.2) hZ.le
  · by_cases hx0 : unit x
    · rw [normed_pos hx0, normed_pos ⟨hx0.1.trans hxy, (Set.mem_Iic.1 hy).trans hm.2⟩]
      exact div_le_div_of_nonneg_right (h1 x y hx0.1 hxy hy) hZ.le
    · rw [normed_neg hx0]; exact nn y
  · by_cases hy1 : unit y
    · rw [normed_pos hy1, normed_pos ⟨hm.1.trans hx, hxy.trans hy1.2⟩]
      exact div_le_div_of_nonneg_right (h2 x y hx hxy hy1.2) hZ.le
    · rw [normed_neg hy1]; exact nn x
  · have : ∫ x in (0 : ℝ)..1, normed k x = ∫ x in (0 : ℝ)..1, k x / ∫ y in (0 : ℝ)..1, k y := by
      apply intervalIntegral.integral_congr
      intro x hx
      rw [Set.uIcc_of_le (by norm_num)] at hx
      exact normed_pos hx
    rw [this, intervalIntegral.integral_div, div_self hZ.ne']

/-- Normal distributions satisfy the hypotheses. -/
theorem normal_onePeak (mu : ℝ) {sigma : ℝ} : OnePeak (normed (normalKernel mu sigma))
    (normalKernel mu sigma (clip mu 0 1) / ∫ y in (0 : ℝ)..1, normalKernel mu sigma y) := by
  have key : ∀ x y, (y - mu) ^ 2 ≤ (x - mu) ^ 2 → normalKernel mu sigma x ≤ normalKernel mu sigma y := by
    intro x y h
    unfold normalKernel
    apply Real.exp_le_exp.2
    apply div_le_div_of_nonneg_right _ (by positivity)
    linarith
  refine onePeak_normed (normalKernel_cont _ _) (fun x _ _ => (normalKernel_pos _ _ x).le) (fun x _ _ => normalKernel_pos _ _ x)
    (clip01 mu) (fun x y h0 hxy hy => key x y ?_) (fun x y hx hxy h1 => key y x ?_)
  · unfold clip at hy
    split_ifs at hy with c1 c2
    · have : x = y := le_antisymm hxy (hy.trans h0)
      rw [this]
    · nlinarith
    · nlinarith
  · unfold clip at hx
    split_ifs at hx with c1 c2
    · nlinarith
    · have : x = y := le_antisymm hxy (h1.trans hx)
      rw [this]
    · nlinarith

theorem betaKernel_deriv {a b x : ℝ} (h0 : 0 < x) (h1 : x < 1) :
    HasDerivAt (betaKernel a b) (x ^ (a - 1 - 1) * (1 - x) ^ (b - 1 - 1) * ((a - 1) * (1 - x) - (b - 1) * x)) x := by
  have d1 : HasDerivAt (fun x : ℝ => x ^ (a - 1)) ((a - 1) * x ^ (a - 1 - 1)) x := Real.hasDerivAt_rpow_const (.inl h0.ne')
  have d2 : HasDerivAt (fun x : ℝ => (1 - x) ^ (b - 1)) (-1 * (b - 1) * (1 - x) ^ (b - 1 - 1)) x :=
    ((hasDerivAt_id x).const_sub 1).rpow_const (.inl (by simp only [id]; linarith))
  have e1 : x ^ (a - 1) = x ^ (a - 1 - 1) * x := by
    rw [← Real.rpow_add_one h0.ne']; congr 1; ring
  have e2 : (1 - x) ^ (b - 1) = (1 - x) ^ (b - 1 - 1) * (1 - x) := by
    rw [← Real.rpow_add_one (by linarith)]; congr 1; ring
  have := d1.mul d2
  have hv : (a - 1) * x ^ (a - 1 - 1) * (1 - x) ^ (b - 1) + x ^ (a - 1) * (-1 * (b - 1) * (1 - x) ^ (b - 1 - 1)) =
      x ^ (a - 1 - 1) * (1 - x) ^ (b - 1 - 1) * ((a - 1) * (1 - x) - (b - 1) * x) := by
    rw [e1, e2]
    ring
  rw [hv] at this
  exact this

/-- So do beta distributions. -/
theorem beta_onePeak {a b : Rat} (ha : 1 ≤ a) (hb : 1 ≤ b) : OnePeak (normed (betaKernel a b))
    (betaKernel a b (betaMode a b : Rat) / ∫ y in (0 : ℝ)..1, betaKernel a b y) := by
  have ha' : (1 : ℝ) ≤ a := by exact_mod_cast ha
  have hb' : (1 : ℝ) ≤ b := by exact_mod_cast hb
  obtain ⟨m0, m1⟩ := betaMode_mem ha hb
  have hu : unit ((betaMode a b : Rat) : ℝ) := ⟨by exact_mod_cast m0, by exact_mod_cast m1⟩
  have hmode := Mode_betaMode ha hb
  have hmode' : ((a : ℝ) - 1) * (1 - (betaMode a b : Rat)) = ((b : ℝ) - 1) * (betaMode a b : Rat) := by
    unfold Mode at hmode
    split_ifs at hmode with hc
    · rw [hc.1, hc.2]; ring
    · linarith
  generalize ((betaMode a b : Rat) : ℝ) = m at hu hmode' ⊢
  have cont := betaKernel_cont ha' hb'
  refine onePeak_normed cont (fun x => betaKernel_nonneg) (fun x => betaKernel_pos) hu (fun x y h0 hxy hy => ?_)
    (fun x y hx hxy h1 => ?_)
  · refine monotoneOn_of_deriv_nonneg (convex_Icc 0 m) cont.continuousOn (fun x hx => ?_) (fun x hx => ?_)
      ⟨h0, hxy.trans hy⟩ ⟨h0.trans hxy, hy⟩ hxy
    all_goals rw [interior_Icc] at hx
    · exact (betaKernel_deriv hx.1 (hx.2.trans_le hu.2)).differentiableAt.differentiableWithinAt
    · rw [(betaKernel_deriv hx.1 (hx.2.trans_le hu.2)).deriv]
      have hx1 : x < 1 := hx.2.trans_le hu.2
      apply mul_nonneg (mul_nonneg (Real.rpow_nonneg hx.1.le _) (Real.rpow_nonneg (by linarith) _))
      have e1 : (a - 1 : ℝ) * (1 - m) ≤ (a - 1) * (1 - x) := mul_le_mul_of_nonneg_left (by linarith [hx.2]) (by linarith)
      have e2 : (b - 1 : ℝ) * x ≤ (b - 1) * m := mul_le_mul_of_nonneg_left hx.2.le (by linarith)
      linarith
  · refine antitoneOn_of_deriv_nonpos (convex_Icc m 1) cont.continuousOn (fun x hx => ?_) (fun x hx => ?_)
      ⟨hx, hxy.trans h1⟩ ⟨hx.trans hxy, h1⟩ hxy
    all_goals rw [interior_Icc] at hx
    · exact (betaKernel_deriv (hu.1.trans_lt hx.1) hx.2).differentiableAt.differentiableWithinAt
    · rw [(betaKernel_deriv (hu.1.trans_lt hx.1) hx.2).deriv]
      have hx0 : 0 < x := hu.1.trans_lt hx.1
      apply mul_nonpos_of_nonneg_of_nonpos (mul_nonneg (Real.rpow_nonneg hx0.le _) (Real.rpow_nonneg (by linarith [hx.2]) _))
      have e1 : (a - 1 : ℝ) * (1 - x) ≤ (a - 1) * (1 - m) := mul_le_mul_of_nonneg_left (by linarith [hx.1]) (by linarith)
      have e2 : (b - 1 : ℝ) * m ≤ (b - 1) * x := mul_le_mul_of_nonneg_left hx.1.le (by linarith)
      linarith

/-- Every such distribution has an inverse distribution function. -/
theorem quantile_exists (p : OnePeak rv M) : ∃ ppf, Quantile rv ppf := by
  have hcont : ContinuousOn (fun t => ∫ x in (0 : ℝ)..t, rv x) (Set.Icc 0 1) := by
    have := intervalIntegral.continuousOn_primitive_interval' (OnePeak.integrable p 0 1) (a := 0) (by simp)
    rwa [Set.uIcc_of_le (by norm_num)] at this
  have key : ∀ q : ℝ, 0 < q → q < 1 → ∃ t, 0 ≤ t ∧ t ≤ 1 ∧ ∫ x in (0 : ℝ)..t, rv x = q := by
    intro q h0 h1
    have := intermediate_value_Icc (by norm_num : (0 : ℝ) ≤ 1) hcont
    simp only [intervalIntegral.integral_same, p.one] at this
    obtain ⟨t, ht, e⟩ := this ⟨h0.le, h1.le⟩
    exact ⟨t, ht.1, ht.2, e⟩
  classical
  refine ⟨fun q => if h : 0 < q ∧ q < 1 then (key q h.1 h.2).choose else 0, fun q h0 h1 => ?_⟩
  dsimp only
  rw [dif_pos ⟨h0, h1⟩]
  exact (key q h0 h1).choose_spec

/-! ## Narrow normal distributions -/

theorem normal_mass {sigma : ℝ} (h1 : 0 < sigma) (h2 : sigma ≤ 1 / 100) :
    sigma ≤ ∫ y in (0 : ℝ)..1, normalKernel (1 / 2) sigma y := by
  have ii : ∀ a b, IntervalIntegrable (normalKernel (1 / 2) sigma) volume a b :=
    fun a b => (normalKernel_cont _ _).intervalIntegrable a b
  have nn : ∀ {a b : ℝ}, a ≤ b → 0 ≤ ∫ x in a..b, normalKernel (1 / 2) sigma x :=
    fun h => intervalIntegral.integral_nonneg h fun x _ => (normalKernel_pos _ _ x).le
  have e1 := intervalIntegral.integral_add_adjacent_intervals (ii 0 (1 / 2 - sigma)) (ii (1 / 2 - sigma) (1 / 2 + sigma))
  have e2 := intervalIntegral.integral_add_adjacent_intervals (ii 0 (1 / 2 + sigma)) (ii (1 / 2 + sigma) 1)
  have a1 := nn (a := 0) (b := 1 / 2 - sigma) (by linarith)
  have a2 := nn (a := 1 / 2 + sigma) (b := 1) (by linarith)
  have hexp : (1 : ℝ) / 2 ≤ Real.exp (-(1 / 2)) := by
    have := Real.add_one_le_exp (-(1 / 2) : ℝ)
    linarith
  have hm := intervalIntegral.integral_mono_on (by linarith : 1 / 2 - sigma ≤ 1 / 2 + sigma)
    (intervalIntegrable_const (c := (1 : ℝ) / 2)) (ii _ _) (fun x hx => by
      refine hexp.trans ?_
      unfold normalKernel
      apply Real.exp_le_exp.2
      rw [neg_div, neg_le_neg_iff, div_le_iff₀ (by positivity)]
      nlinarith [hx.1, hx.2])
  rw [intervalIntegral.integral_const, smul_eq_mul] at hm
  linarith

theorem exp_large : (10 : ℝ) ^ 20 ≤ Real.exp 1250 := by
  have e : Real.exp 1250 = Real.exp 125 ^ 10 := by rw [← Real.exp_nat_mul]; norm_num
  have h := Real.add_one_le_exp (125 : ℝ)
  rw [e]
  calc (10 : ℝ) ^ 20 ≤ 126 ^ 10 := by norm_num
    _ ≤ Real.exp 125 ^ 10 := pow_le_pow_left₀ (by norm_num) (by linarith) 10

theorem normal_tail {sigma x : ℝ} (h1 : 0.0000000001 ≤ sigma) (h2 : sigma ≤ 1 / 100) (hx : 50 * sigma ≤ |x - 1 / 2|) :
    normed (normalKernel (1 / 2) sigma) x ≤ 0.0000001 := by
  have hs : 0 < sigma := by linarith
  have hZ := normal_mass hs h2
  by_cases hu : unit x
  · rw [normed_pos hu, div_le_iff₀ (by linarith)]
    have hk : normalKernel (1 / 2) sigma x ≤ Real.exp (-1250) := by
      unfold normalKernel
      apply Real.exp_le_exp.2
      rw [neg_div, neg_le_neg_iff, le_div_iff₀ (by positivity)]
      have := pow_le_pow_left₀ (by positivity) hx 2
      rw [sq_abs] at this
      nlinarith
    have he : Real.exp (-1250) ≤ 1 / 10 ^ 20 := by
      rw [Real.exp_neg, ← one_div]
      exact one_div_le_one_div_of_le (by norm_num) exp_large
    have : (0.0000001 : ℝ) * 0.0000000001 ≤ 0.0000001 * ∫ y in (0 : ℝ)..1, normalKernel (1 / 2) sigma y :=
      mul_le_mul_of_nonneg_left (h1.trans hZ) (by norm_num)
    norm_num at he this ⊢
    linarith
  · rw [normed_neg hu]; norm_num

/-- All but a millionth of a narrow normal distribution lies within 50 standard deviations. -/
theorem normal_middle {sigma : ℝ} (h1 : 0.0000000001 ≤ sigma) (h2 : sigma ≤ 1 / 100)
    (hq : Quantile (normed (normalKernel (1 / 2) sigma)) ppf) :
    1 / 2 - 50 * sigma ≤ ppf 0.0000005 ∧ ppf 0.9999995 ≤ 1 / 2 + 50 * sigma := by
  have p := normal_onePeak (1 / 2) (sigma := sigma)
  obtain ⟨m, m1, m2⟩ := p.peak
  obtain ⟨l0, l1, lI⟩ := hq 0.0000005 (by norm_num) (by norm_num)
  obtain ⟨u0, u1, uI⟩ := hq 0.9999995 (by norm_num) (by norm_num)
  constructor
  · by_contra hcon
    have := cell_le m1 m2 l0 (c := 0.0000001) fun x _ hx => normal_tail h1 h2 (by
      rw [abs_of_nonpos (by linarith)]
      linarith)
    rw [lI] at this
    norm_num at this
    linarith
  · by_contra hcon
    have := cell_le m1 m2 u1 (c := 0.0000001) fun x hx _ => normal_tail h1 h2 (by
      rw [abs_of_nonneg (by linarith)]
      linarith)
    have e := intervalIntegral.integral_add_adjacent_intervals (OnePeak.integrable p 0 (ppf 0.9999995))
      (OnePeak.integrable p (ppf 0.9999995) 1)
    rw [uI, p.one] at e
    norm_num at this
    linarith

/-- **C120, false of the code:** for a normally distributed integer with more than ten million values whose mean is the middle of the
range, the densities of all values add up to at most 101 times the standard deviation (as a part of the range): to at most
0.101 if it is a thousandth of the range. -/
theorem C120_normal_too_small {sigma : ℝ} (hs : chunkSize < steps) (h1 : 1000 / ((steps : ℝ) - 1) ≤ sigma)
    (h1' : 0.0000000001 ≤ sigma) (h2 : sigma ≤ 1 / 100) (hq : Quantile (normed (normalKernel (1 / 2) sigma)) ppf) :
    ∃ d : ℝ → ℝ, (∀ x, pdf (normed (normalKernel (1 / 2) sigma)) ppf steps chunkSize x = some (d x)) ∧
      densitySum d steps ≤ 101 * sigma := by
  have hsp : 0 < sigma := by linarith
  have hB : (0 : ℝ) < (steps : ℝ) - 1 := by
    have : chunkSize = 10000000 := rfl
    have : ((2 : Nat) : ℝ) ≤ steps := by exact_mod_cast (by omega : 2 ≤ steps)
    push_cast at this
    linarith
  have hZ := normal_mass hsp h2
  have hM : normalKernel (1 / 2) sigma (clip (1 / 2) 0 1) / (∫ y in (0 : ℝ)..1, normalKernel (1 / 2) sigma y) ≤
      ((steps : ℝ) - 1) / 1000 := by
    have e : clip (1 / 2 : ℝ) 0 1 = 1 / 2 := by norm_num [clip]
    have e' : normalKernel (1 / 2) sigma (1 / 2) = 1 := by simp [normalKernel]
    rw [e, e', div_le_div_iff₀ (by linarith) (by norm_num)]
    rw [div_le_iff₀ hB] at h1
    nlinarith
  obtain ⟨d, hd, _, hd2⟩ := C120_sum_is_width (normal_onePeak (1 / 2)) hq hs hM
  obtain ⟨k1, k2⟩ := normal_middle h1' h2 hq
  refine ⟨d, hd, hd2.trans ?_⟩
  unfold middleWidth
  norm_num
  linarith

/-- **C120, false of the code:** with more than ten million values the densities may raise an exception: if all but a millionth of the
probability belongs to a single value. -/
theorem C120_raises (hs : chunkSize < steps) (hq : Quantile rv ppf)
    (h : ⌊ppf 0.0000005 * steps⌋ = ⌊ppf 0.9999995 * steps⌋) (x : ℝ) : pdf rv ppf steps chunkSize x = none := by
  obtain ⟨l0, l1, _⟩ := hq 0.0000005 (by norm_num) (by norm_num)
  obtain ⟨u0, u1, _⟩ := hq 0.9999995 (by norm_num) (by norm_num)
  have eL : (1 - confidence) / 2 = 0.0000005 := by norm_num [confidence]
  have eU : (1 + confidence) / 2 = 0.9999995 := by norm_num [confidence]
  have hmid : middle ppf steps chunkSize = (ppf 0.0000005, ppf 0.9999995) := by
    unfold middle
    rw [if_pos hs, eL, eU, max_eq_left l0, min_eq_left u1]
  have hqq : quantize (ppf 0.0000005) 0 1 steps = quantize (ppf 0.9999995) 0 1 steps := by
    unfold quantize
    simp only [and_self, if_true]
    rw [h]
  unfold pdf norm points
  rw [hmid]
  simp only
  rw [hqq]
  unfold linspaceReal
  rw [if_neg fun hc => lt_irrefl _ hc.2.2]
  rfl

/-- So it does for a narrow normal distribution on an odd number of values: asking for a density raises an exception. -/
theorem C120_normal_raises {k : Nat} {sigma : ℝ} (hs : chunkSize < 2 * k + 1) (h1 : 0.0000000001 ≤ sigma)
    (h2 : 100 * sigma * (2 * k + 1 : ℝ) < 1) (hq : Quantile (normed (normalKernel (1 / 2) sigma)) ppf) (x : ℝ) :
    pdf (normed (normalKernel (1 / 2) sigma)) ppf (2 * k + 1) chunkSize x = none := by
  have hc : chunkSize = 10000000 := rfl
  have hsp : 0 < sigma := by linarith
  have hk : (5000000 : ℝ) ≤ k := by exact_mod_cast (by omega : 5000000 ≤ k)
  have h3 : sigma ≤ 1 / 100 := by clear hs hc; nlinarith
  obtain ⟨k1, k2⟩ := normal_middle h1 h3 hq
  have p := normal_onePeak (1 / 2) (sigma := sigma)
  obtain ⟨l0, l1, lI⟩ := hq 0.0000005 (by norm_num) (by norm_num)
  obtain ⟨u0, u1, uI⟩ := hq 0.9999995 (by norm_num) (by norm_num)
  have hLU : ppf 0.0000005 ≤ ppf 0.9999995 := by
    by_contra hcon
    have e := intervalIntegral.integral_add_adjacent_intervals (OnePeak.integrable p 0 (ppf 0.9999995))
      (OnePeak.integrable p (ppf 0.9999995) (ppf 0.0000005))
    have := intervalIntegral.integral_nonneg (μ := volume) (not_le.1 hcon).le fun x _ => p.nonneg x
    rw [uI, lI] at e
    norm_num at e
    linarith
  have key : ∀ y, 1 / 2 - 50 * sigma ≤ y → y ≤ 1 / 2 + 50 * sigma → ⌊y * ((2 * k + 1 : Nat) : ℝ)⌋ = (k : Int) := by
    intro y a1 a2
    rw [Int.floor_eq_iff]
    push_cast
    clear hs hc
    constructor <;> nlinarith
  exact C120_raises hs hq ((key _ k1 (hLU.trans k2)).trans (key _ (k1.trans hLU) k2).symm) x

/-! ## Examples -/

example := C120_sum_close (ppf := id) (beta_onePeak (a := 1) (b := 1) (by norm_num) (by norm_num)) (steps := 100) (by norm_num) (by decide)
  (by
    have e : betaKernel ((1 : Rat) : ℝ) ((1 : Rat) : ℝ) = fun _ => 1 := by funext x; simp [betaKernel]
    rw [e]
    norm_num)

example : ∃ ppf, Quantile (normed (normalKernel (1 / 2) (1 / 1000))) ppf ∧
    ∃ d : ℝ → ℝ, (∀ x, pdf (normed (normalKernel (1 / 2) (1 / 1000))) ppf 20000000 chunkSize x = some (d x)) ∧
      densitySum d 20000000 ≤ 101 * (1 / 1000) := by
  obtain ⟨ppf, hq⟩ := quantile_exists (normal_onePeak (1 / 2) (sigma := 1 / 1000))
  exact ⟨ppf, hq, C120_normal_too_small (by decide) (by norm_num) (by norm_num) (by norm_num) hq⟩

example : ∃ ppf, Quantile (normed (normalKernel (1 / 2) 0.0000000005)) ppf ∧
    ∀ x, pdf (normed (normalKernel (1 / 2) 0.0000000005)) ppf (2 * 5000000 + 1) chunkSize x = none := by
  obtain ⟨ppf, hq⟩ := quantile_exists (normal_onePeak (1 / 2) (sigma := 0.0000000005))
  exact ⟨ppf, hq, C120_normal_raises (by decide) (by norm_num) (by norm_num) hq⟩

end Verif.Huge
