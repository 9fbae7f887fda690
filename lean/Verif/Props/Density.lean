import Verif.Spec.Density
import Verif.Props.Distributions
import Verif.Lemmas.Prior
import Mathlib.Analysis.MeanInequalities
import Mathlib.Analysis.SpecialFunctions.Integrals.Basic

/-!
# Densities: C78 (largest density) and C79 (densities of floats integrate to one)
-/

set_option autoImplicit false

namespace Verif
open Verif.Spec Verif.Dens Verif.Num

/-! ## The kernels -/

theorem normalKernel_pos (mu s x : ℝ) : 0 < normalKernel mu s x := Real.exp_pos _

theorem normalKernel_cont (mu s : ℝ) : Continuous (normalKernel mu s) := by unfold normalKernel; fun_prop

/-- The normal density on an interval is largest at the point closest to the mean. -/
theorem normalKernel_le {mu s x : ℝ} (h0 : 0 ≤ x) (h1 : x ≤ 1) : normalKernel mu s x ≤ normalKernel mu s (clip mu 0 1) := by
  unfold normalKernel
  apply Real.exp_le_exp.2
  have hs : 0 ≤ 2 * s ^ 2 := by positivity
  apply div_le_div_of_nonneg_right _ hs
  have : (clip mu 0 1 - mu) ^ 2 ≤ (x - mu) ^ 2 := by
    unfold clip
    split_ifs <;> nlinarith [sq_nonneg (x - mu)]
  linarith

theorem betaKernel_cont {a b : ℝ} (ha : 1 ≤ a) (hb : 1 ≤ b) : Continuous (betaKernel a b) := by
  unfold betaKernel
  have h1 : Continuous fun x : ℝ => x ^ (a - 1) := Real.continuous_rpow_const (by linarith)
  have h2 : Continuous fun x : ℝ => (1 - x) ^ (b - 1) :=
    (Real.continuous_rpow_const (by linarith)).comp (continuous_const.sub continuous_id)
  exact h1.mul h2

theorem betaKernel_pos {a b x : ℝ} (h0 : 0 < x) (h1 : x < 1) : 0 < betaKernel a b x :=
  mul_pos (Real.rpow_pos_of_pos h0 _) (Real.rpow_pos_of_pos (by linarith) _)

theorem betaKernel_nonneg {a b x : ℝ} (h0 : 0 ≤ x) (h1 : x ≤ 1) : 0 ≤ betaKernel a b x :=
  mul_nonneg (Real.rpow_nonneg h0 _) (Real.rpow_nonneg (by linarith) _)

/-- The density of a beta distribution is largest at its mode. -/
theorem betaKernel_le {a b m x : ℝ} (ha : 1 ≤ a) (hb : 1 ≤ b) (hm : Mode a b m) (h0 : 0 ≤ x) (h1 : x ≤ 1) :
    betaKernel a b x ≤ betaKernel a b m := by
  obtain ⟨p, rfl⟩ : ∃ p, a = p + 1 := ⟨a - 1, by ring⟩
  obtain ⟨q, rfl⟩ : ∃ q, b = q + 1 := ⟨b - 1, by ring⟩
  have hp : 0 ≤ p := by linarith
  have hq : 0 ≤ q := by linarith
  unfold Mode at hm
  unfold betaKernel
  rw [add_sub_cancel_right, add_sub_cancel_right]
  split_ifs at hm with hc
  · have e1 : p = 0 := by linarith [hc.1]
    have e2 : q = 0 := by linarith [hc.2]
    rw [e1, e2]; simp
  · have hm' : m * (p + q) = p := by linarith
    rcases hp.eq_or_lt with hp0 | hp0
    · have hq0 : 0 < q := by
        rcases hq.eq_or_lt with h | h
        · exact absurd ⟨by linarith, by linarith⟩ hc
        · exact h
      have : m = 0 := by
        rw [← hp0, zero_add] at hm'
        rcases mul_eq_zero.1 hm' with h | h
        · exact h
        · exact absurd h hq0.ne'
      rw [← hp0, this]
      simp only [Real.rpow_zero, one_mul, sub_zero, Real.one_rpow]
      exact Real.rpow_le_one (by linarith) (by linarith) hq
    · rcases hq.eq_or_lt with hq0 | hq0
      · have : m = 1 := by
          rw [← hq0, add_zero] at hm'
          exact mul_right_cancel₀ hp0.ne' (by linarith)
        rw [← hq0, this]
        simp only [Real.rpow_zero, mul_one, Real.one_rpow]
        exact Real.rpow_le_one h0 h1 hp
      · have hs : 0 < p + q := by linarith
        have em : m = p / (p + q) := by rw [eq_div_iff hs.ne', hm']
        have hm0 : 0 < m := by rw [em]; positivity
        have hm1 : m < 1 := by rw [em, div_lt_one hs]; linarith
        have en : 1 - m = q / (p + q) := by rw [em]; field_simp; ring
        have hn0 : 0 < 1 - m := by linarith
        have hx : 0 ≤ x / m := div_nonneg h0 hm0.le
        have hy : 0 ≤ (1 - x) / (1 - m) := div_nonneg (by linarith) hn0.le
        have key := Real.geom_mean_le_arith_mean2_weighted hm0.le hn0.le hx hy (by ring)
        have e : m * (x / m) + (1 - m) * ((1 - x) / (1 - m)) = 1 := by
          rw [mul_div_cancel₀ _ hm0.ne', mul_div_cancel₀ _ hn0.ne']; ring
        rw [e] at key
        have key2 := Real.rpow_le_one (mul_nonneg (Real.rpow_nonneg hx _) (Real.rpow_nonneg hy _)) key hs.le
        rw [Real.mul_rpow (Real.rpow_nonneg hx _) (Real.rpow_nonneg hy _), ← Real.rpow_mul hx, ← Real.rpow_mul hy, hm',
          show (1 - m) * (p + q) = q by linarith, Real.div_rpow h0 hm0.le, Real.div_rpow (by linarith) hn0.le] at key2
        have hmp : 0 < m ^ p := Real.rpow_pos_of_pos hm0 _
        have hnq : 0 < (1 - m) ^ q := Real.rpow_pos_of_pos hn0 _
        rw [div_mul_div_comm, div_le_one (mul_pos hmp hnq)] at key2
        exact key2

theorem integral_pos {k : ℝ → ℝ} (hc : Continuous k) (hp : ∀ x, 0 < x → x < 1 → 0 < k x) : 0 < ∫ y in (0 : ℝ)..1, k y :=
  intervalIntegral.intervalIntegral_pos_of_pos_on (hc.intervalIntegrable _ _) (fun x hx => hp x hx.1 hx.2) (by norm_num)

/-! ## C78 -/

theorem pdfVector_pos {legal : ℝ → Prop} {d : VDist} {x : ℝ} (h : legal x) : pdfVector legal d x = d.pdf x := by
  unfold pdfVector
  rw [if_pos h, mul_one]

/-- Entries that are not legal have the density zero. -/
theorem C78_illegal {legal : ℝ → Prop} {d : VDist} {x : ℝ} (h : ¬ legal x) : pdfVector legal d x = 0 := by
  unfold pdfVector
  rw [if_neg h, mul_zero]

theorem pdfVector_le {legal : ℝ → Prop} {d : VDist} {x m : ℝ} (h0 : 0 ≤ m) (h : d.pdf x ≤ m) : pdfVector legal d x ≤ m := by
  by_cases hl : legal x
  · rw [pdfVector_pos hl]; exact h
  · rw [C78_illegal hl]; exact h0

theorem normed_pos {k : ℝ → ℝ} {x : ℝ} (h : unit x) : normed k x = k x / ∫ y in (0 : ℝ)..1, k y := by
  unfold normed
  exact if_pos h

theorem normed_neg {k : ℝ → ℝ} {x : ℝ} (h : ¬ unit x) : normed k x = 0 := by
  unfold normed
  exact if_neg h

theorem normed_max {k : ℝ → ℝ} {p : ℝ} (hZ : 0 < ∫ y in (0 : ℝ)..1, k y) (hp : unit p) (hk : 0 ≤ k p)
    (hmax : ∀ x, unit x → k x ≤ k p) : MaxDensityRight unit (scipyContinuous (normed k) p) := by
  have hm : 0 ≤ k p / ∫ y in (0 : ℝ)..1, k y := div_nonneg hk hZ.le
  have e : getMaxDensity (scipyContinuous (normed k) p) = k p / ∫ y in (0 : ℝ)..1, k y := normed_pos hp
  refine ⟨fun x => ?_, p, hp, ?_⟩
  · rw [e]
    refine pdfVector_le hm ?_
    show normed k x / 1 ≤ _
    rw [div_one]
    by_cases hx : unit x
    · rw [normed_pos hx]
      exact div_le_div_of_nonneg_right (hmax x hx) hZ.le
    · rw [normed_neg hx]; exact hm
  · rw [pdfVector_pos hp]
    exact div_one _

theorem clip01 (x : ℝ) : unit (clip x 0 1) := clip_mem (by norm_num)

/-- **C78**, normal distributed floats on both scales: the reported largest density is the largest density. -/
theorem C78_normal_float (l u : ℝ) (log : Bool) (mu sigma : ℝ) : MaxDensityRight unit (normalFloat l u log mu sigma) :=
  normed_max (integral_pos (normalKernel_cont _ _) fun x _ _ => normalKernel_pos _ _ x) (clip01 _) (normalKernel_pos _ _ _).le
    fun _ hx => normalKernel_le hx.1 hx.2

/-- **C78**, beta distributed floats. -/
theorem C78_beta_float {a b : Rat} (ha : 1 ≤ a) (hb : 1 ≤ b) : MaxDensityRight unit (betaFloat a b) := by
  have ha' : (1 : ℝ) ≤ a := by exact_mod_cast ha
  have hb' : (1 : ℝ) ≤ b := by exact_mod_cast hb
  obtain ⟨m0, m1⟩ := betaMode_mem ha hb
  have hu : unit ((betaMode a b : Rat) : ℝ) := ⟨by exact_mod_cast m0, by exact_mod_cast m1⟩
  exact normed_max (integral_pos (betaKernel_cont ha' hb') fun x h0 h1 => betaKernel_pos h0 h1) hu
    (betaKernel_nonneg hu.1 hu.2) fun x hx => betaKernel_le ha' hb' (Mode_betaMode ha hb) hx.1 hx.2

/-- **C78**, uniform floats. -/
theorem C78_uniform_float {l u : ℝ} (h : l < u) : MaxDensityRight unit (uniformFloat l u) := by
  have hp : 0 < 1 / (u - l) := by have := sub_pos.2 h; positivity
  refine ⟨fun x => pdfVector_le hp.le ?_, 0, ⟨le_refl _, by norm_num⟩, ?_⟩
  · unfold uniformFloat
    dsimp only
    split_ifs
    · exact le_refl _
    · exact hp.le
  · rw [pdfVector_pos ⟨le_refl _, by norm_num⟩]
    exact if_pos ⟨le_refl _, by norm_num⟩

theorem legalIntK_self {l u n : Int} (h1 : l ≤ n) (h2 : n ≤ u) : legalIntK l u (n : ℝ) := by
  refine ⟨?_, ?_, closeToIntK_int n⟩ <;> rwa [rintK_int]

/-- **C78**, uniform integers on the linear scale. -/
theorem C78_uniform_integer {l u : Int} (h : l < u) : MaxDensityRight (legalVecArray l u) (uniformInteger (u - l + 1).toNat) := by
  have hsz : 2 ≤ (u - l + 1).toNat := by omega
  obtain ⟨h1, _, h3, _⟩ := C47_uniform_integer (K := ℝ) hsz
  have hn : ∀ x : ℝ, 0 ≤ uniformIntPdf (u - l + 1).toNat x := by
    intro x
    unfold uniformIntPdf
    split_ifs
    · positivity
    · exact le_refl _
  have h0 : legalVecArray l u (0 : ℝ) := by
    unfold legalVecArray
    rw [scale_zero]
    exact legalIntK_self (le_refl _) h.le
  refine ⟨fun x => pdfVector_le ((hn x).trans (h3 x)) (h3 x), 0, h0, ?_⟩
  rw [pdfVector_pos h0]
  have := h1 0 (by omega)
  rw [Nat.cast_zero, zero_div] at this
  exact this

/-- **C78**, uniform integers on the logarithmic scale. -/
theorem C78_uniform_log_integer {l u : Int} (hl : 0 < l) (h : l < u) :
    MaxDensityRight (legalVecLogInt l u) (uniformLogInteger (u - l + 1).toNat) := by
  have hp : (0 : ℝ) ≤ 1 / ((u - l + 1).toNat : ℝ) := by positivity
  have h0 : legalVecLogInt l u 0 := by
    unfold legalVecLogInt
    rw [unsafeLog_eq (by exact_mod_cast hl) (by exact_mod_cast hl.trans h), Real.rpow_zero, mul_one]
    exact legalIntK_self (le_refl _) h.le
  refine ⟨fun x => pdfVector_le hp ?_, 0, h0, ?_⟩
  · unfold uniformLogInteger
    dsimp only
    split_ifs
    · exact le_refl _
    · exact hp
  · rw [pdfVector_pos h0]
    exact if_pos ⟨le_refl _, zero_le_one⟩

/-- **C78**, choices without weights. -/
theorem C78_choices {size : Nat} (h : 1 ≤ size) : MaxDensityRight (index size) (choices size) := by
  have hp : (0 : ℝ) ≤ 1 / (size : ℝ) := by positivity
  have hs : (1 : ℝ) ≤ size := by exact_mod_cast h
  have h0 : closeToIntK (0 : ℝ) := by
    have := closeToIntK_int (K := ℝ) 0
    exact_mod_cast this
  have hl : index size 0 := ⟨le_refl _, by linarith, h0⟩
  refine ⟨fun x => pdfVector_le hp ?_, 0, hl, ?_⟩
  · unfold choices
    dsimp only
    split_ifs
    · exact le_refl _
    · exact hp
  · rw [pdfVector_pos hl]
    exact if_pos ⟨le_refl _, by linarith, h0⟩

theorem foldl_max_ge {xs : List ℝ} {a : ℝ} : a ≤ xs.foldl max a ∧ ∀ x ∈ xs, x ≤ xs.foldl max a := by
  induction xs generalizing a with
  | nil => exact ⟨le_refl _, by simp⟩
  | cons y ys ih =>
    obtain ⟨h1, h2⟩ := ih (a := max a y)
    refine ⟨(le_max_left _ _).trans h1, ?_⟩
    intro x hx
    rcases List.mem_cons.1 hx with rfl | hx
    · exact (le_max_right _ _).trans h1
    · exact h2 x hx

theorem foldl_max_mem {xs : List ℝ} {a : ℝ} : xs.foldl max a = a ∨ xs.foldl max a ∈ xs := by
  induction xs generalizing a with
  | nil => exact .inl rfl
  | cons y ys ih =>
    rcases ih (a := max a y) with h | h
    · rcases max_choice a y with h' | h'
      · left; show ys.foldl max (max a y) = a; rw [h, h']
      · right; show ys.foldl max (max a y) ∈ _; rw [h, h']; exact List.mem_cons_self ..
    · right; exact List.mem_cons_of_mem _ h

/-- **C78**, weighted choices. -/
theorem C78_weighted {size : Nat} {ws : List ℝ} (hl : ws.length = size) (hn : ∀ w ∈ ws, 0 ≤ w) (hs : ∃ w ∈ ws, w ≠ 0) :
    MaxDensityRight (index size) (weighted size ws) := by
  obtain ⟨w0, hw0, hw0n⟩ := hs
  have hsum : 0 < ws.sum :=
    lt_of_lt_of_le (lt_of_le_of_ne (hn w0 hw0) (Ne.symm hw0n)) (List.single_le_sum hn w0 hw0)
  set probs := probabilities size (some ws) with hpr
  have hprobs : probs = ws.map (· / ws.sum) := rfl
  have hlen : probs.length = size := by rw [hprobs, List.length_map, hl]
  obtain ⟨d1, _, _, d4⟩ := C47_weighted_density (K := ℝ) (probs := probs)
  obtain ⟨m1, m2⟩ := foldl_max_ge (xs := probs) (a := 0)
  have hmax : getMaxDensity (weighted size ws) = probs.foldl max 0 := rfl
  refine ⟨fun x => pdfVector_le m1 (d4 _ x m1 m2), ?_⟩
  · have hmem : probs.foldl max 0 ∈ probs := by
      rcases foldl_max_mem (xs := probs) (a := 0) with h | h
      · exfalso
        have h1 := m2 (w0 / ws.sum) (by rw [hprobs]; exact List.mem_map.2 ⟨w0, hw0, rfl⟩)
        rw [h] at h1
        have h2 : 0 < w0 / ws.sum := div_pos (lt_of_le_of_ne (hn w0 hw0) (Ne.symm hw0n)) hsum
        linarith
      · exact h
    obtain ⟨i, hi, he⟩ := List.getElem_of_mem hmem
    have hix : index size (i : ℝ) := by
      refine ⟨by positivity, ?_, by exact_mod_cast closeToIntK_int (K := ℝ) (i : Int)⟩
      rw [← hlen]; exact_mod_cast hi
    refine ⟨i, hix, ?_⟩
    rw [pdfVector_pos hix]
    exact (d1 i hi).trans he

/-- **C78**, constants. -/
theorem C78_constant : MaxDensityRight (fun x => x = 1) constant := by
  refine ⟨fun x => pdfVector_le zero_le_one ?_, 1, rfl, ?_⟩
  · unfold constant
    dsimp only
    show _ ≤ (1 : ℝ)
    split_ifs <;> norm_num
  · rw [pdfVector_pos (legal := fun x => x = 1) rfl]
    exact if_pos rfl

theorem betaKernel_one (x : ℝ) : betaKernel 1 1 x = 1 := by simp [betaKernel]

theorem normed_one {x : ℝ} (h : unit x) : normed (betaKernel 1 1) x = 1 := by
  rw [normed_pos h, betaKernel_one, show (betaKernel 1 1) = fun _ => (1 : ℝ) from funext betaKernel_one]
  simp

theorem pdfPoints_unit {steps : Nat} {x : ℝ} (h : x ∈ pdfPoints (K := ℝ) steps) : unit x := by
  unfold pdfPoints linspace at h
  simp only [Bool.false_eq_true, if_false, List.mem_map, List.mem_range] at h
  obtain ⟨i, hi, rfl⟩ := h
  rw [if_neg (by omega)]
  have h1 : (i : ℝ) ≤ steps := by exact_mod_cast hi.le
  have h0 : (0 : ℝ) < steps := by
    have : 0 < steps := by omega
    exact_mod_cast this
  constructor
  · simp; positivity
  · simp only [sub_zero, zero_add]
    rw [mul_one_div, div_le_one h0]; exact h1

theorem legalVecArray_grid {l u : Int} (h : l < u) {i : Nat} (hi : i ≤ (u - l).toNat) :
    legalVecArray l u ((i : ℝ) / ((u : ℝ) - l)) := by
  have hd : (0 : ℝ) < (u : ℝ) - l := by
    have : (l : ℝ) < u := by exact_mod_cast h
    linarith
  unfold legalVecArray scale
  rw [div_mul_cancel₀ _ hd.ne']
  have := legalIntK_self (l := l) (u := u) (n := i + l) (by omega) (by omega)
  push_cast at this
  exact this

/-- C78, false of the code: for normal and beta distributed integers the reported number is not divided by the sum by which the
densities are divided.  With a beta distribution with parameters 1 and 1 all integers of the range have the same density, one
divided by their number, but the reported largest density is 1. -/
theorem C78_discretized_wrong {l u : Int} (h : l < u) :
    (∀ i : Nat, i ≤ (u - l).toNat → pdfVector (legalVecArray l u) (discretized (normed (betaKernel 1 1)) (u - l + 1).toNat)
      (i / ((u : ℝ) - l)) = 1 / ((u : ℝ) - l + 1)) ∧
    getMaxDensity (discretized (normed (betaKernel 1 1)) (u - l + 1).toNat) = 1 := by
  have hsz : 2 ≤ (u - l + 1).toNat := by omega
  have hcast : (((u - l + 1).toNat : Nat) : ℝ) = (u : ℝ) - l + 1 := by
    have : (((u - l + 1).toNat : Int)) = u - l + 1 := by omega
    exact_mod_cast congrArg (Int.cast (R := ℝ)) this
  generalize (u - l + 1).toNat = size at hsz hcast ⊢
  have hs : (0 : ℝ) < (size : ℝ) - 1 := by
    have : (2 : ℝ) ≤ size := by exact_mod_cast hsz
    linarith
  have hul : (u : ℝ) - l = (size : ℝ) - 1 := by linarith
  have hpts : (pdfPoints (K := ℝ) size).map (normed (betaKernel 1 1)) = List.replicate size 1 := by
    rw [List.eq_replicate_iff]
    constructor
    · simp [pdfPoints, linspace]
    · intro y hy
      obtain ⟨x, hx, rfl⟩ := List.mem_map.1 hy
      exact normed_one (pdfPoints_unit hx)
  constructor
  · intro i hi
    have hi' : (i : ℝ) ≤ (size : ℝ) - 1 := by
      rw [← hul]
      have : (i : Int) ≤ u - l := by omega
      exact_mod_cast this
    have hu : unit ((i : ℝ) / ((size : ℝ) - 1)) := ⟨by positivity, (div_le_one hs).2 hi'⟩
    rw [pdfVector_pos (legalVecArray_grid h hi), hul, ← hcast.trans (by linarith : (u : ℝ) - l + 1 = (size : ℝ) - 1 + 1)]
    refine (if_pos hu).trans ?_
    unfold discretizedPdf
    rw [hpts, normed_one hu]
    simp
  · show ((pdfPoints (K := ℝ) size).map (normed (betaKernel 1 1))).foldl max 0 = 1
    rw [hpts]
    obtain ⟨a, b⟩ := foldl_max_ge (xs := List.replicate size (1 : ℝ)) (a := 0)
    rcases foldl_max_mem (xs := List.replicate size (1 : ℝ)) (a := 0) with e | e
    · rw [e] at b
      have := b 1 (List.mem_replicate.2 ⟨by omega, rfl⟩)
      linarith
    · exact (List.mem_replicate.1 e).2

/-- C78, false of the code: the reported number may also be too small.  With a beta distribution with parameters 2 and 1 on two
integers the upper one has the density 2, and the reported largest density is 1. -/
theorem C78_discretized_too_small :
    pdfVector (legalVecArray 0 1) (discretized (normed (betaKernel 2 1)) 2) 1 = 2 ∧
    getMaxDensity (discretized (normed (betaKernel 2 1)) 2) = 1 := by
  have hk : betaKernel 2 1 = fun x : ℝ => x := by
    funext x
    simp [betaKernel]
    norm_num
  have hI : (∫ y in (0 : ℝ)..1, y) = 1 / 2 := by rw [integral_id]; norm_num
  have hn : ∀ x, unit x → normed (betaKernel 2 1) x = 2 * x := by
    intro x hx
    rw [normed_pos hx, hk]
    simp only
    rw [hI]; ring
  have hpts : (pdfPoints (K := ℝ) 2).map (normed (betaKernel 2 1)) = [0, 1] := by
    have : pdfPoints (K := ℝ) 2 = [0, 1 / 2] := by
      simp [pdfPoints, linspace, List.range_succ]
    rw [this]
    simp only [List.map_cons, List.map_nil]
    rw [hn 0 ⟨le_refl _, by norm_num⟩, hn (1 / 2) ⟨by norm_num, by norm_num⟩]
    norm_num
  constructor
  · have hg := legalVecArray_grid (l := 0) (u := 1) (by norm_num) (i := 1) (by decide)
    norm_num at hg
    rw [pdfVector_pos hg]
    refine (if_pos ⟨by norm_num, le_refl _⟩).trans ?_
    unfold discretizedPdf
    rw [hpts, hn 1 ⟨by norm_num, le_refl _⟩]
    norm_num
  · show ((pdfPoints (K := ℝ) 2).map (normed (betaKernel 2 1))).foldl max 0 = 1
    rw [hpts]
    simp

/-! ## C79 -/

theorem integral_unit (f g : ℝ → ℝ) (h : ∀ x, unit x → f x = g x) : (∫ x in (0 : ℝ)..1, f x) = ∫ x in (0 : ℝ)..1, g x := by
  apply intervalIntegral.integral_congr
  intro x hx
  rw [Set.uIcc_of_le (by norm_num)] at hx
  exact h x hx

theorem normed_integral {k : ℝ → ℝ} {p : ℝ} (hZ : 0 < ∫ y in (0 : ℝ)..1, k y) :
    ∫ x in (0 : ℝ)..1, pdfVector unit (scipyContinuous (normed k) p) x = 1 := by
  rw [integral_unit _ (fun x => k x / ∫ y in (0 : ℝ)..1, k y)]
  · rw [intervalIntegral.integral_div, div_self hZ.ne']
  · intro x hx
    rw [pdfVector_pos hx]
    show normed k x / 1 = _
    rw [div_one, normed_pos hx]

/-- **C79** (partial: normal and beta distributed floats): the densities of the entries of a float integrate to one. -/
theorem C79_float_density_partial :
    (∀ (l u : ℝ) (log : Bool) (mu sigma : ℝ), ∫ x in (0 : ℝ)..1, pdfVector unit (normalFloat l u log mu sigma) x = 1) ∧
    (∀ a b : Rat, 1 ≤ a → 1 ≤ b → ∫ x in (0 : ℝ)..1, pdfVector unit (betaFloat a b) x = 1) := by
  constructor
  · intro l u log mu sigma
    exact normed_integral (integral_pos (normalKernel_cont _ _) fun x _ _ => normalKernel_pos _ _ x)
  · intro a b ha hb
    have ha' : (1 : ℝ) ≤ a := by exact_mod_cast ha
    have hb' : (1 : ℝ) ≤ b := by exact_mod_cast hb
    exact normed_integral (integral_pos (betaKernel_cont ha' hb') fun x h0 h1 => betaKernel_pos h0 h1)

/-- C79, false of the code: the densities of the entries of a uniform float integrate to one only if its range has the length
one: they are densities of values instead. -/
theorem C79_uniform_float_wrong {l u : ℝ} (h : l < u) :
    (∫ x in (0 : ℝ)..1, pdfVector unit (uniformFloat l u) x) = 1 / (u - l) ∧
    ((∫ x in (0 : ℝ)..1, pdfVector unit (uniformFloat l u) x) = 1 ↔ u - l = 1) := by
  have e : (∫ x in (0 : ℝ)..1, pdfVector unit (uniformFloat l u) x) = 1 / (u - l) := by
    rw [integral_unit _ (fun _ => 1 / (u - l))]
    · simp
    · intro x hx
      rw [pdfVector_pos hx]
      exact if_pos hx
  refine ⟨e, ?_⟩
  rw [e, div_eq_one_iff_eq (sub_pos.2 h).ne', eq_comm]

/-- C79: the densities of values (those of their entries) of a uniform float on the linear scale integrate to one over the range,
but those of every other float on the linear scale integrate to the length of the range, so that densities of different
hyperparameters are not comparable. -/
theorem C79_value_densities {l u : ℝ} (h : l < u) :
    (∫ v in l..u, pdfVector unit (uniformFloat l u) (normalize v l u)) = 1 ∧
    (∀ mu sigma : ℝ, (∫ v in l..u, pdfVector unit (normalFloat l u false mu sigma) (normalize v l u)) = u - l) ∧
    (∀ a b : Rat, 1 ≤ a → 1 ≤ b → (∫ v in l..u, pdfVector unit (betaFloat a b) (normalize v l u)) = u - l) := by
  have hd : 0 < u - l := sub_pos.2 h
  have key : ∀ f : ℝ → ℝ, (∫ v in l..u, f (normalize v l u)) = (u - l) * ∫ x in (0 : ℝ)..1, f x := by
    intro f
    have e : ∀ v, normalize v l u = v / (u - l) - l / (u - l) := by
      intro v
      rw [normalize_def, sub_div]
    simp_rw [e]
    rw [intervalIntegral.integral_comp_div_sub (fun x => f x) hd.ne', ← sub_div, ← sub_div, sub_self, zero_div,
      div_self hd.ne', smul_eq_mul]
  refine ⟨?_, ?_, ?_⟩
  · rw [key, (C79_uniform_float_wrong h).1, mul_one_div, div_self hd.ne']
  · intro mu sigma
    rw [key (fun x => pdfVector unit (normalFloat l u false mu sigma) x), C79_float_density_partial.1, mul_one]
  · intro a b ha hb
    rw [key (fun x => pdfVector unit (betaFloat a b) x), C79_float_density_partial.2 a b ha hb, mul_one]

example : MaxDensityRight unit (betaFloat 3 2) ∧ getMaxDensity (choices 4) = 1 / 4 ∧
    MaxDensityRight (index 2) (weighted 2 [1, 3]) :=
  ⟨C78_beta_float (by norm_num) (by norm_num), by simp [getMaxDensity, choices],
    C78_weighted rfl (by simp) ⟨1, by simp, by norm_num⟩⟩

/-! ## The theorems applied to concrete ranges -/

example := C78_uniform_float (l := 0) (u := 2) (by norm_num)
example := C78_uniform_integer (l := -3) (u := 5) (by decide)
example := C78_uniform_log_integer (l := 1) (u := 100) (by decide) (by decide)
example := C78_choices (size := 3) (by decide)
example := C78_discretized_wrong (l := 0) (u := 4) (by decide)
example := C79_uniform_float_wrong (l := 0) (u := 2) (by norm_num)
example := (C79_value_densities (l := 0) (u := 2) (by norm_num)).2.2 3 2 (by norm_num) (by norm_num)

end Verif
