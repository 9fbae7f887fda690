import Verif.Props.F64Sample
import Verif.Lemmas.F64Grid

/-!
# C109: the values of a grid in double precision, on linear and logarithmic scales

The values a grid is made of are wanted to be legal, in ascending order, from the lower to the upper bound, and evenly spaced on the
scale of the hyperparameter.
-/

set_option autoImplicit false

namespace Verif.F64
open Verif Verif.Num

section
variable {K : Type} [Field K] [LinearOrder K] [IsStrictOrderedRing K] [FloorRing K] {lg ex : K → K}

theorem gridRaw_length (log : Bool) (a b : K) (n : Nat) : (gridRaw lg ex log a b n).length = n := by
  unfold gridRaw
  split <;> simp [linspace_length]

theorem rintK_monoK {x y : K} (h : x ≤ y) : rintK x ≤ rintK y := by
  by_contra hc
  have hc : rintK y + 1 ≤ rintK x := by omega
  have h1 := rintK_dist x
  have h2 := rintK_dist y
  have hc' : ((rintK y : Int) : K) + 1 ≤ (rintK x : K) := by exact_mod_cast hc
  rw [abs_le] at h1 h2
  have : x = y := by linarith
  rw [this] at hc
  omega

/-- **C109.** No steps: an exception, for floats and for integers. -/
theorem C109_no_steps (log : Bool) (a b : K) (l u : Int) : gridFloats lg ex log a b 0 = none ∧ gridInts lg ex log l u 0 = none := by
  have h1 : ∀ x y : K, gridRaw lg ex log x y 0 = [] := fun x y => List.eq_nil_of_length_eq_zero (gridRaw_length log x y 0)
  constructor
  · unfold gridFloats; rw [h1]; rfl
  · unfold gridInts; rw [h1]; rfl

theorem clampEnds_one {N : Type} [LinearOrder N] {lo hi : N} (h : lo ≤ hi) {xs : List N} (hx : xs.length = 1) :
    ∃ x, clampEnds lo hi xs = some [x] ∧ lo ≤ x ∧ x ≤ hi := by
  obtain ⟨x, rfl⟩ := List.length_eq_one_iff.1 hx
  unfold clampEnds
  by_cases h1 : x < lo
  · refine ⟨lo, ?_, le_refl _, h⟩
    simp [h1, not_lt.2 h]
  · by_cases h2 : hi < x
    · refine ⟨hi, ?_, h, le_refl _⟩
      simp [h1, h2]
    · refine ⟨x, ?_, not_lt.1 h1, not_lt.1 h2⟩
      simp [h1, h2]

/-- **C109.** One step: one value within the bounds, on either scale, whatever the logarithm and the exponential function compute. -/
theorem C109_one_step (log : Bool) {a b : K} (hab : a ≤ b) {l u : Int} (hlu : l ≤ u) :
    (∃ x, gridFloats lg ex log a b 1 = some [x] ∧ rd a ≤ x ∧ x ≤ rd b) ∧
    (∃ m, gridInts lg ex log l u 1 = some [m] ∧ l ≤ m ∧ m ≤ u) :=
  ⟨clampEnds_one (rd_mono hab) (gridRaw_length log _ _ 1), clampEnds_one hlu (by rw [List.length_map, gridRaw_length])⟩

/-- The numbers on a linear scale, before the corrections. -/
theorem linspace_facts {a b : K} (ha : IsF64 a) (hb : IsF64 b) (hgap : (2 : K) ^ (-900 : Int) ≤ b - a) {n : Nat} (hn : 2 ≤ n) (hn' : n ≤ 2 ^ 50) :
    (linspace a b n true).head? = some a ∧ (linspace a b n true).getLast? = some b ∧ (linspace a b n true).Pairwise (· ≤ ·) ∧
    (∀ x ∈ linspace a b n true, a ≤ x ∧ x ≤ b) ∧
    ∀ (i : Nat) x, (linspace a b n true)[i]? = some x →
      |x - (a + (i : K) / ((n - 1 : Nat) : K) * (b - a))| ≤ max |a| |b| / 2 ^ 49 + 2 ^ (-998 : Int) := by
  have hlen := linspace_length a b n true
  have h0 : (0 : K) < 2 ^ (-900 : Int) := by positivity
  have hrange : ∀ x ∈ linspace a b n true, a ≤ x ∧ x ≤ b := by
    intro x hx
    obtain ⟨i, hi⟩ := List.mem_iff_getElem?.1 hx
    have hin : i < n := by
      by_contra hc
      rw [List.getElem?_eq_none (by omega)] at hi
      cases hi
    rw [linspace_get hin] at hi
    split at hi
    · cases hi
      exact ⟨by linarith, le_refl _⟩
    · cases hi
      exact ⟨innerPoint_ge ha hb hgap hn hn' i, innerPoint_le ha hb hgap hn hn' (by omega)⟩
  refine ⟨?_, ?_, ?_, hrange, ?_⟩
  · rw [List.head?_eq_getElem?, linspace_get (by omega), if_neg (by omega), innerPoint_zero ha]
  · rw [List.getLast?_eq_getElem?, hlen, linspace_get (by omega), if_pos (by omega)]
  · rw [List.pairwise_iff_getElem]
    intro i j hi hj hij
    have e1 := List.getElem?_eq_getElem hi
    have e2 := List.getElem?_eq_getElem hj
    rw [linspace_get (by omega)] at e1 e2
    rw [← Option.some.inj e1, ← Option.some.inj e2, if_neg (by omega)]
    split
    · exact innerPoint_le ha hb hgap hn hn' (by omega)
    · exact innerPoint_mono ha hb hgap hn hn' hij.le
  · intro i x hi
    have hin : i < n := by
      by_contra hc
      rw [List.getElem?_eq_none (by omega)] at hi
      cases hi
    have hM : 0 ≤ max |a| |b| / 2 ^ 49 := by positivity
    have h2 : (0 : K) < 2 ^ (-998 : Int) := by positivity
    rw [linspace_get hin] at hi
    split at hi
    · rename_i hc
      cases hi
      rw [hc.2, div_self (by exact_mod_cast (by omega : n - 1 ≠ 0))]
      rw [show b - (a + 1 * (b - a)) = 0 by ring, abs_zero]
      linarith
    · cases hi
      exact innerPoint_near ha hb hgap hn hn' hin (le_max_left _ _) (le_max_right _ _)

/-- **C109.** On a linear scale the values of a float are as many as wanted, from the lower to the upper bound, in ascending order,
within the bounds, and evenly spaced up to the rounding. -/
theorem C109_linear_floats {l u : K} (hgap : (2 : K) ^ (-900 : Int) ≤ rd u - rd l) {n : Nat} (hn : 2 ≤ n) (hn' : n ≤ 2 ^ 50) :
    ∃ xs : List K, gridFloats lg ex false l u n = some xs ∧ xs.length = n ∧ xs.head? = some (rd l) ∧ xs.getLast? = some (rd u) ∧
      xs.Pairwise (· ≤ ·) ∧ (∀ x ∈ xs, rd l ≤ x ∧ x ≤ rd u) ∧
      ∀ (i : Nat) x, xs[i]? = some x →
        |x - (rd l + (i : K) / ((n - 1 : Nat) : K) * (rd u - rd l))| ≤ max |rd l| |rd u| / 2 ^ 49 + 2 ^ (-998 : Int) := by
  obtain ⟨h1, h2, h3, h4, h5⟩ := linspace_facts (isF64_rd l) (isF64_rd u) hgap hn hn'
  refine ⟨linspace (rd l) (rd u) n true, ?_, linspace_length _ _ _ _, h1, h2, h3, h4, h5⟩
  unfold gridFloats gridRaw
  rw [if_neg (by decide)]
  apply clampEnds_id _ h4
  intro hc
  rw [hc] at h1
  cases h1

/-- **C109.** The same for integers: the values are within the bounds, from the lower to the upper bound, in ascending order, and the
nearest integers to evenly spaced numbers up to the rounding. -/
theorem C109_linear_ints {l u : Int} (hl : |l| ≤ 2 ^ 52) (hu : |u| ≤ 2 ^ 52) (hlu : l < u) {n : Nat} (hn : 2 ≤ n) (hn' : n ≤ 2 ^ 50) :
    ∃ ms : List Int, gridInts lg ex false l u n = some ms ∧ ms.length = n ∧ ms.head? = some l ∧ ms.getLast? = some u ∧
      ms.Pairwise (· ≤ ·) ∧ (∀ m ∈ ms, l ≤ m ∧ m ≤ u) ∧
      ∀ (i : Nat) m, ms[i]? = some m →
        |(m : K) - (l + (i : K) / ((n - 1 : Nat) : K) * (u - l))| ≤ 1 / 2 + (max |(l : K)| |(u : K)| / 2 ^ 49 + 2 ^ (-998 : Int)) := by
  have el : rd (l : K) = l := rd_int (hl.trans (by norm_num))
  have eu : rd (u : K) = u := rd_int (hu.trans (by norm_num))
  have fl : IsF64 (l : K) := by rw [← el]; exact isF64_rd _
  have fu : IsF64 (u : K) := by rw [← eu]; exact isF64_rd _
  have hgap : (2 : K) ^ (-900 : Int) ≤ (u : K) - l := by
    have h1 : (1 : K) ≤ (u : K) - l := by
      have : (l : K) + 1 ≤ u := by exact_mod_cast hlu
      linarith
    exact (zpow_le_one_of_nonpos₀ (by norm_num) (by norm_num)).trans h1
  obtain ⟨h1, h2, h3, h4, h5⟩ := linspace_facts fl fu hgap hn hn'
  have hmem : ∀ m ∈ (linspace (l : K) u n true).map rintK, l ≤ m ∧ m ≤ u := by
    intro m hm
    obtain ⟨x, hx, rfl⟩ := List.mem_map.1 hm
    exact rintK_mem (h4 x hx).1 (h4 x hx).2
  refine ⟨(linspace (l : K) u n true).map rintK, ?_, by rw [List.length_map, linspace_length], ?_, ?_, ?_, hmem, ?_⟩
  · unfold gridInts gridRaw
    rw [if_neg (by decide), el, eu]
    apply clampEnds_id _ hmem
    intro hc
    rw [List.map_eq_nil_iff] at hc
    rw [hc] at h1
    cases h1
  · rw [List.head?_map, h1, Option.map_some, rintK_int]
  · rw [List.getLast?_map, h2, Option.map_some, rintK_int]
  · rw [List.pairwise_map]
    exact h3.imp rintK_monoK
  · intro i m hm
    rw [List.getElem?_map] at hm
    cases hx : (linspace (l : K) u n true)[i]? with
    | none => rw [hx] at hm; cases hm
    | some x =>
      rw [hx] at hm
      cases hm
      have g1 := h5 i x hx
      have g2 := rintK_dist x
      rw [abs_sub_comm] at g2
      have := abs_add_le ((rintK x : K) - x) (x - (l + (i : K) / ((n - 1 : Nat) : K) * (u - l)))
      rw [sub_add_sub_cancel] at this
      linarith

/-- **C109.** With as many steps as there are integers, the grid has every integer of the range, once and in order. -/
theorem C109_all_integers {l u : Int} (hl : |l| ≤ 2 ^ 52) (hu : |u| ≤ 2 ^ 52) (hlu : l < u) {n : Nat} (hn : (n : Int) = u - l + 1) :
    gridInts lg ex false l u n = some ((List.range n).map (fun i : Nat => l + (i : Int))) := by
  have el : rd (l : K) = l := rd_int (hl.trans (by norm_num))
  have eu : rd (u : K) = u := rd_int (hu.trans (by norm_num))
  rw [abs_le] at hl hu
  have hd : ((n - 1 : Nat) : K) = (u : K) - l := by
    have : ((n - 1 : Nat) : Int) = u - l := by omega
    exact_mod_cast congrArg (Int.cast (R := K)) this
  have hd0 : (u : K) - l ≠ 0 := by
    have : (l : K) < u := by exact_mod_cast hlu
    exact (sub_pos.2 this).ne'
  have hdd : rd ((u : K) - l) = (u : K) - l := by
    have := rd_int (K := K) (n := u - l) (by rw [abs_le]; constructor <;> (norm_num at *; omega))
    push_cast at this
    exact this
  have hstep : rd (rd ((u : K) - l) / ((n - 1 : Nat) : K)) = 1 := by
    rw [hdd, hd, div_self hd0]
    have := rd_int (K := K) (n := 1) (by norm_num)
    push_cast at this
    exact this
  have hpt : ∀ i : Nat, i < n → innerPoint (l : K) u n i = ((l + (i : Int) : Int) : K) := by
    intro i hi
    unfold innerPoint
    simp only [hstep]
    rw [if_neg (by omega), if_neg one_ne_zero, mul_one]
    have e1 : rd (i : K) = i := by
      have := rd_int (K := K) (n := (i : Int)) (by rw [abs_le]; norm_num at *; omega)
      push_cast at this
      exact this
    rw [e1]
    have e2 := rd_int (K := K) (n := l + (i : Int)) (by rw [abs_le]; norm_num at *; omega)
    push_cast at e2 ⊢
    rw [add_comm, e2]
  have hraw : (gridRaw lg ex false (l : K) u n).map rintK = (List.range n).map (fun i : Nat => l + (i : Int)) := by
    apply List.ext_getElem?
    intro i
    unfold gridRaw
    rw [if_neg (by decide), List.getElem?_map, List.getElem?_map]
    by_cases hi : i < n
    · rw [linspace_get hi, List.getElem?_range hi, Option.map_some, Option.map_some]
      congr 1
      split
      · rename_i hc
        rw [rintK_int]
        omega
      · rw [hpt i hi, rintK_int]
    · rw [List.getElem?_eq_none (by rw [linspace_length]; omega), List.getElem?_eq_none (by rw [List.length_range]; omega)]
      rfl
  unfold gridInts
  rw [el, eu, hraw]
  apply clampEnds_id
  · intro hc
    have := congrArg List.length hc
    simp at this
    omega
  · intro m hm
    obtain ⟨i, hi, rfl⟩ := List.mem_map.1 hm
    rw [List.mem_range] at hi
    omega

end

/-! ## Logarithmic scales -/

section
variable {lg ex : ℝ → ℝ}

theorem lg_gap (ha : Accurate lg ex) {a b : ℝ} (h1 : (2 : ℝ) ^ (-300 : Int) ≤ a) (hab : a ≤ b) (h2 : b ≤ (2 : ℝ) ^ (300 : Int))
    (hg : 1 / 2 ^ 41 ≤ Real.log (b / a)) : (2 : ℝ) ^ (-900 : Int) ≤ lg b - lg a := by
  have ha0 : 0 < a := lt_of_lt_of_le (by positivity) h1
  have hb0 : 0 < b := ha0.trans_le hab
  have La := log_size h1 (hab.trans h2)
  have Lb := log_size (h1.trans hab) h2
  have na := ha.log_near a ha0
  have nb := ha.log_near b hb0
  have hη2 : (2 : ℝ) ^ (-400 : Int) ≤ 1 / 2 ^ 60 := by
    rw [one_div, ← zpow_natCast, ← zpow_neg]
    exact zpow_le_zpow_right₀ (by norm_num) (by norm_num)
  have hη3 : (2 : ℝ) ^ (-900 : Int) ≤ 1 / 2 ^ 60 := by
    rw [one_div, ← zpow_natCast, ← zpow_neg]
    exact zpow_le_zpow_right₀ (by norm_num) (by norm_num)
  have hη : (0 : ℝ) < 2 ^ (-400 : Int) := by positivity
  rw [Real.log_div hb0.ne' ha0.ne'] at hg
  generalize (2 : ℝ) ^ (-400 : Int) = η at *
  generalize (2 : ℝ) ^ (-900 : Int) = ζ at *
  have d1 := div_le_div_of_nonneg_right La (by positivity : (0 : ℝ) ≤ 2 ^ 50)
  have d2 := div_le_div_of_nonneg_right Lb (by positivity : (0 : ℝ) ≤ 2 ^ 50)
  have p := abs_le.1 (na.trans (add_le_add_left d1 η))
  have q := abs_le.1 (nb.trans (add_le_add_left d2 η))
  norm_num at *
  linarith

/-- The points of a geometric progression from `a` to `b`. -/
noncomputable def geo (a b : ℝ) (n i : Nat) : ℝ := a * (b / a) ^ ((i : ℝ) / ((n - 1 : Nat) : ℝ))

theorem geo_ratio {a b : ℝ} (ha : 0 < a) (hab : a ≤ b) {n i j : Nat} (hij : i < j) :
    geo a b n i * (1 + Real.log (b / a) / ((n - 1 : Nat) : ℝ)) ≤ geo a b n j := by
  have hb : 0 < b := ha.trans_le hab
  have hq : 1 ≤ b / a := by rw [one_le_div ha]; exact hab
  have hl : 0 ≤ Real.log (b / a) := Real.log_nonneg hq
  have hd : (0 : ℝ) ≤ ((n - 1 : Nat) : ℝ) := by positivity
  have e : geo a b n j = geo a b n i * Real.exp (Real.log (b / a) * (((j : ℝ) - i) / ((n - 1 : Nat) : ℝ))) := by
    unfold geo
    rw [mul_assoc, Real.rpow_def_of_pos (by positivity), Real.rpow_def_of_pos (by positivity), ← Real.exp_add]
    congr 2
    ring
  rw [e]
  apply mul_le_mul_of_nonneg_left _ (by unfold geo; positivity)
  have h1 := Real.add_one_le_exp (Real.log (b / a) * (((j : ℝ) - i) / ((n - 1 : Nat) : ℝ)))
  have h2 : Real.log (b / a) / ((n - 1 : Nat) : ℝ) ≤ Real.log (b / a) * (((j : ℝ) - i) / ((n - 1 : Nat) : ℝ)) := by
    rw [div_eq_mul_one_div]
    apply mul_le_mul_of_nonneg_left _ hl
    apply div_le_div_of_nonneg_right _ hd
    have : (i : ℝ) + 1 ≤ j := by exact_mod_cast hij
    linarith
  linarith

theorem geo_first (a b : ℝ) (n : Nat) : geo a b n 0 = a := by simp [geo]

theorem geo_last {a b : ℝ} (ha : 0 < a) {n : Nat} (hn : 2 ≤ n) : geo a b n (n - 1) = b := by
  unfold geo
  rw [div_self (by exact_mod_cast (by omega : n - 1 ≠ 0)), Real.rpow_one]
  field_simp

theorem geo_mono {a b : ℝ} (ha : 0 < a) (hab : a ≤ b) {n i j : Nat} (hij : i ≤ j) : geo a b n i ≤ geo a b n j := by
  rcases hij.eq_or_lt with h | h
  · rw [h]
  · have hq : 1 ≤ b / a := by rw [one_le_div ha]; exact hab
    have hl : 0 ≤ Real.log (b / a) / ((n - 1 : Nat) : ℝ) := div_nonneg (Real.log_nonneg hq) (by positivity)
    have h0 : 0 ≤ geo a b n i := by unfold geo; have := ha.trans_le hab; positivity
    refine le_trans ?_ (geo_ratio ha hab h)
    nlinarith

/-- **C109, partial.** On a logarithmic scale the values of a float are as many as wanted, within the bounds, in strictly ascending
order, and follow the geometric progression from the lower to the upper bound up to a relative error of `2 ^ -40`, if neighbouring
points are not too close: a factor of about `1 + 2 ^ -38`.  Without that it is false of the code, see `C109_log_float_illegal`. -/
theorem C109_log_floats_partial (ha : Accurate lg ex) {l u : ℝ} (h1 : (2 : ℝ) ^ (-300 : Int) ≤ rd l) (hab : rd l < rd u)
    (h2 : rd u ≤ (2 : ℝ) ^ (300 : Int)) {n : Nat} (hn : 2 ≤ n) (hn' : (n : ℝ) ≤ 2 ^ 38 * Real.log (rd u / rd l)) :
    ∃ xs : List ℝ, gridFloats lg ex true l u n = some xs ∧ xs.length = n ∧ xs.Pairwise (· < ·) ∧
      (∀ x ∈ xs, rd l ≤ x ∧ x ≤ rd u) ∧
      ∀ (i : Nat) x, xs[i]? = some x →
        |x - rd l * (rd u / rd l) ^ ((i : ℝ) / ((n - 1 : Nat) : ℝ))| ≤ rd l * (rd u / rd l) ^ ((i : ℝ) / ((n - 1 : Nat) : ℝ)) / 2 ^ 40 := by
  unfold gridFloats
  generalize rd l = a at *
  generalize rd u = b at *
  have ha0 : 0 < a := lt_of_lt_of_le (by positivity) h1
  have hb0 : 0 < b := ha0.trans hab
  have hgpos : (2 : ℝ) ≤ n := by exact_mod_cast hn
  have hlog : 1 / 2 ^ 37 ≤ Real.log (b / a) := by
    norm_num at hn' ⊢
    linarith
  have hgap := lg_gap ha h1 hab.le h2 (le_trans (by norm_num) hlog)
  have hlog2 : Real.log (b / a) ≤ 416 := by
    have La := abs_le.1 (log_size h1 (hab.le.trans h2))
    have Lb := abs_le.1 (log_size (h1.trans hab.le) h2)
    rw [Real.log_div hb0.ne' ha0.ne']
    linarith
  have hn50 : n ≤ 2 ^ 50 := by
    have : (n : ℝ) ≤ 2 ^ 50 := hn'.trans (by linarith)
    exact_mod_cast this
  have hlen := gridRaw_length (lg := lg) (ex := ex) true a b n
  obtain ⟨ys, e, elen, eget⟩ := clampEnds_get (lo := a) (hi := b) (xs := gridRaw lg ex true a b n) (by omega)
  refine ⟨ys, e, by omega, ?_⟩
  -- the ratio of neighbouring points
  have hd : (0 : ℝ) < ((n - 1 : Nat) : ℝ) := by exact_mod_cast (by omega : 0 < n - 1)
  have hratio : 1 / 2 ^ 38 ≤ Real.log (b / a) / ((n - 1 : Nat) : ℝ) := by
    rw [le_div_iff₀ hd]
    have : ((n - 1 : Nat) : ℝ) ≤ n := by exact_mod_cast (by omega : n - 1 ≤ n)
    norm_num at hn' ⊢
    linarith
  have gpos : ∀ i, 0 < geo a b n i := fun i => by unfold geo; positivity
  have gstep : ∀ i j, i < j → geo a b n i * (1 + 1 / 2 ^ 38) ≤ geo a b n j := by
    intro i j hij
    refine le_trans ?_ (geo_ratio ha0 hab.le hij)
    have := gpos i
    gcongr
  -- every value, with its index
  have key : ∀ (i : Nat) x, ys[i]? = some x → i < n ∧ |x - geo a b n i| ≤ geo a b n i / 2 ^ 40 ∧ (i = 0 → a ≤ x) ∧ (i = n - 1 → x ≤ b) := by
    intro i x hx
    have hin : i < n := by
      by_contra hc
      rw [List.getElem?_eq_none (by omega)] at hx
      cases hx
    rw [eget, hlen] at hx
    unfold gridRaw at hx
    rw [if_pos rfl, List.getElem?_map] at hx
    cases hy : (linspace (lg a) (lg b) n true)[i]? with
    | none => rw [hy] at hx; cases hx
    | some y =>
      rw [hy] at hx
      have hx := Option.some.inj hx
      simp only at hx
      have hp : |ex y - geo a b n i| ≤ geo a b n i / 2 ^ 40 := log_point ha h1 hab.le h2 (.inr hgap) hn50 hin hy
      have hg := gpos i
      refine ⟨hin, ?_, ?_, ?_⟩
      · subst hx
        split
        · rename_i h0
          subst h0
          rw [geo_first] at *
          rcases le_total a (ex y) with hc | hc
          · rw [max_eq_right hc]; exact hp
          · rw [max_eq_left hc, sub_self, abs_zero]; positivity
        · split
          · rename_i h0
            subst h0
            rw [geo_last ha0 hn] at *
            rcases le_total b (ex y) with hc | hc
            · rw [min_eq_left hc, sub_self, abs_zero]; positivity
            · rw [min_eq_right hc]; exact hp
          · exact hp
      · intro h0
        rw [if_pos h0] at hx
        rw [← hx]; exact le_max_left _ _
      · intro h0
        rw [if_neg (by omega), if_pos h0] at hx
        rw [← hx]; exact min_le_left _ _
  refine ⟨?_, ?_, fun i x hx => (key i x hx).2.1⟩
  · rw [List.pairwise_iff_getElem]
    intro i j hi hj hij
    obtain ⟨_, k1, _, _⟩ := key i _ (List.getElem?_eq_getElem hi)
    obtain ⟨_, k2, _, _⟩ := key j _ (List.getElem?_eq_getElem hj)
    have s := gstep i j hij
    have p := gpos i
    rw [abs_le] at k1 k2
    norm_num at *
    linarith
  · intro x hx
    obtain ⟨i, hi⟩ := List.mem_iff_getElem?.1 hx
    obtain ⟨hin, k, k0, kl⟩ := key i x hi
    rw [abs_le] at k
    have p := gpos i
    constructor
    · by_cases h0 : i = 0
      · exact k0 h0
      · have s := gstep 0 i (by omega)
        rw [geo_first] at s
        norm_num at *
        linarith
    · by_cases h0 : i = n - 1
      · exact kl h0
      · have s := gstep i (n - 1) (by omega)
        rw [geo_last ha0 hn] at s
        norm_num at *
        linarith

/-- **C109.** On a logarithmic scale the values of an integer are as many as wanted, from the lower to the upper bound, within the
bounds, and the nearest integers to the geometric progression up to the rounding. -/
theorem C109_log_ints (ha : Accurate lg ex) {l u : Int} (hl : 1 ≤ l) (hlu : l < u) (hu : u < 2 ^ 39) {n : Nat} (hn : 2 ≤ n) (hn' : n ≤ 2 ^ 50) :
    ∃ ms : List Int, gridInts lg ex true l u n = some ms ∧ ms.length = n ∧ ms.head? = some l ∧ ms.getLast? = some u ∧
      (∀ m ∈ ms, l ≤ m ∧ m ≤ u) ∧
      ∀ (i : Nat) m, ms[i]? = some m →
        |(m : ℝ) - l * ((u : ℝ) / l) ^ ((i : ℝ) / ((n - 1 : Nat) : ℝ))| ≤ 1 / 2 + l * ((u : ℝ) / l) ^ ((i : ℝ) / ((n - 1 : Nat) : ℝ)) / 2 ^ 40 := by
  have el : rd (l : ℝ) = l := rd_int40 (by omega) (by omega)
  have eu : rd (u : ℝ) = u := rd_int40 (by omega) (by omega)
  have l1 : (1 : ℝ) ≤ l := by exact_mod_cast hl
  have lu : (l : ℝ) + 1 ≤ u := by exact_mod_cast hlu
  have u1 : (u : ℝ) + 1 ≤ 2 ^ 39 := by exact_mod_cast hu
  have h1 : (2 : ℝ) ^ (-300 : Int) ≤ l := (zpow_le_one_of_nonpos₀ (by norm_num) (by norm_num)).trans l1
  have h2 : (u : ℝ) ≤ 2 ^ (300 : Int) := by
    have : (2 : ℝ) ^ 39 ≤ 2 ^ (300 : Int) := by
      rw [← zpow_natCast]
      exact zpow_le_zpow_right₀ (by norm_num) (by norm_num)
    exact (by linarith : (u : ℝ) ≤ 2 ^ 39).trans this
  have hab : (l : ℝ) ≤ u := by linarith
  have l0 : (0 : ℝ) < l := by linarith
  have u0 : (0 : ℝ) < u := by linarith
  have hg : 1 / 2 ^ 41 ≤ Real.log ((u : ℝ) / l) := by
    have h3 := Real.one_sub_inv_le_log_of_pos (x := (u : ℝ) / l) (by positivity)
    have h4 : 1 / 2 ^ 39 ≤ 1 - ((u : ℝ) / l)⁻¹ := by
      rw [inv_div, le_sub_comm, div_le_iff₀ (by linarith)]
      norm_num at *
      nlinarith
    norm_num at *
    linarith
  have hgap := lg_gap ha h1 hab h2 hg
  have gpos : ∀ i, 0 < geo l u n i := fun i => by unfold geo; positivity
  have key : ∀ (i : Nat) m, ((gridRaw lg ex true (l : ℝ) u n).map rintK)[i]? = some m →
      i < n ∧ ∃ z : ℝ, m = rintK z ∧ |z - geo l u n i| ≤ geo l u n i / 2 ^ 40 := by
    intro i m hm
    have hin : i < n := by
      by_contra hc
      rw [List.getElem?_eq_none (by rw [List.length_map, gridRaw_length]; omega)] at hm
      cases hm
    unfold gridRaw at hm
    rw [if_pos rfl, List.getElem?_map, List.getElem?_map] at hm
    cases hy : (linspace (lg (l : ℝ)) (lg u) n true)[i]? with
    | none => rw [hy] at hm; cases hm
    | some y =>
      rw [hy] at hm
      exact ⟨hin, _, (Option.some.inj hm).symm, log_point ha h1 hab h2 (.inr hgap) hn' hin hy⟩
  have hends : ∀ i, i < n → (l : ℝ) ≤ geo l u n i ∧ geo l u n i ≤ u := by
    intro i hi
    have g1 := geo_mono (n := n) l0 hab (Nat.zero_le i)
    have g2 := geo_mono (n := n) l0 hab (by omega : i ≤ n - 1)
    rw [geo_first] at g1
    rw [geo_last l0 hn] at g2
    exact ⟨g1, g2⟩
  have hmem : ∀ m ∈ (gridRaw lg ex true (l : ℝ) u n).map rintK, l ≤ m ∧ m ≤ u := by
    intro m hm
    obtain ⟨i, hi⟩ := List.mem_iff_getElem?.1 hm
    obtain ⟨hin, z, rfl, hz⟩ := key i m hi
    obtain ⟨g1, g2⟩ := hends i hin
    have hd := rintK_dist z
    rw [abs_le] at hz hd
    have hlt1 : (l : ℝ) - 1 < (rintK z : ℝ) := by norm_num at *; linarith
    have hlt2 : (rintK z : ℝ) < (u : ℝ) + 1 := by norm_num at *; linarith
    have : l - 1 < rintK z := by exact_mod_cast hlt1
    have : rintK z < u + 1 := by exact_mod_cast hlt2
    omega
  have hlen : ((gridRaw lg ex true (l : ℝ) u n).map rintK).length = n := by rw [List.length_map, gridRaw_length]
  have hend : ∀ (i : Nat) (k : Int), i < n → geo l u n i = k → l ≤ k → k ≤ u → ((gridRaw lg ex true (l : ℝ) u n).map rintK)[i]? = some k := by
    intro i k hi hk k1 k2
    rw [List.getElem?_eq_getElem (by omega)]
    obtain ⟨-, z, hz, hz'⟩ := key i _ (List.getElem?_eq_getElem (by omega))
    rw [hz]
    congr 1
    apply rintK_eq
    rw [hk] at hz'
    have kr : (k : ℝ) ≤ u := by exact_mod_cast k2
    refine lt_of_le_of_lt hz' ?_
    rw [div_lt_iff₀ (by norm_num)]
    norm_num at u1 ⊢
    linarith
  refine ⟨(gridRaw lg ex true (l : ℝ) u n).map rintK, ?_, hlen, ?_, ?_, hmem, ?_⟩
  · unfold gridInts
    rw [el, eu]
    apply clampEnds_id _ hmem
    intro hc
    rw [hc] at hlen
    simp at hlen
    omega
  · rw [List.head?_eq_getElem?]
    exact hend 0 l (by omega) (geo_first _ _ _) (le_refl _) hlu.le
  · rw [List.getLast?_eq_getElem?, hlen]
    exact hend (n - 1) u (by omega) (geo_last l0 hn) hlu.le (le_refl _)
  · intro i m hm
    obtain ⟨hin, z, rfl, hz⟩ := key i m hm
    have hd := rintK_dist z
    rw [abs_sub_comm] at hd
    have := abs_add_le ((rintK z : ℝ) - z) (z - geo l u n i)
    rw [sub_add_sub_cancel] at this
    unfold geo at *
    linarith

end

/-- The hypotheses of the theorems above are met. -/
example : ∃ ms : List Int, gridInts (fun x => rd (Real.log x)) (fun y => rd (Real.exp y)) true 1 1000 7 = some ms ∧ ms.length = 7 ∧
    ms.head? = some 1 ∧ ms.getLast? = some 1000 := by
  obtain ⟨ms, h, h1, h2, h3, -⟩ := C109_log_ints accurate_rd (l := 1) (u := 1000) (by norm_num) (by norm_num) (by norm_num) (n := 7)
    (by norm_num) (by norm_num)
  exact ⟨ms, h, h1, h2, h3⟩

example : gridInts (K := Rat) id id false (-2) 3 6 = some [-2, -1, 0, 1, 2, 3] :=
  C109_all_integers (by norm_num) (by norm_num) (by norm_num) (by norm_num)

/-! ## A value above the upper bound -/

namespace ExGr

/-- The lower bound: just below `2 ^ 29`. -/
noncomputable def a : ℝ := 4503599627370484 * 2 ^ (-23 : Int)

noncomputable def b : ℝ := 2 ^ (29 : Int)

theorem logb : |Real.log b - 20.10126823623841397309973152| ≤ 1 / 10 ^ 22 := by
  have h := ExLog.log2
  have e : Real.log b = 29 * Real.log 2 := by rw [b, Real.log_zpow]; norm_num
  rw [e]
  norm_num [abs_le] at h ⊢
  constructor <;> linarith

theorem loga : |Real.log a - 20.10126823623841130856447226| ≤ 1 / 10 ^ 20 := by
  have h := logb
  have hq : a = b * (1 - 12 / 4503599627370496) := by norm_num [a, b, zpow_neg]
  have e : Real.log a = Real.log b + Real.log (1 - 12 / 4503599627370496) := by
    rw [hq, Real.log_mul (by norm_num [b]) (by norm_num)]
  have h1 := Real.abs_log_sub_add_sum_range_le (x := 12 / 4503599627370496) (by norm_num [abs_lt]) 2
  rw [e]
  generalize Real.log (1 - 12 / 4503599627370496) = d at *
  generalize Real.log b = y at *
  norm_num [Finset.sum_range_succ, abs_le] at h h1 ⊢
  constructor <;> linarith

theorem rdb : rd (Real.log b) = 5658004008649857 * 2 ^ (-48 : Int) := by
  have h := logb
  generalize Real.log b = y at h ⊢
  rw [rd_eval (-48) 5658004008649857 (by norm_num) ?_ ?_ ?_]
  · norm_num
  all_goals
    norm_num [abs_le, abs_lt, zpow_neg] at h ⊢
    first
      | linarith
      | constructor <;> linarith

theorem rda : rd (Real.log a) = 5658004008649856 * 2 ^ (-48 : Int) := by
  have h := loga
  generalize Real.log a = y at h ⊢
  rw [rd_eval (-48) 5658004008649856 (by norm_num) ?_ ?_ ?_]
  · norm_num
  all_goals
    norm_num [abs_le, abs_lt, zpow_neg] at h ⊢
    first
      | linarith
      | constructor <;> linarith

/-- The sixth of ten points between two neighbouring doubles is the upper one. -/
theorem point5 : innerPoint (5658004008649856 * 2 ^ (-48 : Int) : ℝ) (5658004008649857 * 2 ^ (-48 : Int)) 10 5 = 5658004008649857 * 2 ^ (-48 : Int) := by
  have fa : IsF64 (5658004008649856 * 2 ^ (-48 : Int) : ℝ) := ⟨5658004008649856, -48, by norm_num, by norm_num, by norm_num⟩
  have fb : IsF64 (5658004008649857 * 2 ^ (-48 : Int) : ℝ) := ⟨5658004008649857, -48, by norm_num, by norm_num, by norm_num⟩
  have hd : (5658004008649857 * 2 ^ (-48 : Int) : ℝ) - 5658004008649856 * 2 ^ (-48 : Int) = 2 ^ (-48 : Int) := by ring
  have hgap : (2 : ℝ) ^ (-900 : Int) ≤ 5658004008649857 * 2 ^ (-48 : Int) - 5658004008649856 * 2 ^ (-48 : Int) := by
    rw [hd]
    exact zpow_le_zpow_right₀ (by norm_num) (by norm_num)
  have hs := step_near hgap (n := 10) (by norm_num) (by norm_num) (i := 5) (by norm_num)
  rw [innerPoint_eq fa fb hgap (by norm_num) (by norm_num)]
  rw [hd] at hs ⊢
  generalize rd (((5 : Nat) : ℝ) * rd (rd ((2 : ℝ) ^ (-48 : Int)) / ((10 - 1 : Nat) : ℝ))) = s at *
  have hη : (2 : ℝ) ^ (-1000 : Int) ≤ 1 / 2 ^ 100 := by
    rw [one_div, ← zpow_natCast, ← zpow_neg]
    exact zpow_le_zpow_right₀ (by norm_num) (by norm_num)
  have h0 : (0 : ℝ) < 2 ^ (-1000 : Int) := by positivity
  generalize (2 : ℝ) ^ (-1000 : Int) = η at *
  rw [rd_eval (-48) 5658004008649857 (by norm_num) ?_ ?_ ?_]
  · norm_num
  all_goals
    norm_num [abs_le, abs_lt, zpow_neg] at hs hη ⊢
    first
      | linarith
      | constructor <;> linarith

theorem big : b + 2 ^ (-23 : Int) ≤ Real.exp (5658004008649857 * 2 ^ (-48 : Int)) := by
  have hb : 0 < b := by norm_num [b]
  have h := logb
  have e : Real.exp (5658004008649857 * 2 ^ (-48 : Int)) = b * Real.exp (5658004008649857 * 2 ^ (-48 : Int) - Real.log b) := by
    rw [Real.exp_sub, Real.exp_log hb]
    field_simp
  rw [e]
  have h1 := Real.add_one_le_exp (5658004008649857 * 2 ^ (-48 : Int) - Real.log b)
  have h2 : (1 : ℝ) + 1 / 2 ^ 52 ≤ 5658004008649857 * 2 ^ (-48 : Int) - Real.log b + 1 := by
    generalize Real.log b = y at *
    norm_num [abs_le, zpow_neg] at h ⊢
    linarith
  calc b + 2 ^ (-23 : Int) = b * (1 + 1 / 2 ^ 52) := by norm_num [b, zpow_neg]
    _ ≤ _ := mul_le_mul_of_nonneg_left (h2.trans h1) hb.le

end ExGr

/-- **C109, false of the code** without the guard of `C109_log_floats_partial`: only the two end points are corrected.  With the best
possible logarithm and exponential function, the grid of ten steps between `2 ^ 29 - 3 * 2 ^ -21` and `2 ^ 29` on a logarithmic scale
has a value above the upper bound that is not the last one. -/
theorem C109_log_float_illegal : ∃ (l u : ℝ) (xs : List ℝ) (x : ℝ), IsF64 l ∧ IsF64 u ∧ 0 < l ∧ l < u ∧
    gridFloats (fun x => rd (Real.log x)) (fun y => rd (Real.exp y)) true l u 10 = some xs ∧ x ∈ xs ∧ u < x := by
  have fa : IsF64 ExGr.a := ⟨4503599627370484, -23, by norm_num, by norm_num, by norm_num [ExGr.a]⟩
  have fb : IsF64 ExGr.b := ⟨1, 29, by norm_num, by norm_num, by norm_num [ExGr.b]⟩
  have hlen := gridRaw_length (lg := fun x => rd (Real.log x)) (ex := fun y => rd (Real.exp y)) true ExGr.a ExGr.b 10
  obtain ⟨ys, e, elen, eget⟩ := clampEnds_get (lo := ExGr.a) (hi := ExGr.b)
    (xs := gridRaw (fun x => rd (Real.log x)) (fun y => rd (Real.exp y)) true ExGr.a ExGr.b 10) (by omega)
  have h5 : ys[5]? = some (rd (Real.exp (5658004008649857 * 2 ^ (-48 : Int)))) := by
    rw [eget, hlen]
    unfold gridRaw
    rw [if_pos rfl, List.getElem?_map, linspace_get (by norm_num), if_neg (by norm_num)]
    simp only [ExGr.rda, ExGr.rdb, ExGr.point5, Option.map_some]
    rw [if_neg (by norm_num), if_neg (by norm_num)]
  refine ⟨ExGr.a, ExGr.b, ys, _, fa, fb, by norm_num [ExGr.a], by norm_num [ExGr.a, ExGr.b, zpow_neg], ?_, List.mem_iff_getElem?.2 ⟨5, h5⟩, ?_⟩
  · unfold gridFloats
    rw [rd_of_isF64 fa, rd_of_isF64 fb]
    exact e
  · have f : IsF64 (ExGr.b + 2 ^ (-23 : Int)) := ⟨4503599627370497, -23, by norm_num, by norm_num, by norm_num [ExGr.b, zpow_neg]⟩
    have := rd_mono ExGr.big
    rw [rd_of_isF64 f] at this
    refine lt_of_lt_of_le ?_ this
    linarith [show (0 : ℝ) < 2 ^ (-23 : Int) by positivity]

/-- A grid that meets the guard: from `2 ^ -10` to `2 ^ 10` in nine steps. -/
example : ∃ xs : List ℝ, gridFloats (fun x => rd (Real.log x)) (fun y => rd (Real.exp y)) true (2 ^ (-10 : Int)) (2 ^ (10 : Int)) 9 = some xs ∧
    xs.length = 9 ∧ xs.Pairwise (· < ·) ∧ ∀ x ∈ xs, (2 : ℝ) ^ (-10 : Int) ≤ x ∧ x ≤ 2 ^ (10 : Int) := by
  have e1 : rd ((2 : ℝ) ^ (-10 : Int)) = 2 ^ (-10 : Int) := rd_of_isF64 (isF64_pow (by norm_num))
  have e2 : rd ((2 : ℝ) ^ (10 : Int)) = 2 ^ (10 : Int) := rd_of_isF64 (isF64_pow (by norm_num))
  obtain ⟨xs, h, h1, h2, h3, -⟩ := C109_log_floats_partial accurate_rd (l := 2 ^ (-10 : Int)) (u := 2 ^ (10 : Int)) (n := 9)
    (by rw [e1]; exact zpow_le_zpow_right₀ (by norm_num) (by norm_num)) (by rw [e1, e2]; norm_num)
    (by rw [e2]; exact zpow_le_zpow_right₀ (by norm_num) (by norm_num)) (by norm_num) (by
      rw [e1, e2]
      have := Real.add_one_le_exp (1 : ℝ)
      have h3 : (1 : ℝ) ≤ Real.log ((2 : ℝ) ^ (10 : Int) / 2 ^ (-10 : Int)) := by
        rw [Real.le_log_iff_exp_le (by positivity)]
        have := Real.exp_one_lt_d9
        norm_num
        linarith
      norm_num at *
      linarith)
  rw [e1, e2] at h3
  exact ⟨xs, h, h1, h2, h3⟩

/-! ## The theorems on the linear scale applied to concrete ranges -/

example := C109_no_steps (K := ℚ) (lg := id) (ex := id) true 0 1 1 10
example := C109_one_step (K := ℚ) (lg := id) (ex := id) false (a := 0) (b := 1) (by norm_num) (l := 1) (u := 10) (by norm_num)
example := C109_linear_floats (K := ℚ) (lg := id) (ex := id) (l := 0) (u := 1) (by
  have e0 : rd (0 : ℚ) = 0 := rd_of_isF64 ⟨0, 0, by norm_num, by norm_num, by norm_num⟩
  have e1 : rd (1 : ℚ) = 1 := rd_of_isF64 ⟨1, 0, by norm_num, by norm_num, by norm_num⟩
  rw [e0, e1, sub_zero, ← zpow_zero (2 : ℚ)]
  exact zpow_le_zpow_right₀ (by norm_num) (by norm_num)) (n := 11) (by norm_num) (by norm_num)
example := C109_linear_ints (K := ℚ) (lg := id) (ex := id) (l := -3) (u := 100) (by norm_num) (by norm_num) (by norm_num) (n := 11) (by norm_num)
  (by norm_num)

end Verif.F64
