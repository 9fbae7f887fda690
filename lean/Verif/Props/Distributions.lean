import Verif.Props.Values
import Verif.Props.Neighbors
import Verif.Props.Construct

/-!
# Densities and samples of single hyperparameters: C47, C49
-/

set_option autoImplicit false
set_option linter.unusedSectionVars false

namespace Verif.Num

section
variable {K : Type} [Field K] [LinearOrder K] [IsStrictOrderedRing K] [FloorRing K]

/-! ## C47: discrete densities sum to one -/

theorem sum_map_div (ws : List K) (s : K) : (ws.map (· / s)).sum = ws.sum / s := by
  induction ws with
  | nil => simp
  | cons w ws ih => simp [ih, add_div]

/-- **C47**: the probabilities of a categorical hyperparameter are non-negative and sum to one, with and without weights; they
are as many as choices, and proportional to the weights. -/
theorem C47_probabilities {size : Nat} (hs : 0 < size) {weights : Option (List K)}
    (hw : ∀ ws, weights = some ws → ws.length = size ∧ (∀ w ∈ ws, 0 ≤ w) ∧ ∃ w ∈ ws, w ≠ 0) :
    (probabilities size weights).sum = 1 ∧ (∀ p ∈ probabilities size weights, 0 ≤ p) ∧
    (probabilities size weights).length = size ∧
    (∀ ws, weights = some ws → ∃ c : K, 0 < c ∧ ws = (probabilities size weights).map (· * c)) := by
  have hsK : (0 : K) < size := by exact_mod_cast hs
  unfold probabilities
  cases weights with
  | none =>
    refine ⟨?_, ?_, List.length_replicate, by simp⟩
    · simp only [List.sum_replicate, nsmul_eq_mul]
      field_simp
    · intro p hp
      rw [List.eq_of_mem_replicate hp]; positivity
  | some ws =>
    obtain ⟨hl, hnn, x0, hx0, hx0n⟩ := hw ws rfl
    have hsum : 0 < ws.sum :=
      lt_of_lt_of_le (lt_of_le_of_ne (hnn x0 hx0) (Ne.symm hx0n)) (List.single_le_sum hnn x0 hx0)
    refine ⟨?_, ?_, by simpa using hl, ?_⟩
    · simp only [sum_map_div]; exact div_self hsum.ne'
    · intro p hp
      obtain ⟨w, hw, rfl⟩ := List.mem_map.1 hp
      exact div_nonneg (hnn w hw) hsum.le
    · rintro _ ⟨⟩
      refine ⟨ws.sum, hsum, ?_⟩
      rw [List.map_map]
      conv_lhs => rw [← List.map_id ws]
      refine List.map_congr_left fun w _ => ?_
      simp only [Function.comp, id]
      rw [div_mul_cancel₀ _ hsum.ne']

example : probabilities 3 (some [(1 : ℚ), 2, 1]) = [1 / 4, 1 / 2, 1 / 4] := by
  simp only [probabilities, List.map, List.sum_cons, List.sum_nil]; norm_num

/-- **C47**, categorical and ordinal: the density at position `i` is the `i`-th probability, so the densities of all positions
sum to one; everywhere else it is zero, apart from entries that are only close to an integer. -/
theorem C47_weighted_density {probs : List K} :
    (∀ i (h : i < probs.length), weightedPdf probs (i : K) = probs[i]) ∧
    ((List.range probs.length).map (fun i : Nat => weightedPdf probs (i : K))).sum = probs.sum ∧
    (∀ x, ¬ (0 ≤ x ∧ x ≤ (probs.length : K) - 1 ∧ closeToIntK x) → weightedPdf probs x = 0) ∧
    (∀ m x, 0 ≤ m → (∀ p ∈ probs, p ≤ m) → weightedPdf probs x ≤ m) := by
  have h1 : ∀ i (h : i < probs.length), weightedPdf probs (i : K) = probs[i] := by
    intro i h
    have hi : (i : K) ≤ (probs.length : K) - 1 := by
      have : ((i + 1 : Nat) : K) ≤ probs.length := by exact_mod_cast h
      push_cast at this; linarith
    unfold weightedPdf
    rw [if_pos ⟨Nat.cast_nonneg i, hi, by exact_mod_cast closeToIntK_int (K := K) (i : Int)⟩,
      clip_id (Nat.cast_nonneg i) hi, Int.floor_natCast, Int.toNat_natCast, List.getD_eq_getElem?_getD,
      List.getElem?_eq_getElem h]
    rfl
  refine ⟨h1, ?_, ?_, ?_⟩
  · congr 1
    refine List.ext_getElem (by simp) fun i hi hi' => ?_
    simp only [List.getElem_map, List.getElem_range]
    exact h1 i hi'
  · intro x hx
    unfold weightedPdf
    rw [if_neg hx]
  · intro m x hm hp
    unfold weightedPdf
    split
    · rw [List.getD_eq_getElem?_getD]
      cases hg : probs[⌊clip x 0 ((probs.length : K) - 1)⌋.toNat]? with
      | none => exact hm
      | some p => exact hp p (List.mem_of_getElem? hg)
    · exact hm

example : weightedPdf [(1 / 4 : ℚ), 3 / 4] ((1 : Nat) : ℚ) = 3 / 4 := C47_weighted_density.1 1 (by simp)

/-- A legal entry just below an integer gets the density of the position below: the entry is truncated, while decoding
rounds. -/
theorem C47_density_truncates :
    weightedPdf [(1 / 4 : ℚ), 3 / 4] (1 - 1 / 1000000) = 1 / 4 ∧
    (Kind.cat [.str "a", .str "b"]).toVal (1 - 1 / 1000000) = some (.str "b") := by
  refine ⟨?_, by decide +kernel⟩
  have hf : ⌊(1 - 1 / 1000000 : ℚ)⌋ = 0 := by rw [Int.floor_eq_iff]; norm_num
  have hc : closeToIntK (1 - 1 / 1000000 : ℚ) := by
    have hr : rintK (1 - 1 / 1000000 : ℚ) = 1 := by
      unfold rintK; simp only [hf]; norm_num
    unfold closeToIntK
    rw [hr]; norm_num
  unfold weightedPdf
  rw [if_pos ⟨by norm_num, by norm_num, hc⟩, clip_id (by norm_num) (by norm_num), hf]
  simp

/-- **C47**, uniform integers: every point of the grid has density `1 / size`, so that the densities sum to one, no density is
larger, and entries off the grid have density zero. -/
theorem C47_uniform_integer {size : Nat} (hs : 2 ≤ size) :
    (∀ i : Nat, i < size → uniformIntPdf size ((i : K) / ((size : K) - 1)) = 1 / size) ∧
    ((List.range size).map (fun i : Nat => uniformIntPdf size ((i : K) / ((size : K) - 1)))).sum = 1 ∧
    (∀ x : K, uniformIntPdf size x ≤ 1 / size) ∧
    (∀ x : K, ¬ (0 ≤ x ∧ x ≤ 1 ∧ closeToIntK (x * ((size : K) - 1))) → uniformIntPdf size x = 0) := by
  have hs1 : (0 : K) < (size : K) - 1 := by
    have : (2 : K) ≤ size := by exact_mod_cast hs
    linarith
  have hs0 : (0 : K) < size := by linarith
  have h1 : ∀ i : Nat, i < size → uniformIntPdf size ((i : K) / ((size : K) - 1)) = 1 / size := by
    intro i hi
    have hi' : (i : K) ≤ (size : K) - 1 := by
      have : ((i + 1 : Nat) : K) ≤ size := by exact_mod_cast hi
      push_cast at this; linarith
    unfold uniformIntPdf
    rw [if_pos]
    refine ⟨by positivity, (div_le_one hs1).2 hi', ?_⟩
    rw [div_mul_cancel₀ _ hs1.ne']
    exact_mod_cast closeToIntK_int (K := K) (i : Int)
  refine ⟨h1, ?_, ?_, ?_⟩
  · rw [List.map_congr_left (g := fun _ => 1 / (size : K)) fun i hi => h1 i (List.mem_range.1 hi)]
    simp only [List.map_const', List.length_range, List.sum_replicate, nsmul_eq_mul]
    field_simp
  · intro x
    unfold uniformIntPdf
    split
    · exact le_refl _
    · positivity
  · intro x hx
    unfold uniformIntPdf
    rw [if_neg hx]

example : uniformIntPdf 11 ((3 : Nat) / ((11 : Nat) - 1) : ℚ) = 1 / (11 : Nat) :=
  (C47_uniform_integer (by decide)).1 3 (by decide)

/-- Normal and beta distributed integers: the densities of the values do not sum to one, since the normalisation sums over the
points of `linspace(..., endpoint=False)`, which are not the values.  With the density `2 x` of a beta distribution with
parameters 2 and 1 on the integers 0 and 1 the densities are 0 and 2. -/
theorem C47_discretized_wrong :
    discretizedPdf (fun x : ℚ => 2 * x) 2 0 + discretizedPdf (fun x : ℚ => 2 * x) 2 1 = 2 := by
  unfold discretizedPdf pdfPoints linspace
  simp [List.range_succ]

/-- **C47**, discretised densities, what does hold: the densities of all values sum to one exactly if the sum of the density over
the values is the sum over the `linspace` points. -/
theorem C47_discretized_partial (f : K → K) {steps : Nat} (hne : ((pdfPoints steps).map f).sum ≠ 0) :
    ((List.range steps).map (fun i : Nat => discretizedPdf f steps ((i : K) / ((steps : K) - 1)))).sum = 1 ↔
      ((List.range steps).map (fun i : Nat => f ((i : K) / ((steps : K) - 1)))).sum = ((pdfPoints steps).map f).sum := by
  unfold discretizedPdf
  rw [show (fun i : Nat => f ((i : K) / ((steps : K) - 1)) / ((pdfPoints steps).map f).sum) =
      (· / ((pdfPoints steps).map f).sum) ∘ (fun i : Nat => f ((i : K) / ((steps : K) - 1))) from rfl,
    ← List.map_map, sum_map_div, div_eq_one_iff_eq hne]

example : ((pdfPoints 2).map (fun _ : ℚ => (1 : ℚ))).sum ≠ 0 := by
  simp [pdfPoints, linspace, List.range_succ]

/-! ## C49: samples are legal -/

/-- **C49**, uniform integers, linear scale: whatever integer below the size is drawn, the entry is legal (on its own and in an
array) and it is the entry of an integer of the range; every integer of the range is reached. -/
theorem C49_uniform_integer {l u : Int} (h : l < u) :
    (∀ draw : Nat, draw < (u - l + 1).toNat →
      legalVecSingle l u (uniformIntSample (u - l + 1).toNat draw : K) ∧
      legalVecArray l u (uniformIntSample (u - l + 1).toNat draw : K)) ∧
    (∀ draw : Nat, draw < (u - l + 1).toNat →
      (Kind.int l u).toVec (.int (l + draw)) = some (uniformIntSample (u - l + 1).toNat draw)) := by
  have hsz : ((((u - l + 1).toNat : Nat)) : K) - 1 = (u : K) - l := by
    have : ((u - l + 1).toNat : Int) = u - l + 1 := by omega
    have : (((u - l + 1).toNat : Int) : K) = ((u - l + 1 : Int) : K) := by rw [this]
    push_cast at this; linarith
  refine ⟨fun draw hd => ?_, fun draw hd => ?_⟩
  · have := C51_grid_points_partial (K := K) h (k := (draw : Int)) (by omega) (by omega)
    unfold uniformIntSample
    rw [hsz]
    have a1 := this.1
    have a2 := this.2
    push_cast at a1 a2
    exact ⟨a2, a1⟩
  · have hszq : ((((u - l + 1).toNat : Nat)) : Rat) - 1 = (u : Rat) - l := by
      have : ((u - l + 1).toNat : Int) = u - l + 1 := by omega
      have : (((u - l + 1).toNat : Int) : Rat) = ((u - l + 1 : Int) : Rat) := by rw [this]
      push_cast at this; linarith
    unfold uniformIntSample
    rw [hszq]
    simp only [Kind.toVec, Val.num?, Option.map_some, normalizeQ]
    split
    · rename_i h01
      obtain ⟨h0, h1⟩ := h01
      simp only [h0, h1]
      push_cast
      simp [h0]
    · push_cast
      congr 2
      ring

example : legalVecSingle 1 10 (uniformIntSample 10 4 : ℚ) := (C49_uniform_integer (K := ℚ) (l := 1) (u := 10) (by decide)).1 4 (by decide) |>.1

/-- **C49**, categorical and ordinal: every drawn position is a legal entry that decodes to the choice at that position. -/
theorem C49_choices {cs : List Val} {i : Nat} (h : i < cs.length) :
    (Kind.cat cs).legalVec (i : Rat) = true ∧ (Kind.ord cs).legalVec (i : Rat) = true ∧
    (Kind.cat cs).toVal (i : Rat) = some cs[i] ∧ (Kind.ord cs).toVal (i : Rat) = some cs[i] := by
  have hc : closeToInt (i : Rat) = true := by exact_mod_cast closeToInt_int (i : Int)
  have hr : rint (i : Rat) = i := by exact_mod_cast rint_int (i : Int)
  have h1 : (i : Rat) < cs.length := by exact_mod_cast h
  have h0 : (0 : Rat) ≤ i := Nat.cast_nonneg i
  have e : Kind.pyIndex cs (i : Int) = some cs[i] := by
    unfold Kind.pyIndex
    rw [if_pos (by omega)]
    simp [h]
  refine ⟨?_, ?_, ?_, ?_⟩
  · simp [Kind.legalVec, hc, h0, h1]
  · simp [Kind.legalVec, hc, h0, h1]
  · simp only [Kind.toVal, hr, hc, if_true, e]
  · simp only [Kind.toVal, hr, hc, if_true, e]

example : (Kind.cat [.str "a", .str "b"]).toVal ((1 : Nat) : Rat) = some (.str "b") := (C49_choices (by decide)).2.2.1

/-- **C49**, normal and beta integers, linear scale: the quantised sample is legal, whatever the continuous distribution
returns. -/
theorem C49_discretized {l u : Int} (h : l < u) (x : K) :
    legalVecSingle l u (quantize x 0 1 (u - l + 1).toNat) ∧ legalVecArray l u (quantize x 0 1 (u - l + 1).toNat) := by
  obtain ⟨q1, _⟩ := C32_quantize (K := K) (l := 0) (u := 1) zero_lt_one (bins := (u - l + 1).toNat) (by omega)
  obtain ⟨k, hk, e⟩ := q1 x
  have hsz : ((((u - l + 1).toNat : Nat)) : K) - 1 = (u : K) - l := by
    have : ((u - l + 1).toNat : Int) = u - l + 1 := by omega
    have : (((u - l + 1).toNat : Int) : K) = ((u - l + 1 : Int) : K) := by rw [this]
    push_cast at this; linarith
  have := C51_grid_points_partial (K := K) h (k := (k : Int)) (by omega) (by omega)
  rw [e, hsz, zero_add, sub_zero, mul_one_div]
  have a1 := this.1
  have a2 := this.2
  push_cast at a1 a2
  exact ⟨a2, a1⟩

end

/-- **C49**, uniform integers on the log scale: the quantised sample is legal, whatever the continuous distribution returns. -/
theorem C49_log_integer {l u : Int} (h0 : 0 < l) (h : l < u) (x : ℝ) :
    legalVecLogInt l u (quantizeLog x 0 1 l u (u - l + 1).toNat) := by
  have hl : (0 : ℝ) < l := by exact_mod_cast h0
  have hlu : (l : ℝ) < u := by exact_mod_cast h
  obtain ⟨q1, _⟩ := C32_quantize_log (a := 0) (b := 1) zero_lt_one hl hlu (bins := (u - l + 1).toNat) (by omega)
  obtain ⟨k, hk, e⟩ := q1 x
  have hsz : ((((u - l + 1).toNat : Nat)) : ℝ) - 1 = (u : ℝ) - l := by
    have : ((u - l + 1).toNat : Int) = u - l + 1 := by omega
    have : (((u - l + 1).toNat : Int) : ℝ) = ((u - l + 1 : Int) : ℝ) := by rw [this]
    push_cast at this; linarith
  have hne : ((u : ℝ) - l) ≠ 0 := by linarith
  rw [e, hsz, div_self hne, mul_one]
  have := (C29_round_trip_log_integer (l := l) (u := u) (n := l + k) h0 h (by omega) (by omega)).2
  have e2 : rescale (Real.log ((l : ℝ) + k)) (Real.log l) (Real.log u) 0 1 = toVecLog l u ((l + k : Int) : ℝ) := by
    unfold rescale toVecLog
    push_cast
    split
    · rename_i h01
      rw [normalize_def, h01.1, h01.2]; ring
    · simp [scale]
  rw [e2]; exact this

example : legalVecLogInt 1 100 (quantizeLog (1 / 3) 0 1 1 100 100) := by
  have := C49_log_integer (l := 1) (u := 100) (by decide) (by decide) (1 / 3)
  exact_mod_cast this

/-- Normal and beta integers with `log=True` sample illegal entries: they quantise on the linear grid although the scale is
logarithmic.  For the range 1 to 3, every raw sample in the middle third gives the entry 1/2, which stands for the square
root of 3. -/
theorem C49_log_normal_illegal {x : ℝ} (h1 : 1 / 3 ≤ x) (h2 : x < 2 / 3) :
    quantize x 0 1 3 = 1 / 2 ∧ ¬ legalVecLogInt 1 3 (quantize x 0 1 3) := by
  have hq : quantize x 0 1 3 = 1 / 2 := by
    have hf : ⌊x * ((3 : Nat) : ℝ)⌋ = 1 := by
      rw [Int.floor_eq_iff]; push_cast; constructor <;> linarith
    unfold quantize
    simp only [and_self, if_true, hf]
    rw [clip_id (by norm_num) (by norm_num)]; norm_num
  refine ⟨hq, ?_⟩
  rw [hq]
  intro hleg
  have hv : unsafeLog ((1 : Int) : ℝ) ((3 : Int) : ℝ) (1 / 2) = Real.sqrt 3 := by
    unfold unsafeLog scale
    push_cast
    rw [Real.log_one, sub_zero, add_zero, ← Real.exp_log (Real.sqrt_pos.2 (by norm_num : (0 : ℝ) < 3)),
      Real.log_sqrt (by norm_num)]
    ring_nf
  unfold legalVecLogInt at hleg
  rw [hv] at hleg
  have hs1 : (1.7 : ℝ) < Real.sqrt 3 := by
    rw [Real.lt_sqrt (by norm_num)]; norm_num
  have hs2 : Real.sqrt 3 < 1.8 := by
    rw [Real.sqrt_lt' (by norm_num)]; norm_num
  have hr : rintK (Real.sqrt 3) = 2 := by
    have hf : ⌊Real.sqrt 3⌋ = 1 := by
      rw [Int.floor_eq_iff]; push_cast; constructor <;> linarith
    unfold rintK
    simp only [hf]
    push_cast
    rw [if_neg (by linarith), if_pos (by linarith)]
  have hc := hleg.2.2
  unfold closeToIntK at hc
  rw [hr] at hc
  push_cast at hc
  rw [abs_of_neg (by linarith), abs_of_pos (by norm_num)] at hc
  linarith

example : quantize (1 / 2 : ℝ) 0 1 3 = 1 / 2 := (C49_log_normal_illegal (x := 1 / 2) (by norm_num) (by norm_num)).1

/-! ## The theorems applied to concrete cases -/

/-- Three choices with the weights 1, 0 and 3. -/
example := C47_probabilities (K := ℚ) (size := 3) (by decide) (weights := some [1, 0, 3]) (by
  intro ws h
  cases h
  exact ⟨rfl, by decide, 1, by decide, by decide⟩)

/-- A constant density on two steps. -/
example := C47_discretized_partial (K := ℚ) (fun _ => 1) (steps := 2) (by simp [pdfPoints, linspace, List.range_succ])

/-- A sample outside of the range 1 to 10. -/
example := C49_discretized (K := ℚ) (l := 1) (u := 10) (by decide) (7 / 5)

end Verif.Num
