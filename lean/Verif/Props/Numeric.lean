import Verif.Lemmas.Numeric

/-!
# Scaling, quantisation and ranges: C31, C32, C33, C34

The statements use the arithmetic of an arbitrary ordered field, and the real logarithm for the log scale.
-/

set_option autoImplicit false
set_option linter.unusedSectionVars false

namespace Verif.Num

section
variable {K : Type} [Field K] [LinearOrder K] [IsStrictOrderedRing K]

/-! ## C31 -/

/-- **C31**, linear scale: `normalize` and `scale` with the same bounds undo each other, preserve order strictly, and map
`[lower, upper]` to `[0, 1]` and back. -/
theorem C31_linear {l u : K} (h : l < u) :
    (∀ x, scale (normalize x l u) l u = x) ∧ (∀ x, normalize (scale x l u) l u = x) ∧
    (∀ x y, scale x l u < scale y l u ↔ x < y) ∧ (∀ x y, normalize x l u < normalize y l u ↔ x < y) ∧
    (∀ x, (l ≤ scale x l u ∧ scale x l u ≤ u) ↔ (0 ≤ x ∧ x ≤ 1)) ∧
    (∀ x, (0 ≤ normalize x l u ∧ normalize x l u ≤ 1) ↔ (l ≤ x ∧ x ≤ u)) ∧
    normalize l l u = 0 ∧ normalize u l u = 1 := by
  refine ⟨fun x => scale_normalize h, fun x => normalize_scale h, fun x y => scale_strict h,
    fun x y => normalize_strict h, fun x => scale_mem h, fun x => ?_, ?_, ?_⟩
  · rw [← scale_mem h, scale_normalize h]
  · rw [normalize_def, sub_self, zero_div]
  · rw [normalize_def, div_self (sub_ne_zero.2 h.ne')]

example : normalize (3 : ℚ) 1 5 = 1 / 2 ∧ scale (1 / 2 : ℚ) 1 5 = 3 := by
  constructor
  · rw [normalize_def]; norm_num
  · norm_num [scale]

/-- **C31**, general intervals: `rescale` maps `[a, b]` onto `[c, d]`, keeps the order and is undone by exchanging the
intervals. -/
theorem C31_rescale {a b c d : K} (h : a < b) (h' : c < d) :
    (∀ x, rescale (rescale x a b c d) c d a b = x) ∧
    (∀ x y, rescale x a b c d < rescale y a b c d ↔ x < y) ∧
    rescale a a b c d = c ∧ rescale b a b c d = d ∧
    (∀ x, (c ≤ rescale x a b c d ∧ rescale x a b c d ≤ d) ↔ (a ≤ x ∧ x ≤ b)) := by
  have e : ∀ x, rescale x a b c d = scale (normalize x a b) c d := by
    intro x
    unfold rescale
    split
    · rename_i h1; obtain ⟨rfl, rfl⟩ := h1; exact (scale_normalize h).symm
    · rfl
  have e' : ∀ x, rescale x c d a b = scale (normalize x c d) a b := by
    intro x
    unfold rescale
    split
    · rename_i h1; obtain ⟨rfl, rfl⟩ := h1; exact (scale_normalize h').symm
    · rfl
  obtain ⟨_, _, _, _, _, h6, h7, h8⟩ := C31_linear h
  refine ⟨fun x => ?_, fun x y => ?_, ?_, ?_, fun x => ?_⟩
  · rw [e, e', normalize_scale h', scale_normalize h]
  · rw [e, e, scale_strict h', normalize_strict h]
  · rw [e, h7, scale_zero]
  · rw [e, h8, scale_one]
  · rw [e, scale_mem h', h6]

example : rescale (3 : ℚ) 1 5 10 20 = 15 := by
  unfold rescale scale
  rw [normalize_def]; norm_num

end

/-- **C31**, logarithmic scale: `to_vector` and the unclipped `to_value` undo each other and keep the order strictly;
`to_value` maps every vector to a number within the bounds, and the bounds to 0 and 1. -/
theorem C31_log {l u : ℝ} (hl : 0 < l) (h : l < u) :
    (∀ v, 0 < v → unsafeLog l u (toVecLog l u v) = v) ∧
    (∀ x, toVecLog l u (unsafeLog l u x) = x) ∧
    (∀ x y, unsafeLog l u x < unsafeLog l u y ↔ x < y) ∧
    (∀ v w, 0 < v → 0 < w → (toVecLog l u v < toVecLog l u w ↔ v < w)) ∧
    (∀ x, l ≤ toValLogFlt l u x ∧ toValLogFlt l u x ≤ u) ∧
    (∀ v, l ≤ v → v ≤ u → toValLogFlt l u (toVecLog l u v) = v ∧ 0 ≤ toVecLog l u v ∧ toVecLog l u v ≤ 1) ∧
    toVecLog l u l = 0 ∧ toVecLog l u u = 1 := by
  have hlog : Real.log l < Real.log u := Real.log_lt_log hl h
  have h1 : ∀ v, 0 < v → unsafeLog l u (toVecLog l u v) = v := by
    intro v hv
    unfold unsafeLog toVecLog
    rw [scale_normalize hlog, Real.exp_log hv]
  obtain ⟨_, _, _, _, _, h6, h7, h8⟩ := C31_linear hlog
  refine ⟨h1, fun x => ?_, fun x y => ?_, fun v w hv hw => ?_, fun x => clip_mem h.le,
    fun v hv1 hv2 => ⟨?_, ?_⟩, h7, h8⟩
  · unfold unsafeLog toVecLog
    rw [Real.log_exp, normalize_scale hlog]
  · unfold unsafeLog
    rw [Real.exp_lt_exp, scale_strict hlog]
  · unfold toVecLog
    rw [normalize_strict hlog, Real.log_lt_log_iff hv hw]
  · unfold toValLogFlt
    rw [h1 v (hl.trans_le hv1), clip_id hv1 hv2]
  · exact (h6 _).2 ⟨Real.log_le_log hl hv1, Real.log_le_log (hl.trans_le hv1) hv2⟩

example : toVecLog 1 4 2 = 1 / 2 := by
  unfold toVecLog
  rw [normalize_def, Real.log_one, show (4 : ℝ) = 2 * 2 by norm_num, Real.log_mul (by norm_num) (by norm_num)]
  have : Real.log 2 ≠ 0 := by
    have := Real.log_pos (show (1 : ℝ) < 2 by norm_num)
    exact this.ne'
  field_simp
  ring

/-! ## C32 -/

section
variable {K : Type} [Field K] [LinearOrder K] [IsStrictOrderedRing K] [FloorRing K]

/-- **C32**: for at least two bins, `quantize` maps every number to a point of the grid
`lower + k * (upper - lower) / (bins - 1)`, `0 ≤ k < bins`; it moves points of the interval by at most a `bins`-th of its
length, leaves grid points where they are, is idempotent and keeps the order. -/
theorem C32_quantize {l u : K} (h : l < u) {bins : Nat} (hb : 2 ≤ bins) :
    (∀ x, ∃ k : Nat, k < bins ∧ quantize x l u bins = l + k * ((u - l) / (bins - 1))) ∧
    (∀ x, l ≤ x → x ≤ u → |quantize x l u bins - x| ≤ (u - l) / bins) ∧
    (∀ k : Nat, k < bins →
      quantize (l + k * ((u - l) / (bins - 1))) l u bins = l + k * ((u - l) / (bins - 1))) ∧
    (∀ x, quantize (quantize x l u bins) l u bins = quantize x l u bins) ∧
    (∀ x y, x ≤ y → quantize x l u bins ≤ quantize y l u bins) := by
  obtain ⟨n, rfl⟩ : ∃ n, bins = n + 1 := ⟨bins - 1, by omega⟩
  have hn : (0 : K) < n := by
    have : 0 < n := by omega
    exact_mod_cast this
  have hn1 : (0 : K) < ((n + 1 : Nat) : K) := by push_cast; linarith
  have e : (((n + 1 : Nat) : K) - 1) = n := by push_cast; ring
  have hul : 0 < u - l := sub_pos.2 h
  have hq := fun x => quantize_eq x l u n
  have hgrid : ∀ k : Nat, (k : K) / n * (u - l) + l = l + k * ((u - l) / n) := by intro k; ring
  have h1 : ∀ x, ∃ k : Nat, k < n + 1 ∧ quantize x l u (n + 1) = l + k * ((u - l) / n) := by
    intro x
    obtain ⟨k, hk, hc, _⟩ := clip_floor (K := K) ⌊(x - l) / (u - l) * ((n + 1 : Nat) : K)⌋ n
    exact ⟨k, by omega, by rw [hq, hc, hgrid]⟩
  have h3 : ∀ k : Nat, k < n + 1 →
      quantize (l + k * ((u - l) / n)) l u (n + 1) = l + k * ((u - l) / n) := by
    intro k hk
    obtain ⟨k', hk', hc, hc1, hc2, _⟩ := clip_floor (K := K)
      ⌊(l + k * ((u - l) / n) - l) / (u - l) * ((n + 1 : Nat) : K)⌋ n
    rw [hq, hc, hgrid]
    have ev : (l + k * ((u - l) / n) - l) / (u - l) * ((n + 1 : Nat) : K) = k + k / n := by
      push_cast
      field_simp
      ring
    rw [ev] at hc1 hc2
    have : k' = k := by
      rcases Nat.lt_or_ge k n with hlt | hge
      · have hf : ⌊(k : K) + k / n⌋ = (k : Int) := by
          rw [Int.floor_eq_iff]
          have hkn : (k : K) < n := by exact_mod_cast hlt
          have h0 : (0 : K) ≤ k := Nat.cast_nonneg k
          have h1 : (0 : K) ≤ k / n := div_nonneg h0 hn.le
          have h2 : (k : K) / n < 1 := (div_lt_one hn).2 hkn
          push_cast
          constructor <;> linarith
        have := hc1 (by omega) (by omega)
        omega
      · have hkn : k = n := by omega
        subst hkn
        refine hc2 (Int.le_floor.2 ?_)
        have : (0 : K) ≤ (k : K) / k := div_nonneg hn.le hn.le
        push_cast
        linarith
    rw [this]
  simp only [e]
  refine ⟨h1, ?_, h3, ?_, ?_⟩
  · intro x hx1 hx2
    obtain ⟨k, hk, hc, hc1, hc2, _⟩ := clip_floor (K := K) ⌊(x - l) / (u - l) * ((n + 1 : Nat) : K)⌋ n
    rw [hq, hc]
    set t := (x - l) / (u - l) with ht
    have ex : x = t * (u - l) + l := by rw [ht, div_mul_cancel₀ _ hul.ne']; ring
    have ht0 : 0 ≤ t := div_nonneg (by linarith) hul.le
    have ht1 : t ≤ 1 := (div_le_iff₀ hul).2 (by linarith)
    have hf1 := Int.floor_le (t * ((n + 1 : Nat) : K))
    have hf2 := Int.lt_floor_add_one (t * ((n + 1 : Nat) : K))
    have hz : 0 ≤ ⌊t * ((n + 1 : Nat) : K)⌋ := Int.floor_nonneg.2 (mul_nonneg ht0 hn1.le)
    -- the bin contains the point
    have hbin : (k : K) ≤ t * ((n + 1 : Nat) : K) ∧ t * ((n + 1 : Nat) : K) ≤ k + 1 := by
      rcases le_total ⌊t * ((n + 1 : Nat) : K)⌋ (n : Int) with hle | hge
      · have := hc1 hz hle
        have ek : (k : K) = ((⌊t * ((n + 1 : Nat) : K)⌋ : Int) : K) := by rw [← this]; simp
        rw [ek]
        exact ⟨hf1, hf2.le⟩
      · have hkn := hc2 hge
        subst hkn
        have h2 : ((k : Int) : K) ≤ ((⌊t * ((k + 1 : Nat) : K)⌋ : Int) : K) := by exact_mod_cast hge
        have h3 : t * ((k + 1 : Nat) : K) ≤ 1 * ((k + 1 : Nat) : K) := mul_le_mul_of_nonneg_right ht1 hn1.le
        push_cast at *
        constructor <;> linarith
    have hkn : (k : K) ≤ n := by
      have : k ≤ n := by omega
      exact_mod_cast this
    have hk0 : (0 : K) ≤ k := Nat.cast_nonneg k
    -- distance on the unit scale
    have hd : |(k : K) / n - t| ≤ 1 / ((n + 1 : Nat) : K) := by
      have e1 : (k : K) / n - k / ((n + 1 : Nat) : K) = k / n / ((n + 1 : Nat) : K) := by
        push_cast
        field_simp
        ring
      have e2 : (k : K) / n ≤ 1 := (div_le_one hn).2 hkn
      have e3 : (k : K) / n / ((n + 1 : Nat) : K) ≤ 1 / ((n + 1 : Nat) : K) :=
        div_le_div_of_nonneg_right e2 hn1.le
      have e4 : (k : K) / ((n + 1 : Nat) : K) ≤ t := (div_le_iff₀ hn1).2 hbin.1
      have e5 : t ≤ (k + 1) / ((n + 1 : Nat) : K) := (le_div_iff₀ hn1).2 hbin.2
      have e6 : ((k : K) + 1) / ((n + 1 : Nat) : K) = k / ((n + 1 : Nat) : K) + 1 / ((n + 1 : Nat) : K) := add_div _ _ _
      have e7 : 0 ≤ (k : K) / n / ((n + 1 : Nat) : K) := div_nonneg (div_nonneg hk0 hn.le) hn1.le
      rw [abs_le]
      constructor <;> linarith
    have : (k : K) / n * (u - l) + l - x = ((k : K) / n - t) * (u - l) := by
      rw [sub_mul]; linarith
    rw [this, abs_mul, abs_of_pos hul]
    calc |(k : K) / n - t| * (u - l) ≤ 1 / ((n + 1 : Nat) : K) * (u - l) := mul_le_mul_of_nonneg_right hd hul.le
      _ = (u - l) / ((n + 1 : Nat) : K) := by ring
  · intro x
    obtain ⟨k, hk, hx⟩ := h1 x
    rw [hx, h3 k hk]
  · intro x y hxy
    rw [hq, hq]
    have hfl : ⌊(x - l) / (u - l) * ((n + 1 : Nat) : K)⌋ ≤ ⌊(y - l) / (u - l) * ((n + 1 : Nat) : K)⌋ := by
      apply Int.floor_le_floor
      gcongr
    have := clip_mono (l := (0 : K)) (u := (n : K)) hn.le (show ((⌊(x - l) / (u - l) * ((n + 1 : Nat) : K)⌋ : Int) : K) ≤
      ((⌊(y - l) / (u - l) * ((n + 1 : Nat) : K)⌋ : Int) : K) by exact_mod_cast hfl)
    gcongr

end

/-- Concrete case for C32: three bins on `[10, 20]`. -/
example : quantize (14 : ℚ) 10 20 3 = 15 := by
  have : ⌊(6 / 5 : ℚ)⌋ = 1 := by rw [Int.floor_eq_iff]; norm_num
  rw [quantize_eq]
  norm_num [clip, this]

/-- Although its documentation says so, `quantize` does not go to the closest grid point: with three bins on `[0, 1]` the
point 0.3 is mapped to 0 while 0.5 is closer. -/
theorem C32_not_nearest : quantize (3 / 10 : ℚ) 0 1 3 = 0 ∧ |(3 / 10 : ℚ) - 1 / 2| < |(3 / 10 : ℚ) - 0| := by
  constructor
  · have : ⌊(9 / 10 : ℚ)⌋ = 0 := by rw [Int.floor_eq_iff]; norm_num
    rw [quantize_eq]
    norm_num [clip, this]
  · norm_num [abs_lt]

/-- **C32** on the log scale: `quantize_log` maps every number to the image of a point of the linear grid on the original
scale, leaves these points where they are and keeps the order. -/
theorem C32_quantize_log {a b l u : ℝ} (hab : a < b) (hl : 0 < l) (h : l < u) {bins : Nat} (hb : 2 ≤ bins) :
    (∀ x, ∃ k : Nat, k < bins ∧
      quantizeLog x a b l u bins =
        rescale (Real.log (l + k * ((u - l) / (bins - 1)))) (Real.log l) (Real.log u) a b) ∧
    (∀ x, a ≤ quantizeLog x a b l u bins ∧ quantizeLog x a b l u bins ≤ b) ∧
    (∀ x, quantizeLog (quantizeLog x a b l u bins) a b l u bins = quantizeLog x a b l u bins) ∧
    (∀ x y, x ≤ y → quantizeLog x a b l u bins ≤ quantizeLog y a b l u bins) := by
  have hlog : Real.log l < Real.log u := Real.log_lt_log hl h
  obtain ⟨q1, _, q3, _, q5⟩ := C32_quantize h hb
  obtain ⟨r1, r2, _, _, r5⟩ := C31_rescale hlog hab
  obtain ⟨s1, s2, _, _, s5⟩ := C31_rescale hab hlog
  have hb1 : (0 : ℝ) < bins - 1 := by
    have : (2 : ℝ) ≤ bins := by exact_mod_cast hb
    linarith
  have hmem : ∀ k : Nat, k < bins → l ≤ l + k * ((u - l) / (bins - 1)) ∧ l + k * ((u - l) / (bins - 1)) ≤ u := by
    intro k hk
    have hk' : (k : ℝ) ≤ bins - 1 := by
      have : (k : ℝ) + 1 ≤ bins := by exact_mod_cast hk
      linarith
    have h0 : 0 ≤ (u - l) / ((bins : ℝ) - 1) := div_nonneg (by linarith) hb1.le
    have h1 : (k : ℝ) * ((u - l) / (bins - 1)) ≤ (bins - 1) * ((u - l) / (bins - 1)) :=
      mul_le_mul_of_nonneg_right hk' h0
    rw [mul_div_cancel₀ _ hb1.ne'] at h1
    have h2 : 0 ≤ (k : ℝ) * ((u - l) / (bins - 1)) := mul_nonneg (Nat.cast_nonneg k) h0
    constructor <;> linarith
  have hpos : ∀ x, 0 < quantize x l u bins := by
    intro x
    obtain ⟨k, hk, hx⟩ := q1 x
    have := (hmem k hk).1
    rw [hx]; linarith
  refine ⟨?_, ?_, ?_, ?_⟩
  · intro x
    obtain ⟨k, hk, hx⟩ := q1 (Real.exp (rescale x a b (Real.log l) (Real.log u)))
    exact ⟨k, hk, by unfold quantizeLog; simp only; rw [hx]⟩
  · intro x
    obtain ⟨k, hk, hx⟩ := q1 (Real.exp (rescale x a b (Real.log l) (Real.log u)))
    unfold quantizeLog
    simp only
    rw [r5, hx]
    obtain ⟨h1, h2⟩ := hmem k hk
    exact ⟨Real.log_le_log hl h1, Real.log_le_log (hl.trans_le h1) h2⟩
  · intro x
    obtain ⟨k, hk, hx⟩ := q1 (Real.exp (rescale x a b (Real.log l) (Real.log u)))
    have hp := hpos (Real.exp (rescale x a b (Real.log l) (Real.log u)))
    unfold quantizeLog
    simp only
    rw [r1, Real.exp_log hp, hx, q3 k hk]
  · intro x y hxy
    unfold quantizeLog
    simp only
    have h1 : rescale x a b (Real.log l) (Real.log u) ≤ rescale y a b (Real.log l) (Real.log u) := by
      rw [← not_lt, s2, not_lt]; exact hxy
    have h2 := q5 _ _ (Real.exp_le_exp.2 h1)
    rw [← not_lt, r2, not_lt]
    exact Real.log_le_log (hpos _) h2

/-! ## C33 -/

/-- **C33**, step 1: the chunks of `arange_chunked(start, stop, chunk_size=c)` put together are `start, …, stop - 1`, and no
chunk has more than `c` elements.  Missing: other steps, for which the claim is false, see
`C33_step_two_wrong`. -/
theorem C33_chunks_partial {start stop c : Int} (h : start < stop) (hc : 0 < c) :
    ∃ cs, arangeChunked start stop 1 c = some cs ∧ cs.flatten = arange start stop 1 ∧
      (∀ x, x ∈ cs.flatten ↔ start ≤ x ∧ x < stop) ∧ cs.flatten.Pairwise (· < ·) ∧
      ∀ ch ∈ cs, (ch.length : Int) ≤ c := by
  refine ⟨_, by rw [arangeChunked, if_pos ⟨by decide, hc, h⟩], ?_⟩
  simp only [ceilDiv_one]
  have hflat : ((List.range (ceilDiv (stop - start) c).toNat).map (fun k : Nat =>
      arange (start + k * c) (min (start + k * c + c) stop) 1)).flatten = arange start stop 1 := by
    rw [chunks_flatten start stop c hc h.le]
    have h0 : stop - start ≤ ceilDiv (stop - start) c * c := (ceilDiv_le hc).1 (le_refl _)
    have h1 : 0 < ceilDiv (stop - start) c := (lt_ceilDiv hc).2 (by linarith)
    have h2 : (((ceilDiv (stop - start) c).toNat : Nat) : Int) = ceilDiv (stop - start) c := by omega
    rw [h2, min_eq_right (by linarith)]
  rw [hflat]
  refine ⟨rfl, ?_, arange_strict (by decide), ?_⟩
  · intro x
    rw [mem_arange (by decide)]
    constructor
    · rintro ⟨k, rfl, h'⟩; constructor <;> omega
    · rintro ⟨h1, h2⟩; exact ⟨(x - start).toNat, by omega, h2⟩
  · intro ch hch
    obtain ⟨k, _, rfl⟩ := List.mem_map.1 hch
    rw [arange_length, ceilDiv_one]
    have := min_le_left (start + k * c + c) stop
    omega

example : arangeChunked 0 10 1 3 = some [[0, 1, 2], [3, 4, 5], [6, 7, 8], [9]] := by decide +kernel

/-- For steps other than one the chunks are wrong: they start at multiples of the chunk size instead of multiples of chunk
size times step, so `range(0, 10, 2)` in chunks of 3 comes out as 0, 2, 3, 5. -/
theorem C33_step_two_wrong : arangeChunked 0 10 2 3 = some [[0, 2], [3, 5]] ∧ arange 0 10 2 = [0, 2, 4, 6, 8] := by
  decide +kernel

section
variable {K : Type} [Field K] [LinearOrder K] [IsStrictOrderedRing K]

/-- **C33** for `linspace_chunked`: the chunks put together are the points of `np.linspace`, no chunk is longer than the
chunk size. -/
theorem C33_linspace {start stop : K} (h : start < stop) {num c : Nat} (hn : 0 < num) (hc : 0 < c) (ep : Bool) :
    ∃ cs, linspaceChunked start stop num c ep = some cs ∧ cs.flatten = linspace start stop num ep ∧
      ∀ ch ∈ cs, ch.length ≤ c := by
  unfold linspaceChunked
  rw [if_pos ⟨hn, hc, h⟩]
  by_cases hle : num ≤ c
  · rw [if_pos hle]
    refine ⟨_, rfl, by simp, ?_⟩
    intro ch hch
    rw [List.mem_singleton] at hch
    subst hch
    simpa [linspace] using hle
  · rw [if_neg hle]
    obtain ⟨cs, h1, h2, _, _, h5⟩ := C33_chunks_partial (start := 0) (stop := num) (c := c) (by omega) (by omega)
    rw [h1]
    refine ⟨_, rfl, ?_, ?_⟩
    · rw [← List.map_flatten, h2]
      unfold arange linspace
      rw [ceilDiv_one, List.map_map, show ((num : Int) - 0).toNat = num by omega]
      refine List.map_congr_left fun i _ => ?_
      have hd : (if ep = true then num - 1 else num) ≠ 0 := by split <;> omega
      simp only [Function.comp, hd, if_false, zero_add, mul_one, Int.cast_natCast]
      have e : (if ep = true then (num : K) - 1 else (num : K)) = ((if ep = true then num - 1 else num : Nat) : K) := by
        split
        · rw [Nat.cast_sub (by omega), Nat.cast_one]
        · rfl
      rw [e]; ring
    · intro ch hch
      obtain ⟨c', hc', rfl⟩ := List.mem_map.1 hch
      have := h5 c' hc'
      simp only [List.length_map]
      omega

end

example : linspaceChunked (0 : ℚ) 1 5 2 true = some [[0, 1 / 4], [1 / 2, 3 / 4], [1]] := by
  decide +kernel

/-! ## C34 -/

/-- **C34**, `split_arange`: for a pivot in the range, the result lists every integer of `frm, …, to - 1` except the pivot,
once and in order. -/
theorem C34_split {frm upto p : Int} (h1 : frm ≤ p) (h2 : p < upto) :
    (∀ x, x ∈ splitArange frm upto p ↔ (frm ≤ x ∧ x < upto) ∧ x ≠ p) ∧ (splitArange frm upto p).Pairwise (· < ·) := by
  have hm : ∀ a b x : Int, x ∈ arange a b 1 ↔ a ≤ x ∧ x < b := by
    intro a b x
    rw [mem_arange (by decide)]
    constructor
    · rintro ⟨k, rfl, h'⟩; constructor <;> omega
    · rintro ⟨h1, h2⟩; exact ⟨(x - a).toNat, by omega, h2⟩
  unfold splitArange
  constructor
  · intro x
    rw [List.mem_append, hm, hm]
    omega
  · rw [List.pairwise_append]
    refine ⟨arange_strict (by decide), arange_strict (by decide), ?_⟩
    intro x hx y hy
    rw [hm] at hx hy
    omega

example : splitArange 0 5 2 = [0, 1, 3, 4] := by decide +kernel

/-- **C34**, `center_range`: for a centre in `[low, high]` and a positive step, the result lists every
`center + k * step` of `[low, high]` with `k ≠ 0`, each once, ordered by distance from the centre. -/
theorem C34_center {c low high s : Int} (hs : 0 < s) (h1 : low ≤ c) (h2 : c ≤ high) :
    ∃ r, centerRange c low high s = some r ∧ r.Nodup ∧
      (∀ x, x ∈ r ↔ ∃ k : Int, k ≠ 0 ∧ x = c + k * s ∧ low ≤ x ∧ x ≤ high) ∧
      r.Pairwise (fun x y => |x - c| ≤ |y - c|) := by
  refine ⟨_, by rw [centerRange, if_pos ⟨h1, h2⟩], ?_, ?_, ?_⟩
  · rw [(roundrobin_perm _ _).nodup_iff, List.nodup_append']
    refine ⟨(arangeDown_strict hs).imp (fun h => h.ne'), (arange_strict hs).imp (fun h => h.ne), ?_⟩
    intro x hx hy
    rw [mem_arangeDown hs] at hx
    rw [mem_arange hs] at hy
    obtain ⟨k, rfl, _⟩ := hx
    obtain ⟨k', h', _⟩ := hy
    have e1 : (0 : Int) ≤ k * s := mul_nonneg (by omega) hs.le
    have e2 : (0 : Int) ≤ k' * s := mul_nonneg (by omega) hs.le
    linarith
  · intro x
    rw [(roundrobin_perm _ _).mem_iff, List.mem_append, mem_arangeDown hs, mem_arange hs]
    constructor
    · rintro (⟨k, rfl, h'⟩ | ⟨k, rfl, h'⟩)
      · have e1 : (0 : Int) ≤ k * s := mul_nonneg (by omega) hs.le
        exact ⟨-(k + 1), by omega, by ring, by linarith, by linarith⟩
      · have e1 : (0 : Int) ≤ k * s := mul_nonneg (by omega) hs.le
        exact ⟨k + 1, by omega, by ring, by linarith, by linarith⟩
    · rintro ⟨k, hk, rfl, hlo, hhi⟩
      rcases lt_or_gt_of_ne hk with hneg | hpos
      · refine .inl ⟨(-k - 1).toNat, ?_, by linarith⟩
        rw [Int.toNat_of_nonneg (by omega)]; ring
      · refine .inr ⟨(k - 1).toNat, ?_, by linarith⟩
        rw [Int.toNat_of_nonneg (by omega)]; ring
  · have hsort := (roundrobin_sorted (ceilDiv (c - s - (low - 1)) s).toNat
      (ceilDiv (high + 1 - (c + s)) s).toNat 1 1 (.inl rfl)).1
    rw [← map_key_down c s hs, ← map_key_up c s hs, ← roundrobin_map, List.pairwise_map] at hsort
    refine List.Pairwise.imp_of_mem ?_ hsort
    intro x y hx hy hxy
    have hmul : ∀ z ∈ roundrobin (arangeDown (c - s) (low - 1) s) (arange (c + s) (high + 1) s),
        ∃ k : Int, z - c = k * s := by
      intro z hz
      rw [(roundrobin_perm _ _).mem_iff, List.mem_append, mem_arangeDown hs, mem_arange hs] at hz
      rcases hz with ⟨k, rfl, _⟩ | ⟨k, rfl, _⟩
      · exact ⟨-(k + 1), by ring⟩
      · exact ⟨k + 1, by ring⟩
    obtain ⟨i, hi⟩ := hmul x hx
    obtain ⟨j, hj⟩ := hmul y hy
    have hsn : 0 < s.natAbs := by omega
    rw [hi, hj, Int.natAbs_mul, Int.natAbs_mul, Nat.mul_div_cancel _ hsn, Nat.mul_div_cancel _ hsn] at hxy
    rw [hi, hj, abs_mul, abs_mul]
    have : |i| ≤ |j| := by
      rw [Int.abs_eq_natAbs, Int.abs_eq_natAbs]; exact_mod_cast hxy
    exact mul_le_mul_of_nonneg_right this (abs_nonneg s)

example : centerRange 5 0 8 1 = some [4, 6, 3, 7, 2, 8, 1, 0] := by
  have : roundrobin [4, 3, 2, 1, 0] [6, 7, 8] = ([4, 6, 3, 7, 2, 8, 1, 0] : List Int) := by simp [roundrobin]
  rw [centerRange, if_pos (by decide)]
  rw [show arangeDown (5 - 1) (0 - 1) 1 = [4, 3, 2, 1, 0] by decide +kernel,
    show arange (5 + 1) (8 + 1) 1 = [6, 7, 8] by decide +kernel, this]

/-! ## The theorems applied to concrete cases -/

example := C33_chunks_partial (start := -2) (stop := 8) (c := 3) (by decide) (by decide)
example := C33_linspace (start := (0 : ℚ)) (stop := 1) (num := 5) (c := 2) (by decide) (by decide) (by decide) true
example := C34_split (frm := 0) (upto := 5) (p := 2) (by decide) (by decide)
example := C34_center (c := 5) (low := 0) (high := 8) (s := 2) (by decide) (by decide) (by decide)

end Verif.Num
