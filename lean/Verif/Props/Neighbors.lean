import Verif.Props.Numeric
import Verif.Lemmas.Neighbors
import Verif.Props.Values

/-!
# Neighbours of single values: C35, C36, C37, C53

Random choices are universally quantified: every permutation the generator's `shuffle` may apply, every batch of samples
`normal` may return.
-/

set_option autoImplicit false
set_option linter.unusedSectionVars false

namespace Verif.Num

/-! ## C35: choices -/

/-- **C35**, categorical (partial: the entry is an exact integer, see the counterexample).  The proposed
neighbours are distinct positions of other choices; at most as many as there are other choices, and all of them if
enough are asked for. -/
theorem C35_categorical_partial {size i n : Nat} (hi : i < size) {shuffle : List Nat → List Nat}
    (hs : ∀ l, (shuffle l).Perm l) :
    ∃ r, catNeighbors size i n shuffle = some r ∧ r.Nodup ∧ (∀ j ∈ r, j < size ∧ j ≠ i) ∧
      r.length = (if size ≤ 5 then size - 1 else min n (size - 1)) ∧
      (size - 1 ≤ n → ∀ j, j ∈ r ↔ j < size ∧ j ≠ i) := by
  have hp : (((i : Nat) : Rat)).floor.toNat = i := by
    have : ((i : Nat) : Rat).floor = (i : Int) := by
      have := Rat.floor_intCast (i : Int)
      simpa using this
    rw [this]; simp
  have hperm := hs (others size i)
  have hmem : ∀ j, j ∈ shuffle (others size i) ↔ j < size ∧ j ≠ i := by
    intro j; rw [hperm.mem_iff, mem_others hi]
  have hnd : (shuffle (others size i)).Nodup := hperm.nodup_iff.2 (others_nodup hi)
  have hlen : (shuffle (others size i)).length = size - 1 := by rw [hperm.length_eq, others_length hi]
  unfold catNeighbors
  simp only [hp]
  by_cases h5 : size ≤ 5
  · rw [if_pos h5, if_pos hi]
    exact ⟨_, rfl, hnd, fun j hj => (hmem j).1 hj, by rw [hlen, if_pos h5], fun _ => hmem⟩
  · rw [if_neg h5]
    refine ⟨_, rfl, hnd.sublist (List.take_sublist _ _), fun j hj => (hmem j).1 (List.mem_of_mem_take hj), ?_, ?_⟩
    · rw [List.length_take, hlen, if_neg h5]
    · intro hle j
      rw [List.take_of_length_le (by omega)]
      exact hmem j

example : catNeighbors 3 1 2 id = some [0, 2] ∧ catNeighbors 7 1 2 id = some [0, 2] := by decide +kernel

/-- With up to five choices the requested number is ignored: all other choices are returned. -/
theorem C35_small_ignores_n : catNeighbors 4 1 1 id = some [0, 2, 3] := by decide +kernel

/-- The restriction to exact integers is needed: the entry `1 - 1e-6` is legal and stands for the second choice, but
the second choice is among its neighbours, since the entry is truncated instead of rounded. -/
theorem C35_current_value_proposed :
    (Kind.cat [.str "a", .str "b", .str "c"]).legalVec (999999 / 1000000) = true ∧
    (Kind.cat [.str "a", .str "b", .str "c"]).toVal (999999 / 1000000) = some (.str "b") ∧
    catNeighbors 3 (999999 / 1000000) 2 id = some [1, 2] ∧
    (Kind.cat [.str "a", .str "b", .str "c"]).toVal 1 = some (.str "b") := by decide +kernel

/-- **C35**, ordinal (partial: exact integer entries).  The neighbours are the adjacent positions: all of them if two are
asked for, otherwise one of them. -/
theorem C35_ordinal_partial {size i n : Nat} (hi : i < size) (pick : Bool) :
    ∃ r : List Rat, ordNeighbors size i n pick = some r ∧ r.Nodup ∧
      (∀ y ∈ r, ∃ j : Nat, y = j ∧ j < size ∧ (j + 1 = i ∨ j = i + 1)) ∧
      (2 ≤ n → ∀ j : Nat, j < size → (j + 1 = i ∨ j = i + 1) → (j : Rat) ∈ r) ∧
      (2 ≤ size → r ≠ []) := by
  have h0 : (0 : Rat) ≤ (i : Rat) := Nat.cast_nonneg i
  have h1 : (i : Rat) ≤ (size : Rat) - 1 := by
    have : (i : Rat) + 1 ≤ size := by exact_mod_cast hi
    linarith
  unfold ordNeighbors
  simp only [if_pos (And.intro h0 h1)]
  by_cases hs : size = 1
  · rw [if_pos hs]
    refine ⟨[], rfl, List.nodup_nil, by simp, ?_, by omega⟩
    intro _ j hj h; omega
  rw [if_neg hs]
  by_cases hi0 : (i : Rat) = 0
  · have hi0' : i = 0 := by exact_mod_cast hi0
    subst hi0'
    rw [if_pos hi0]
    refine ⟨[1], rfl, by simp, ?_, ?_, by simp⟩
    · intro y hy
      rw [List.mem_singleton] at hy
      exact ⟨1, by rw [hy]; norm_num, by omega, .inr rfl⟩
    · intro _ j hj h
      have : j = 1 := by omega
      subst this
      simp
  rw [if_neg hi0, rint_nat]
  have hi0' : i ≠ 0 := by
    intro h; exact hi0 (by rw [h]; norm_num)
  by_cases hend : (((i : Int)) : Rat) = (size : Rat) - 1
  · have hend' : i + 1 = size := by
      have : (i : Rat) + 1 = size := by push_cast at hend; linarith
      exact_mod_cast this
    rw [if_pos hend]
    refine ⟨_, rfl, by simp, ?_, ?_, by simp⟩
    · intro y hy
      rw [List.mem_singleton] at hy
      refine ⟨i - 1, ?_, by omega, .inl (by omega)⟩
      rw [hy, Nat.cast_sub (by omega), ← hend]
      push_cast; ring
    · intro _ j hj h
      have : j + 1 = i := by omega
      rw [List.mem_singleton, ← hend, ← this]
      push_cast; ring
  rw [if_neg hend]
  have hlast : i + 1 < size := by
    rcases Nat.lt_or_ge (i + 1) size with h | h
    · exact h
    · exfalso
      apply hend
      have : i + 1 = size := by omega
      rw [← this]
      push_cast; ring
  have ea : ((rint ((i : Rat) - 1) : Int) : Rat) = ((i - 1 : Nat) : Rat) := by
    rw [show (i : Rat) - 1 = (((i - 1 : Nat) : Int) : Rat) by
      rw [Int.cast_natCast, Nat.cast_sub (by omega)]; norm_num, rint_int]
    simp
  have eb : ((rint ((i : Rat) + 1) : Int) : Rat) = ((i + 1 : Nat) : Rat) := by
    rw [show (i : Rat) + 1 = (((i + 1 : Nat) : Int) : Rat) by push_cast; ring, rint_int]
    simp
  rw [ea, eb]
  have hadj1 : ∃ j : Nat, ((i - 1 : Nat) : Rat) = j ∧ j < size ∧ (j + 1 = i ∨ j = i + 1) :=
    ⟨i - 1, rfl, by omega, .inl (by omega)⟩
  have hadj2 : ∃ j : Nat, ((i + 1 : Nat) : Rat) = j ∧ j < size ∧ (j + 1 = i ∨ j = i + 1) :=
    ⟨i + 1, rfl, by omega, .inr rfl⟩
  by_cases hn : 2 ≤ n
  · rw [if_pos hn]
    refine ⟨_, rfl, ?_, ?_, ?_, by simp⟩
    · rw [List.nodup_cons]
      refine ⟨?_, by simp⟩
      rw [List.mem_singleton]
      intro h
      have : i - 1 = i + 1 := by exact_mod_cast h
      omega
    · intro y hy
      rcases List.mem_cons.1 hy with rfl | hy
      · exact hadj1
      · rw [List.mem_singleton] at hy; subst hy; exact hadj2
    · intro _ j hj h
      rcases h with h | h
      · have : j = i - 1 := by omega
        subst this; simp
      · subst h; simp
  · rw [if_neg hn]
    refine ⟨_, rfl, by simp, ?_, fun h => absurd h hn, by simp⟩
    intro y hy
    rw [List.mem_singleton] at hy
    subst hy
    cases pick
    · exact hadj2
    · exact hadj1

example : ordNeighbors 4 2 2 true = some [1, 3] ∧ ordNeighbors 4 0 5 true = some [1] := by decide +kernel

/-- The restriction to exact integers is needed here as well: the entry `1e-14` is legal and stands for the first value, but
one of the proposed neighbours is `-1`, which is not legal. -/
theorem C35_ordinal_illegal_neighbor :
    (Kind.ord [.str "a", .str "b", .str "c"]).legalVec (1 / 10 ^ 14) = true ∧
    ordNeighbors 3 (1 / 10 ^ 14) 2 true = some [-1, 1] ∧
    (Kind.ord [.str "a", .str "b", .str "c"]).legalVec (-1) = false := by decide +kernel

/-! ## C36: integers -/

section
variable {K : Type} [Field K] [LinearOrder K] [IsStrictOrderedRing K] [FloorRing K]

/-- **C36**: for a centre `k / (bins - 1)` on the grid, `quantized_neighborhood` returns distinct grid points different from
the centre, as many as asked for or as there are; if all are asked for, exactly the other grid points.  (The other case ends
with an error if the generator does not produce enough different samples.) -/
theorem C36_integer_neighbors {bins k n : Nat} (hb : 2 ≤ bins) (hk : k < bins) (draws : List (List K)) :
    (bins - 1 ≤ n → ∃ r, quantizedNeighborhood ((k : K) / ((bins : K) - 1)) n 0 1 bins draws = some r) ∧
    ∀ r, quantizedNeighborhood ((k : K) / ((bins : K) - 1)) n 0 1 bins draws = some r →
      r.Nodup ∧ (∀ y ∈ r, ∃ j : Nat, j < bins ∧ j ≠ k ∧ y = (j : K) / ((bins : K) - 1)) ∧
      r.length = min n (bins - 1) ∧
      (bins - 1 ≤ n → ∀ j : Nat, j < bins → j ≠ k → (j : K) / ((bins : K) - 1) ∈ r) := by
  have hb1 : (0 : K) < (bins : K) - 1 := by
    have : (2 : K) ≤ bins := by exact_mod_cast hb
    linarith
  obtain ⟨q1, _, q3, _, _⟩ := C32_quantize (show (0 : K) < 1 from zero_lt_one) hb
  have eg : ∀ j : Nat, (0 : K) + j * ((1 - 0) / ((bins : K) - 1)) = j / ((bins : K) - 1) := by intro j; ring
  simp only [eg] at q1 q3
  have hq := q3 k hk
  have hinj : ∀ i j : Nat, (i : K) / ((bins : K) - 1) = (j : K) / ((bins : K) - 1) → i = j := by
    intro i j h
    rw [div_left_inj' hb1.ne'] at h
    exact_mod_cast h
  -- the list of all others
  have hall : ∀ l : List Nat, (∀ j, j ∈ l ↔ j < bins ∧ j ≠ k) → l.Nodup → bins - 1 ≤ n → l.length = bins - 1 →
      (l.map (fun i : Nat => (i : K) / ((bins : K) - 1))).Nodup ∧
      (∀ y ∈ l.map (fun i : Nat => (i : K) / ((bins : K) - 1)), ∃ j : Nat, j < bins ∧ j ≠ k ∧ y = (j : K) / ((bins : K) - 1)) ∧
      (l.map (fun i : Nat => (i : K) / ((bins : K) - 1))).length = min n (bins - 1) ∧
      (bins - 1 ≤ n → ∀ j : Nat, j < bins → j ≠ k →
        (j : K) / ((bins : K) - 1) ∈ l.map (fun i : Nat => (i : K) / ((bins : K) - 1))) := by
    intro l hl hnd hn hlen
    refine ⟨hnd.map (fun i j h => hinj i j h), ?_, ?_, ?_⟩
    · intro y hy
      obtain ⟨j, hj, rfl⟩ := List.mem_map.1 hy
      exact ⟨j, ((hl j).1 hj).1, ((hl j).1 hj).2, rfl⟩
    · rw [List.length_map, hlen]; omega
    · intro _ j h1 h2
      exact List.mem_map.2 ⟨j, (hl j).2 ⟨h1, h2⟩, rfl⟩
  by_cases hn : bins - 1 ≤ n
  · have key : ∃ l : List Nat, quantizedNeighborhood ((k : K) / ((bins : K) - 1)) n 0 1 bins draws =
        some (l.map (fun i : Nat => (i : K) / ((bins : K) - 1))) ∧ (∀ j, j ∈ l ↔ j < bins ∧ j ≠ k) ∧ l.Nodup ∧
        l.length = bins - 1 := by
      unfold quantizedNeighborhood
      simp only [hq, if_pos hn]
      by_cases h0 : (k : K) / ((bins : K) - 1) = 0
      · have hk0 : k = 0 := hinj k 0 (by rw [h0]; simp)
        subst hk0
        rw [if_pos h0]
        refine ⟨_, rfl, ?_, List.nodup_range', by simp⟩
        intro j
        rw [List.mem_range'_1]; omega
      rw [if_neg h0]
      by_cases h1 : (k : K) / ((bins : K) - 1) = (bins : K) - 1
      · have hkn : (k : K) ≤ (bins : K) - 1 := by
          have : (k : K) + 1 ≤ bins := by exact_mod_cast hk
          linarith
        have hle1 : (k : K) / ((bins : K) - 1) ≤ 1 := (div_le_one hb1).2 hkn
        rw [h1] at hle1
        have hb2 : bins = 2 := by
          have : (bins : K) ≤ 2 := by linarith
          have : bins ≤ 2 := by exact_mod_cast this
          omega
        subst hb2
        have hk1 : k = 1 := by
          have : k ≠ 0 := by
            rintro rfl; exact h0 (by simp)
          omega
        subst hk1
        rw [if_pos h1]
        refine ⟨_, rfl, ?_, List.nodup_range, by simp⟩
        intro j
        rw [List.mem_range]; omega
      · rw [if_neg h1, div_mul_cancel₀ _ hb1.ne']
        have e : rintK ((k : Nat) : K) = (k : Int) := by
          have := rintK_int (K := K) (k : Int)
          simpa using this
        rw [e, Int.toNat_natCast]
        exact ⟨_, rfl, fun j => mem_others hk, others_nodup hk, others_length hk⟩
    obtain ⟨l, h1, h2, h3, h4⟩ := key
    rw [h1]
    refine ⟨fun _ => ⟨_, rfl⟩, ?_⟩
    rintro r ⟨⟩
    exact hall l h2 h3 hn h4
  · refine ⟨fun h => absurd h hn, ?_⟩
    intro r hr
    unfold quantizedNeighborhood at hr
    simp only [hq, if_neg hn] at hr
    obtain ⟨r1, r2, r3⟩ := neighborLoop_spec
      (P := fun y => ∃ j : Nat, j < bins ∧ y = (j : K) / ((bins : K) - 1)) (fun c _ _ => q1 c) draws [] r List.nodup_nil
      (by simp) hr
    refine ⟨r2, ?_, by omega, fun h => absurd h hn⟩
    intro y hy
    obtain ⟨⟨j, hj, rfl⟩, hne⟩ := r3 y hy
    refine ⟨j, hj, ?_, rfl⟩
    rintro rfl
    exact hne rfl

/-- **C53**: neighbours of a float are exactly as many numbers as asked for, all within the bounds. -/
theorem C53_float_neighbors {lower upper : K} {n : Nat} {draws : List (List K)} {r : List K}
    (h : continuousNeighborhood lower upper n draws = some r) :
    r.length = n ∧ ∀ y ∈ r, lower ≤ y ∧ y ≤ upper :=
  continuousLoop_spec draws [] r (by simp) h

end

example : continuousNeighborhood (0 : ℚ) 1 2 [[-1, 1 / 2], [1 / 3, 1 / 4]] = some [1 / 2, 1 / 3] := by decide +kernel

/-- **C36** in terms of values: for the integer range `l..u` and the current value `m`, every proposed neighbour is a legal
entry that decodes to another integer of the range, the integers are distinct, and all others are proposed if enough
neighbours are asked for. -/
theorem C36_integer_values {l u m : Int} (hlu : l < u) (h1 : l ≤ m) (h2 : m ≤ u) {x : Rat} {n : Nat}
    {draws : List (List Rat)} {r : List Rat} (hx : (Kind.int l u).toVec (.int m) = some x)
    (hr : quantizedNeighborhood x n 0 1 (u - l + 1).toNat draws = some r) :
    (∀ y ∈ r, (Kind.int l u).legalVec y = true ∧
      ∃ m' : Int, m' ≠ m ∧ (l ≤ m' ∧ m' ≤ u) ∧ (Kind.int l u).toVal y = some (.int m')) ∧
    (r.map (Kind.int l u).toVal).Nodup ∧
    (((u - l).toNat : Nat) ≤ n → ∀ m' : Int, l ≤ m' → m' ≤ u → m' ≠ m →
      some (.int m') ∈ r.map (Kind.int l u).toVal) := by
  obtain ⟨k, rfl⟩ : ∃ k : Nat, m = l + k := ⟨(m - l).toNat, by omega⟩
  obtain ⟨d, rfl⟩ : ∃ d : Nat, u = l + d := ⟨(u - l).toNat, by omega⟩
  have hd : 0 < d := by omega
  have hdQ : (0 : Rat) < d := by exact_mod_cast hd
  have eb : (l + d - l + 1).toNat = d + 1 := by omega
  have ebq : (((d + 1 : Nat)) : Rat) - 1 = d := by push_cast; ring
  have hxe : x = (k : Rat) / (((d + 1 : Nat) : Rat) - 1) := by
    simp only [Kind.toVec, Val.num?, Option.map_some, Option.some.injEq, normalize_eq] at hx
    rw [← hx, ebq]
    push_cast
    congr 1 <;> ring
  have hk : k < d + 1 := by omega
  subst hxe
  rw [eb] at hr
  obtain ⟨_, hspec⟩ := C36_integer_neighbors (K := Rat) (bins := d + 1) (n := n) (by omega) hk draws
  obtain ⟨r1, r2, r3, r4⟩ := hspec r hr
  rw [ebq] at *
  have hval : ∀ j : Nat, (Kind.int l (l + d)).toVal ((j : Rat) / d) = some (.int (l + j)) := by
    intro j
    simp only [Kind.toVal, scaleQ]
    congr 2
    rw [show (j : Rat) / d * (((l + d : Int) : Rat) - l) + l = ((l + j : Int) : Rat) by
      push_cast
      field_simp
      ring, rint_int]
  have hlegal : ∀ j : Nat, j < d + 1 → (Kind.int l (l + d)).legalVec ((j : Rat) / d) = true := by
    intro j hj
    have hj' : (j : Rat) ≤ d := by
      have : j ≤ d := by omega
      exact_mod_cast this
    simp only [Kind.legalVec, Bool.and_eq_true, decide_eq_true_eq]
    refine ⟨?_, div_nonneg (Nat.cast_nonneg j) hdQ.le, (div_le_one hdQ).2 hj'⟩
    rw [show (j : Rat) / d * (((l + d : Int) : Rat) - l) = ((j : Nat) : Rat) by
      push_cast
      field_simp
      ring]
    exact closeToInt_nat j
  refine ⟨?_, ?_, ?_⟩
  · intro y hy
    obtain ⟨j, hj, hne, rfl⟩ := r2 y hy
    refine ⟨hlegal j hj, l + j, by omega, by omega, hval j⟩
  · rw [List.nodup_iff_pairwise_ne] at r1 ⊢
    rw [List.pairwise_map]
    refine List.Pairwise.imp_of_mem ?_ r1
    intro y y' hy hy' hne
    obtain ⟨j, hj, _, rfl⟩ := r2 y hy
    obtain ⟨j', hj', _, rfl⟩ := r2 y' hy'
    rw [hval, hval]
    intro h
    simp only [Option.some.injEq, Val.int.injEq] at h
    apply hne
    have : j = j' := by omega
    rw [this]
  · intro hn m' hm1 hm2 hne
    obtain ⟨j, rfl⟩ : ∃ j : Nat, m' = l + j := ⟨(m' - l).toNat, by omega⟩
    have := r4 (by omega) j (by omega) (by omega)
    exact List.mem_map.2 ⟨_, this, hval j⟩

example : quantizedNeighborhood (1 / 3 : ℚ) 3 0 1 4 [] = some [0, 2 / 3, 1] := by
  obtain ⟨h, _⟩ := C36_integer_neighbors (K := ℚ) (bins := 4) (k := 1) (n := 3) (by decide) (by decide) []
  have hq : quantize (1 / 3 : ℚ) 0 1 4 = 1 / 3 := by
    have : ⌊(4 / 3 : ℚ)⌋ = 1 := by rw [Int.floor_eq_iff]; norm_num
    rw [quantize_eq]
    norm_num [clip, this]
  unfold quantizedNeighborhood
  rw [hq, if_pos (by decide), if_neg (by norm_num), if_neg (by norm_num)]
  have : rintK (1 / 3 * (((4 : Nat) : ℚ) - 1)) = 1 := by
    rw [show (1 / 3 * (((4 : Nat) : ℚ) - 1)) = ((1 : Int) : ℚ) by norm_num, rintK_int]
  simp only [this]
  norm_num [others, List.range, List.range.loop]

section
variable {K : Type} [Field K] [LinearOrder K] [IsStrictOrderedRing K] [FloorRing K]

/-- **C36** for normal and beta distributed integers (partial: fewer neighbours asked for than there are; otherwise it is
false, see below): distinct grid points other than the centre. -/
theorem C36_discretized_partial {steps k n : Nat} (hb : 2 ≤ steps) (hk : k < steps) (hn : n < steps - 1)
    {draws : List (List K)} {r : List K}
    (hr : discretizedNeighborhood ((k : K) / ((steps : K) - 1)) n 0 1 steps draws = some r) :
    r.length = n ∧ r.Nodup ∧ ∀ y ∈ r, ∃ j : Nat, j < steps ∧ j ≠ k ∧ y = (j : K) / ((steps : K) - 1) := by
  obtain ⟨q1, _, q3, _, _⟩ := C32_quantize (show (0 : K) < 1 from zero_lt_one) hb
  have eg : ∀ j : Nat, (0 : K) + j * ((1 - 0) / ((steps : K) - 1)) = j / ((steps : K) - 1) := by intro j; ring
  simp only [eg] at q1 q3
  unfold discretizedNeighborhood at hr
  simp only [q3 k hk, if_neg (show ¬ steps - 1 ≤ n by omega)] at hr
  obtain ⟨r1, r2, r3⟩ := neighborLoop_spec
    (P := fun y => ∃ j : Nat, j < steps ∧ y = (j : K) / ((steps : K) - 1)) (fun c _ _ => q1 c) draws [] r List.nodup_nil
    (by simp) hr
  refine ⟨r1, r2, ?_⟩
  intro y hy
  obtain ⟨⟨j, hj, rfl⟩, hne⟩ := r3 y hy
  refine ⟨j, hj, ?_, rfl⟩
  rintro rfl
  exact hne rfl

end

/-- For normal and beta distributed integers, asking for all neighbours of the second smallest value always yields an illegal
entry: half way between the first two grid points.  (The points below the centre are spaced with one point too many.) -/
theorem C36_discretized_illegal_neighbor {l u : Int} (h : l < u) {n : Nat} (hn : (u - l).toNat ≤ n) :
    ∃ r, discretizedNeighborhood (1 / ((u : ℚ) - l)) n 0 1 (u - l + 1).toNat [] = some r ∧
      1 / (2 * ((u : ℚ) - l)) ∈ r ∧ ¬ legalVecSingle l u (1 / (2 * ((u : ℚ) - l)) : ℚ) ∧
      (Kind.int l u).legalVec (1 / (2 * ((u : ℚ) - l))) = false := by
  obtain ⟨d, rfl⟩ : ∃ d : Nat, u = l + d := ⟨(u - l).toNat, by omega⟩
  have hd : 0 < d := by omega
  have hdQ : (0 : ℚ) < d := by exact_mod_cast hd
  have eb : (l + d - l + 1).toNat = d + 1 := by omega
  have ebq : (((d + 1 : Nat)) : ℚ) - 1 = d := by push_cast; ring
  have ed : (((l + d : Int) : ℚ)) - l = d := by push_cast; ring
  have hr2 : rintK (1 / 2 : ℚ) = 0 := by
    have : ⌊(1 / 2 : ℚ)⌋ = 0 := by rw [Int.floor_eq_iff]; norm_num
    unfold rintK
    rw [this]; norm_num
  obtain ⟨_, _, q3, _, _⟩ := C32_quantize (show (0 : ℚ) < 1 from zero_lt_one) (bins := d + 1) (by omega)
  have hq : quantize (1 / (d : ℚ)) 0 1 (d + 1) = 1 / d := by
    have := q3 1 (by omega)
    rw [ebq] at this
    simpa using this
  have hhalf : (1 / (2 * (d : ℚ))) * d = 1 / 2 := by field_simp
  rw [eb, ed]
  have hex : ∃ r, discretizedNeighborhood (1 / (d : ℚ)) n 0 1 (d + 1) [] = some r ∧ 1 / (2 * (d : ℚ)) ∈ r := by
    unfold discretizedNeighborhood
    rw [hq, if_pos (by omega), ebq]
    refine ⟨_, rfl, ?_⟩
    have hfl : ⌊(1 / (d : ℚ) - 0) / ((1 - 0) / d)⌋ = 1 := by
      have : (1 / (d : ℚ) - 0) / ((1 - 0) / d) = 1 := by field_simp; ring
      rw [this]; simp
    simp only [hfl]
    rw [List.mem_append]
    left
    rw [if_neg (by decide)]
    unfold linspace
    refine List.mem_map.2 ⟨1, by decide, ?_⟩
    norm_num
    field_simp
  obtain ⟨r, hr, hm⟩ := hex
  refine ⟨r, hr, hm, ?_, ?_⟩
  · rintro ⟨hc, _⟩
    rw [ed, hhalf] at hc
    unfold closeToIntK at hc
    rw [hr2] at hc
    norm_num [abs_le] at hc
  · simp only [Kind.legalVec]
    rw [ed, hhalf]
    have : closeToInt (1 / 2) = false := by decide +kernel
    rw [this]; rfl

/-- The image of a grid point is left where it is by `quantize_log`. -/
theorem quantizeLog_grid {l u : ℝ} (hl : 0 < l) (h : l < u) {bins k : Nat} (hb : 2 ≤ bins) (hk : k < bins) :
    quantizeLog (toVecLog l u (l + k * ((u - l) / (bins - 1)))) 0 1 l u bins =
      toVecLog l u (l + k * ((u - l) / (bins - 1))) := by
  have hlog : Real.log l < Real.log u := Real.log_lt_log hl h
  obtain ⟨_, _, q3, _, _⟩ := C32_quantize h hb
  have hb1 : (0 : ℝ) < bins - 1 := by
    have : (2 : ℝ) ≤ bins := by exact_mod_cast hb
    linarith
  have hpos : 0 < l + k * ((u - l) / ((bins : ℝ) - 1)) := by
    have : 0 ≤ (k : ℝ) * ((u - l) / (bins - 1)) :=
      mul_nonneg (Nat.cast_nonneg k) (div_nonneg (by linarith) hb1.le)
    linarith
  have e : ∀ v, toVecLog l u v = rescale (Real.log v) (Real.log l) (Real.log u) 0 1 := by
    intro v
    unfold toVecLog rescale
    split
    · rename_i h1; rw [h1.1, h1.2]; simp [normalize]
    · simp [scale]
  obtain ⟨r1, _, _, _, _⟩ := C31_rescale hlog (show (0 : ℝ) < 1 from one_pos)
  unfold quantizeLog
  simp only
  rw [e, r1, Real.exp_log hpos, q3 k hk]

/-- **C36**, integers on the log scale: for the current value `m` of `l..u`, the proposed neighbours are the representations
of distinct other integers of the range, as many as asked for or as there are, and all others if enough are asked for. -/
theorem C36_log_integer {l u m : Int} (h0 : 0 < l) (hlu : l < u) (h1 : l ≤ m) (h2 : m ≤ u) {n : Nat}
    {draws : List (List ℝ)} {r : List ℝ} (hr : logNeighborhood (toVecLog l u m) n l u draws = some r) :
    r.Nodup ∧ (∀ y ∈ r, ∃ m' : Int, (l ≤ m' ∧ m' ≤ u) ∧ m' ≠ m ∧ y = toVecLog l u m') ∧
    r.length = min n (u - l).toNat ∧
    ((u - l).toNat ≤ n → ∀ m' : Int, l ≤ m' → m' ≤ u → m' ≠ m → toVecLog l u m' ∈ r) := by
  obtain ⟨k, rfl⟩ : ∃ k : Nat, m = l + k := ⟨(m - l).toNat, by omega⟩
  obtain ⟨d, rfl⟩ : ∃ d : Nat, u = l + d := ⟨(u - l).toNat, by omega⟩
  have hd : 0 < d := by omega
  have hkd : k ≤ d := by omega
  have hdR : (0 : ℝ) < d := by exact_mod_cast hd
  have hl : (0 : ℝ) < l := by exact_mod_cast h0
  have hluR : (l : ℝ) < ((l + d : Int) : ℝ) := by push_cast; linarith
  have eb : (l + d - l + 1).toNat = d + 1 := by omega
  have ed : (l + d - l).toNat = d := by omega
  have ebq : (((d + 1 : Nat)) : ℝ) - 1 = d := by push_cast; ring
  have edu : (((l + d : Int)) : ℝ) - l = d := by push_cast; ring
  have hstep : ((((l + d : Int)) : ℝ) - l) / ((((d + 1 : Nat)) : ℝ) - 1) = 1 := by
    rw [edu, ebq, div_self hdR.ne']
  have hgrid : ∀ j : Nat, (l : ℝ) + j * (((((l + d : Int)) : ℝ) - l) / ((((d + 1 : Nat)) : ℝ) - 1)) = ((l + j : Int) : ℝ) := by
    intro j; rw [hstep]; push_cast; ring
  have hq : ∀ j : Nat, j < d + 1 →
      quantizeLog (toVecLog l (l + d : Int) ((l + j : Int) : ℝ)) 0 1 l (l + d : Int) (d + 1) =
        toVecLog l (l + d : Int) ((l + j : Int) : ℝ) := by
    intro j hj
    have := quantizeLog_grid hl hluR (bins := d + 1) (k := j) (by omega) hj
    rw [hgrid] at this
    exact this
  obtain ⟨_, _, _, c4, _, _, _, _⟩ := C31_log hl hluR
  have hinj : ∀ a b : Int, 0 < a → 0 < b → toVecLog l (l + d : Int) (a : ℝ) = toVecLog l (l + d : Int) (b : ℝ) → a = b := by
    intro a b ha hb hab
    have ha' : (0 : ℝ) < a := by exact_mod_cast ha
    have hb' : (0 : ℝ) < b := by exact_mod_cast hb
    rcases lt_trichotomy a b with h | h | h
    · have : (a : ℝ) < b := by exact_mod_cast h
      exact absurd hab (ne_of_lt ((c4 _ _ ha' hb').2 this))
    · exact h
    · have : (b : ℝ) < a := by exact_mod_cast h
      exact absurd hab.symm (ne_of_lt ((c4 _ _ hb' ha').2 this))
  unfold logNeighborhood at hr
  simp only [eb, hq k (by omega)] at hr
  rw [ed]
  by_cases hn : d ≤ n
  · rw [if_pos (by omega)] at hr
    have hdec : toValLogInt l (l + d : Int) (toVecLog l (l + d : Int) ((l + k : Int) : ℝ)) = l + k :=
      (C29_round_trip_log_integer h0 hlu h1 h2).1
    have hst : ⌊(((l + k : Int) : ℝ) - l) / (((((l + d : Int)) : ℝ) - l) / ((((d + 1 : Nat)) : ℝ) - 1))⌋.toNat = k := by
      rw [hstep, div_one, show (((l + k : Int) : ℝ) - l) = ((k : Int) : ℝ) by push_cast; ring, Int.floor_intCast]
      simp
    rw [hdec] at hr
    simp only [hst] at hr
    rw [hstep] at hr
    -- the two parts are the integers below and above
    have hbot : (if k + 1 = 1 then [] else
        (linspace (l : ℝ) ((l + k : Int) : ℝ) (k + 1 - 1) false).map (toVecLog l (l + d : Int))) =
        ((List.range k).map (fun i : Nat => toVecLog l (l + d : Int) ((l + i : Int) : ℝ))) := by
      by_cases hk0 : k = 0
      · subst hk0; simp
      · rw [if_neg (by omega), linspace, List.map_map]
        simp only [Nat.add_sub_cancel]
        refine List.map_congr_left fun i _ => ?_
        have hkR : (k : ℝ) ≠ 0 := by exact_mod_cast hk0
        simp only [Function.comp, Bool.false_eq_true, if_false, hk0]
        congr 1
        push_cast
        field_simp
        ring
    have htop : (linspace (((l + k : Int) : ℝ) + 1) ((l + d : Int) : ℝ) (d + 1 - (k + 1)) true).map
        (toVecLog l (l + d : Int)) =
        (List.range (d - k)).map (fun i : Nat => toVecLog l (l + d : Int) ((l + ((k + 1 + i : Nat) : Int) : Int) : ℝ)) := by
      rw [linspace, List.map_map, show d + 1 - (k + 1) = d - k by omega]
      refine List.map_congr_left fun i hi => ?_
      rw [List.mem_range] at hi
      simp only [Function.comp, if_true]
      congr 1
      by_cases h1' : d - k - 1 = 0
      · rw [if_pos h1']
        have : i = 0 := by omega
        subst this
        push_cast; ring
      · rw [if_neg h1']
        have e1 : (((d - k - 1 : Nat)) : ℝ) = d - k - 1 := by
          rw [Nat.cast_sub (by omega), Nat.cast_sub (by omega)]; simp
        have e2 : (((d - k - 1 : Nat)) : ℝ) ≠ 0 := by exact_mod_cast h1'
        have e3 : ((l + d : Int) : ℝ) - (((l + k : Int) : ℝ) + 1) = ((d - k - 1 : Nat) : ℝ) := by
          rw [e1]; push_cast; ring
        rw [e3, div_self e2]
        push_cast; ring
    rw [hbot, htop] at hr
    cases hr
    have hall : (List.range k).map (fun i : Nat => toVecLog l (l + d : Int) ((l + i : Int) : ℝ)) ++
        (List.range (d - k)).map (fun i : Nat => toVecLog l (l + d : Int) ((l + ((k + 1 + i : Nat) : Int) : Int) : ℝ)) =
        (others (d + 1) k).map (fun i : Nat => toVecLog l (l + d : Int) ((l + i : Int) : ℝ)) := by
      unfold others
      rw [List.map_append, List.take_range, min_eq_left (by omega)]
      congr 1
      rw [List.range_eq_range' (n := d + 1), List.drop_range', List.range'_eq_map_range, List.map_map]
      simp only [Nat.zero_add, Nat.mul_one, show d + 1 - (k + 1) = d - k by omega]
      rfl
    rw [hall]
    have hk1 : k < d + 1 := by omega
    refine ⟨?_, ?_, ?_, ?_⟩
    · refine List.Nodup.map_on ?_ (others_nodup hk1)
      intro a _ b _ hab
      have := hinj (l + a) (l + b) (by omega) (by omega) hab
      omega
    · intro y hy
      obtain ⟨j, hj, rfl⟩ := List.mem_map.1 hy
      rw [mem_others hk1] at hj
      exact ⟨l + j, by omega, by omega, rfl⟩
    · rw [List.length_map, others_length hk1]; omega
    · intro _ m' hm1 hm2 hne
      obtain ⟨j, rfl⟩ : ∃ j : Nat, m' = l + j := ⟨(m' - l).toNat, by omega⟩
      exact List.mem_map.2 ⟨j, (mem_others hk1).2 ⟨by omega, by omega⟩, rfl⟩
  · rw [if_neg (by omega)] at hr
    obtain ⟨ql, _, _, _⟩ := C32_quantize_log (show (0 : ℝ) < 1 from one_pos) hl hluR (bins := d + 1) (by omega)
    have hP : ∀ c : ℝ, 0 ≤ c → c ≤ 1 → ∃ j : Nat, j < d + 1 ∧
        quantizeLog c 0 1 l (l + d : Int) (d + 1) = toVecLog l (l + d : Int) ((l + j : Int) : ℝ) := by
      intro c _ _
      obtain ⟨j, hj, he⟩ := ql c
      refine ⟨j, hj, ?_⟩
      rw [he, hgrid]
      unfold toVecLog rescale
      split
      · rename_i h1; rw [h1.1, h1.2]; simp [normalize]
      · simp [scale]
    obtain ⟨r1, r2, r3⟩ := neighborLoop_spec (P := fun y => ∃ j : Nat, j < d + 1 ∧
      y = toVecLog l (l + d : Int) ((l + j : Int) : ℝ)) hP draws [] r List.nodup_nil (by simp) hr
    refine ⟨r2, ?_, by omega, fun h => absurd h hn⟩
    intro y hy
    obtain ⟨⟨j, hj, rfl⟩, hne⟩ := r3 y hy
    refine ⟨l + j, by omega, ?_, rfl⟩
    intro he
    apply hne
    rw [he]

/-- C36 on the log scale is not vacuous: asking for all neighbours always succeeds. -/
theorem C36_log_integer_total {l u : Int} (h : l ≤ u) {x : ℝ} {n : Nat} (hn : (u - l).toNat ≤ n) (draws : List (List ℝ)) :
    ∃ r, logNeighborhood x n l u draws = some r := by
  unfold logNeighborhood
  simp only
  rw [if_pos (by omega)]
  exact ⟨_, rfl⟩

/-! ## C37: the number of neighbours -/

/-- **C37**, categorical: the reported number is the number of neighbours returned when enough are asked for, and the number of
other choices. -/
theorem C37_categorical {cs : List Val} (hd : distinctVals cs = true) {v : Val} {i n : Nat} (hv : cs[i]? = some v)
    (hn : cs.length ≤ n) {shuffle : List Nat → List Nat} (hs : ∀ l, (shuffle l).Perm l) :
    (Kind.cat cs).toVec v = some (i : Rat) ∧
    ∃ r, catNeighbors cs.length i n shuffle = some r ∧ catNumNeighbors cs (some v) = r.length := by
  have hi : i < cs.length := by
    rcases List.getElem?_eq_some_iff.1 hv with ⟨h, _⟩; exact h
  obtain ⟨r, h1, _, _, h4, _⟩ := C35_categorical_partial (n := n) hi hs
  refine ⟨by simp [Kind.toVec, seqIndex_getElem hd hv], r, h1, ?_⟩
  have hin : v.pyIn cs = true := by
    unfold Val.pyIn
    rw [List.any_eq_true]
    exact ⟨v, List.mem_of_getElem? hv, Val.pyEq_refl _⟩
  simp only [catNumNeighbors, hin, if_true, h4]
  split <;> omega

/-- **C37**, ordinal. -/
theorem C37_ordinal {cs : List Val} (hd : distinctVals cs = true) {v : Val} {i n : Nat} (hv : cs[i]? = some v)
    (hn : 2 ≤ n) (pick : Bool) :
    (Kind.ord cs).toVec v = some (i : Rat) ∧
    ∃ r, ordNeighbors cs.length i n pick = some r ∧ ordNumNeighbors cs (some v) = some r.length := by
  have hi : i < cs.length := by
    rcases List.getElem?_eq_some_iff.1 hv with ⟨h, _⟩; exact h
  refine ⟨by simp [Kind.toVec, seqIndex_getElem hd hv], ?_⟩
  have h0 : (0 : Rat) ≤ (i : Rat) := Nat.cast_nonneg i
  have h1 : (i : Rat) ≤ (cs.length : Rat) - 1 := by
    have : (i : Rat) + 1 ≤ cs.length := by exact_mod_cast hi
    linarith
  have hend : ((((i : Int)) : Rat) = (cs.length : Rat) - 1) ↔ i = cs.length - 1 := by
    constructor
    · intro h
      have : (i : Rat) + 1 = cs.length := by push_cast at h; linarith
      have : i + 1 = cs.length := by exact_mod_cast this
      omega
    · intro h
      have : cs.length = i + 1 := by omega
      rw [this]; push_cast; ring
  have hzero : ((i : Rat) = 0) ↔ i = 0 := by exact_mod_cast Iff.rfl
  unfold ordNeighbors ordNumNeighbors
  simp only [if_pos (And.intro h0 h1), seqIndex_getElem hd hv, rint_nat, Option.map_some, hend, hzero, if_pos hn]
  by_cases h2 : cs.length = 1
  · simp [h2]
  · rw [if_neg h2, if_neg h2]
    by_cases h3 : i = 0
    · simp [h3]
    · rw [if_neg h3]
      by_cases h4 : i = cs.length - 1
      · rw [if_pos h4]
        exact ⟨_, rfl, by rw [if_pos (.inr h4)]; rfl⟩
      · rw [if_neg h4]
        exact ⟨_, rfl, by rw [if_neg (by rintro (h | h); exact h3 h; exact h4 h)]; rfl⟩

/-- **C37**, uniform integers. -/
theorem C37_integer {l u m : Int} (hlu : l < u) (h1 : l ≤ m) (h2 : m ≤ u) {x : Rat} {n : Nat}
    (hx : (Kind.int l u).toVec (.int m) = some x) (hn : (u - l).toNat ≤ n) (draws : List (List Rat)) :
    ∃ r, quantizedNeighborhood x n 0 1 (u - l + 1).toNat draws = some r ∧ intNumNeighbors l u (some m) = r.length := by
  obtain ⟨k, rfl⟩ : ∃ k : Nat, m = l + k := ⟨(m - l).toNat, by omega⟩
  obtain ⟨d, rfl⟩ : ∃ d : Nat, u = l + d := ⟨(u - l).toNat, by omega⟩
  have eb : (l + d - l + 1).toNat = d + 1 := by omega
  have ebq : (((d + 1 : Nat)) : Rat) - 1 = d := by push_cast; ring
  have hxe : x = (k : Rat) / (((d + 1 : Nat) : Rat) - 1) := by
    simp only [Kind.toVec, Val.num?, Option.map_some, Option.some.injEq, normalize_eq] at hx
    rw [← hx, ebq]
    push_cast
    congr 1 <;> ring
  subst hxe
  rw [eb]
  obtain ⟨ht, hspec⟩ := C36_integer_neighbors (K := Rat) (bins := d + 1) (k := k) (n := n) (by omega) (by omega) draws
  obtain ⟨r, hr⟩ := ht (by omega)
  obtain ⟨_, _, r3, _⟩ := hspec r hr
  refine ⟨r, hr, ?_⟩
  simp only [intNumNeighbors]
  rw [if_pos ⟨by omega, by omega⟩, r3]
  omega

example : catNumNeighbors [.str "a", .str "b", .str "c"] (some (.str "b")) = 2 ∧
    ordNumNeighbors [.str "a", .str "b", .str "c"] (some (.str "b")) = some 2 ∧
    ordNumNeighbors [.str "a", .str "b", .str "c"] (some (.str "c")) = some 1 ∧
    intNumNeighbors 1 10 (some 4) = 9 := by decide +kernel

/-! ## The theorems applied to concrete cases -/

/-- The integers 2 to 9 on a logarithmic scale, with the value 4: all seven others are proposed when seven are asked for. -/
example : ∃ r, logNeighborhood (toVecLog 2 9 4) 7 2 9 [] = some r ∧ r.length = 7 ∧ toVecLog 2 9 5 ∈ r := by
  obtain ⟨r, hr⟩ := C36_log_integer_total (l := 2) (u := 9) (x := toVecLog 2 9 4) (n := 7) (by decide) (by decide) []
  have h := C36_log_integer (l := 2) (u := 9) (m := 4) (n := 7) (by decide) (by decide) (by decide) (by decide) (by exact_mod_cast hr)
  refine ⟨r, hr, h.2.2.1, ?_⟩
  exact_mod_cast h.2.2.2 (by decide) 5 (by decide) (by decide) (by decide)

/-- The range 0 to 4 has the entry 1/4 for 1; one of its proposed neighbours, as normal and beta integers compute them, is 1/8. -/
example := C36_discretized_illegal_neighbor (l := 0) (u := 4) (n := 4) (by decide) (by decide)

/-- Three choices, of which the second is the current one, and any way to shuffle. -/
example := C37_categorical (cs := [.str "a", .str "b", .str "c"]) (by decide) (v := .str "b") (i := 1) (n := 3) rfl (by decide)
  (shuffle := List.reverse) (fun l => List.reverse_perm l)

/-- The range 1 to 10 with the value 4: the number of neighbours is the number that is proposed, and what is proposed are the others. -/
example : ∃ r, quantizedNeighborhood (1 / 3 : ℚ) 9 0 1 10 [] = some r ∧ intNumNeighbors 1 10 (some 4) = r.length ∧
    (r.map (Kind.int 1 10).toVal).Nodup ∧ some (Val.int 7) ∈ r.map (Kind.int 1 10).toVal := by
  have hx : (Kind.int 1 10).toVec (.int 4) = some (1 / 3) := by decide +kernel
  obtain ⟨r, hr, hc⟩ := C37_integer (l := 1) (u := 10) (m := 4) (by decide) (by decide) (by decide) hx (n := 9) (by decide) []
  have h := C36_integer_values (l := 1) (u := 10) (m := 4) (by decide) (by decide) (by decide) hx hr
  exact ⟨r, hr, hc, h.2.1, h.2.2 (by decide) 7 (by decide) (by decide) (by decide)⟩

end Verif.Num
