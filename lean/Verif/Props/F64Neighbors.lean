import Verif.Lemmas.F64Neighbors
import Verif.Spec.F64Neighbors

/-!
# C108: neighbours of single hyperparameters, in double precision
-/

set_option autoImplicit false

namespace Verif.F64
open Verif Verif.Num

/-! ## Choices -/

section
variable {K : Type} [Field K] [LinearOrder K] [IsStrictOrderedRing K] [FloorRing K]

/-- **C108**, categorical: the neighbours of a position are distinct other positions, all of them if enough are asked for. -/
theorem C108_categorical {size i n : Nat} (hi : i < size) {shuffle : List Nat → List Nat} (hs : ∀ l, (shuffle l).Perm l) :
    ∃ r, catNeighbors size (i : K) n shuffle = some r ∧ r.Nodup ∧ (∀ j ∈ r, j < size ∧ j ≠ i) ∧
      r.length = (if size ≤ 5 then size - 1 else min n (size - 1)) ∧ (size - 1 ≤ n → ∀ j, j ∈ r ↔ j < size ∧ j ≠ i) := by
  have hp : ⌊((i : Nat) : K)⌋.toNat = i := by simp
  have hperm := hs (others size i)
  have hmem : ∀ j, j ∈ shuffle (others size i) ↔ j < size ∧ j ≠ i := by
    intro j; rw [hperm.mem_iff, mem_others hi]
  have hnd : (shuffle (others size i)).Nodup := hperm.nodup_iff.2 (others_nodup hi)
  have hlen : (shuffle (others size i)).length = size - 1 := by rw [hperm.length_eq, others_length hi]
  unfold catNeighbors
  simp only [hp]
  by_cases h5 : size ≤ 5
  · rw [if_pos h5, if_pos hi]
    exact ⟨_, rfl, hnd, fun j hj => (hmem j).1 hj, by rw [hlen, if_pos h5], fun _ => hmem⟩
  · rw [if_neg h5]
    refine ⟨_, rfl, hnd.sublist (List.take_sublist _ _), fun j hj => (hmem j).1 (List.mem_of_mem_take hj), ?_, ?_⟩
    · rw [List.length_take, hlen, if_neg h5]
    · intro hle j
      rw [List.take_of_length_le (by omega)]
      exact hmem j

theorem rintK_whole (n : Int) : rintK ((n : Int) : K) = n := rintK_eq (by rw [sub_self, abs_zero]; norm_num)

/-- **C108**, ordinal: the neighbours of a position are the adjacent positions, both if two are asked for. -/
theorem C108_ordinal {size i n : Nat} (hi : i < size) (hsz : size ≤ 2 ^ 53) (pick : Bool) :
    ∃ r : List Nat, ordNeighbors size (i : K) n pick = some (r.map (fun j : Nat => (j : K))) ∧ r.Nodup ∧
      (∀ j ∈ r, j < size ∧ (j + 1 = i ∨ j = i + 1)) ∧
      (2 ≤ n → ∀ j : Nat, j < size → (j + 1 = i ∨ j = i + 1) → j ∈ r) ∧ (2 ≤ size → r ≠ []) := by
  have h0 : (0 : K) ≤ (i : K) := Nat.cast_nonneg i
  have e0 : (((size : Int) - 1 : Int) : K) = (size : K) - 1 := by push_cast; ring
  have h1 : (i : K) ≤ (((size : Int) - 1 : Int) : K) := by
    have : (i : K) + 1 ≤ size := by exact_mod_cast hi
    rw [e0]
    linarith
  unfold ordNeighbors
  simp only [if_pos (And.intro h0 h1)]
  by_cases hs : size = 1
  · rw [if_pos hs]
    refine ⟨[], rfl, List.nodup_nil, by simp, ?_, by omega⟩
    intro _ j hj h; omega
  rw [if_neg hs]
  by_cases hi0 : (i : K) = 0
  · have hi0' : i = 0 := by exact_mod_cast hi0
    subst hi0'
    rw [if_pos hi0]
    refine ⟨[1], by simp, by simp, ?_, ?_, by simp⟩
    · intro y hy
      rw [List.mem_singleton] at hy
      omega
    · intro _ j hj h
      rw [List.mem_singleton]
      omega
  have hi0' : i ≠ 0 := by
    intro h; exact hi0 (by rw [h]; norm_num)
  have hr : rintK (i : K) = (i : Int) := by
    have := rintK_whole (K := K) (i : Int)
    rwa [Int.cast_natCast] at this
  rw [if_neg hi0, hr]
  by_cases hend : (((i : Int)) : K) = (((size : Int) - 1 : Int) : K)
  · have hend' : i + 1 = size := by
      have : (i : Int) = (size : Int) - 1 := by exact_mod_cast hend
      omega
    rw [if_pos hend]
    refine ⟨[i - 1], ?_, by simp, ?_, ?_, by simp⟩
    · rw [List.map_singleton, rd_int (by rw [abs_le]; norm_num at *; omega)]
      have e : ((i - 1 : Nat) : K) = (((size : Int) - 1 - 1 : Int) : K) := by
        rw [← Int.cast_natCast (R := K) (i - 1), show ((i - 1 : Nat) : Int) = (size : Int) - 1 - 1 by omega]
      rw [e]
    · intro j hj
      rw [List.mem_singleton] at hj
      omega
    · intro _ j hj h
      rw [List.mem_singleton]
      omega
  rw [if_neg hend]
  have hend' : i + 1 ≠ size := by
    intro h
    apply hend
    congr 1
    omega
  have ea : (rintK (rd ((i : K) - 1)) : K) = ((i - 1 : Nat) : K) := by
    have : (i : K) - 1 = (((i : Int) - 1 : Int) : K) := by push_cast; ring
    rw [this, rd_int (by rw [abs_le]; norm_num at *; omega), rintK_whole, ← Int.cast_natCast (R := K) (i - 1),
      show ((i - 1 : Nat) : Int) = (i : Int) - 1 by omega]
  have eb : (rintK (rd ((i : K) + 1)) : K) = ((i + 1 : Nat) : K) := by
    have : (i : K) + 1 = (((i : Int) + 1 : Int) : K) := by push_cast; ring
    rw [this, rd_int (by rw [abs_le]; norm_num at *; omega), rintK_whole, ← Int.cast_natCast (R := K) (i + 1)]
    push_cast
    rfl
  rw [ea, eb]
  by_cases hn : 2 ≤ n
  · rw [if_pos hn]
    refine ⟨[i - 1, i + 1], rfl, by simp, ?_, ?_, by simp⟩
    · intro j hj
      simp only [List.mem_cons, List.not_mem_nil, or_false] at hj
      omega
    · intro _ j hj h
      simp only [List.mem_cons, List.not_mem_nil, or_false]
      omega
  · rw [if_neg hn]
    cases pick with
    | true =>
      refine ⟨[i - 1], rfl, by simp, ?_, fun h => absurd h hn, by simp⟩
      intro j hj
      rw [List.mem_singleton] at hj
      omega
    | false =>
      refine ⟨[i + 1], rfl, by simp, ?_, fun h => absurd h hn, by simp⟩
      intro j hj
      rw [List.mem_singleton] at hj
      omega

/-! ## Floats -/

/-- **C108**, floats, on any scale: as many numbers of the unit interval as are asked for. -/
theorem C108_floats {n : Nat} {draws : List (List K)} {r : List K} (h : continuousNeighborhood 0 1 n draws = some r) :
    r.length = n ∧ ∀ y ∈ r, 0 ≤ y ∧ y ≤ 1 :=
  continuousLoop_spec draws [] r (by simp) h

/-! ## Integers on a linear scale -/

variable {l u : Int}

/-- **C108**, integers: from any centre, the neighbours are the entries of distinct integers within the bounds, at most as many as are
asked for. -/
theorem C108_integers (hl : |l| ≤ 2 ^ 52) (hu : |u| ≤ 2 ^ 52) (h : l < u) {x : K} {n : Nat} {draws : List (List K)} {r : List K}
    (hr : intNeighbors l u x n draws = some r) :
    ∃ ms : List Int, r = ms.map (fun m => toVecInt l u m) ∧ ms.Nodup ∧ (∀ m ∈ ms, l ≤ m ∧ m ≤ u) ∧
      (n < (u - l).toNat → ms.length = n) := by
  have hl' := hl
  have hu' := hu
  have hlev : ∀ i : Nat, i < (u - l + 1).toNat → rd (rd ((i : Int) : K) / rd ((u - l : Int) : K)) = toVecInt l u (l + i) := by
    intro i hi
    rw [← C75_int_drawn hl' hu' h (k := (i : Int)) (by omega) (by omega)]
    unfold drawnVec
    rw [show u - l + 1 - 1 = u - l by ring]
  have hlist : ∀ is : List Nat, is.Nodup → (∀ i ∈ is, i < (u - l + 1).toNat) →
      ∃ ms : List Int, is.map (fun i : Nat => rd (rd ((i : Int) : K) / rd ((u - l : Int) : K))) = ms.map (fun m => toVecInt l u m) ∧ ms.Nodup ∧
        (∀ m ∈ ms, l ≤ m ∧ m ≤ u) := by
    intro is hnd hlt
    refine ⟨is.map (fun i : Nat => l + i), ?_, hnd.map (fun a b e => by simpa using e), ?_⟩
    · rw [List.map_map]
      exact List.map_congr_left (fun i hi => hlev i (hlt i hi))
    · intro m hm
      obtain ⟨i, hi, rfl⟩ := List.mem_map.1 hm
      have := hlt i hi
      omega
  unfold intNeighbors at hr
  by_cases hbig : 1000000 ≤ n
  · rw [if_pos hbig] at hr; cases hr
  rw [if_neg hbig] at hr
  simp only at hr
  by_cases hall : (u - l + 1).toNat - 1 ≤ n
  · rw [if_pos hall] at hr
    have fin : ∀ is : List Nat, is.Nodup → (∀ i ∈ is, i < (u - l + 1).toNat) →
        is.map (fun i : Nat => rd (rd ((i : Int) : K) / rd ((u - l : Int) : K))) = r →
        ∃ ms : List Int, r = ms.map (fun m => toVecInt l u m) ∧ ms.Nodup ∧ (∀ m ∈ ms, l ≤ m ∧ m ≤ u) ∧
          (n < (u - l).toNat → ms.length = n) := by
      intro is h1 h2 h3
      obtain ⟨ms, e, a, b⟩ := hlist is h1 h2
      exact ⟨ms, h3 ▸ e, a, b, fun hc => absurd hc (by omega)⟩
    split_ifs at hr with c1 c2
    · refine fin _ List.nodup_range' ?_ (Option.some.inj hr)
      intro i hi
      rw [List.mem_range'_1] at hi
      omega
    · refine fin _ List.nodup_range ?_ (Option.some.inj hr)
      intro i hi
      rw [List.mem_range] at hi
      omega
    · by_cases hp : (rintK (rd (x * rd ((u - l : Int) : K)))).toNat < (u - l + 1).toNat
      · exact fin _ (others_nodup hp) (fun i hi => ((mem_others hp).1 hi).1) (Option.some.inj hr)
      · refine fin _ ?_ ?_ (Option.some.inj hr)
        · unfold others
          rw [List.drop_of_length_le (by rw [List.length_range]; omega), List.append_nil]
          exact List.nodup_range.sublist (List.take_sublist _ _)
        · intro i hi
          unfold others at hi
          rcases List.mem_append.1 hi with hi | hi
          · exact List.mem_range.1 (List.mem_of_mem_take hi)
          · exact List.mem_range.1 (List.mem_of_mem_drop hi)
  · rw [if_neg hall] at hr
    have hP : ∀ c : K, ∃ m, l ≤ m ∧ m ≤ u ∧ quantizeUnit (u - l + 1) c = toVecInt l u m := C75_int_quantized hl' hu' h
    generalize (quantizeUnit (u - l + 1) : K → K) = quant at hP hr
    obtain ⟨k1, k2, k3⟩ := loop_spec (P := fun y => ∃ m, l ≤ m ∧ m ≤ u ∧ y = toVecInt l u m) hP hr
    have hex : ∀ r : List K, (∀ y ∈ r, ∃ m, l ≤ m ∧ m ≤ u ∧ y = toVecInt l u m) →
        ∃ ms : List Int, r = ms.map (fun m => toVecInt l u m) ∧ ∀ m ∈ ms, l ≤ m ∧ m ≤ u := by
      intro r
      induction r with
      | nil => intro _; exact ⟨[], rfl, by simp⟩
      | cons y ys ih =>
        intro hy
        obtain ⟨m, m1, m2, rfl⟩ := hy y (by simp)
        obtain ⟨ms, e, hms⟩ := ih (fun z hz => hy z (by simp [hz]))
        exact ⟨m :: ms, by rw [List.map_cons, e], by
          intro k hk
          rcases List.mem_cons.1 hk with rfl | hk
          · exact ⟨m1, m2⟩
          · exact hms k hk⟩
    obtain ⟨ms, rfl, hms⟩ := hex r (fun y hy => (k3 y hy).1)
    exact ⟨ms, rfl, List.Nodup.of_map _ k2, hms, fun _ => by rw [← k1, List.length_map]⟩

/-- **C108**, integers: if there are at most as many neighbours as are asked for, then exactly the other integers are returned, in order. -/
theorem C108_integers_all (hl : |l| < 2 ^ 49) (hu : |u| < 2 ^ 49) (h : l < u) {m : Int} (h1 : l ≤ m) (h2 : m ≤ u) {n : Nat}
    (hn : (u - l).toNat ≤ n) (hn' : n < 1000000) (draws : List (List K)) :
    intNeighbors l u (toVecInt l u m : K) n draws = some ((otherInts l u m).map (fun k => toVecInt l u k)) := by
  have hl' : |l| ≤ 2 ^ 52 := hl.le.trans (by norm_num)
  have hu' : |u| ≤ 2 ^ 52 := hu.le.trans (by norm_num)
  have b2 : rd ((u - l : Int) : K) = ((u - l : Int) : K) := rd_int (by rw [abs_le]; norm_num at *; omega)
  have hq := C75_int_quantize_fixed (K := K) hl' hu' h (by norm_num; omega) h1 h2
  have hlev : ∀ i : Nat, i < (u - l + 1).toNat → rd (rd ((i : Int) : K) / rd ((u - l : Int) : K)) = toVecInt l u (l + i) := by
    intro i hi
    rw [← C75_int_drawn hl' hu' h (k := (i : Int)) (by omega) (by omega)]
    unfold drawnVec
    rw [show u - l + 1 - 1 = u - l by ring]
  have hends := C75_int_vector (K := K) hl' hu' h
  have hinj : ∀ a b : Int, l ≤ a → a ≤ u → l ≤ b → b ≤ u → (toVecInt l u a : K) = toVecInt l u b → a = b :=
    fun a b a1 a2 b1 b2 => (C75_int_order (K := K) hl hu h a1 a2 b1 b2).1.1
  unfold intNeighbors
  simp only [if_neg (by omega : ¬ 1000000 ≤ n), hq]
  rw [if_pos (by omega)]
  have fin : ∀ is : List Nat, (∀ i ∈ is, i < (u - l + 1).toNat) → is.map (fun i : Nat => l + (i : Int)) = otherInts l u m →
      is.map (fun i : Nat => rd (rd ((i : Int) : K) / rd ((u - l : Int) : K))) = (otherInts l u m).map (fun k => toVecInt l u k) := by
    intro is h3 h4
    rw [← h4, List.map_map]
    exact List.map_congr_left (fun i hi => hlev i (h3 i hi))
  by_cases c1 : (toVecInt l u m : K) = 0
  · rw [if_pos c1]
    have : m = l := hinj m l h1 h2 le_rfl h.le (c1.trans hends.2.1.symm)
    subst this
    refine congrArg some (fin _ ?_ ?_)
    · intro i hi
      rw [List.mem_range'_1] at hi
      omega
    · unfold otherInts
      rw [sub_self]
      simp only [Int.toNat_zero, List.range_zero, List.map_nil, List.nil_append, List.range'_eq_map_range, List.map_map]
      rw [show (u - m + 1).toNat - 1 = (u - m).toNat by omega]
      apply List.map_congr_left
      intro i hi
      simp only [Function.comp_apply]
      push_cast
      ring
  rw [if_neg c1, b2]
  by_cases c2 : (toVecInt l u m : K) = ((u - l : Int) : K)
  · rw [if_pos c2]
    have hle := (hends.1 m h1 h2).2
    rw [c2] at hle
    have hul : u = l + 1 := by
      have : u - l ≤ 1 := by exact_mod_cast hle
      omega
    have hm : m = u := by
      refine hinj m u h1 h2 h.le le_rfl ?_
      rw [c2, hends.2.2, hul]
      simp
    refine congrArg some ?_
    rw [← b2]
    refine fin _ ?_ ?_
    · intro i hi
      rw [List.mem_range] at hi
      omega
    · subst hm
      unfold otherInts
      rw [sub_self, show (m - l + 1).toNat - 1 = (m - l).toNat by omega]
      simp
  · rw [if_neg c2]
    have hqi : (rintK (rd ((toVecInt l u m : K) * ((u - l : Int) : K)))).toNat = (m - l).toNat := by
      rw [toVecInt_eq hl' hu' h h1 h2]
      have hp := (product_near (K := K) (k := m - l) (s := u - l) (by omega) (by omega) (by omega) (by norm_num; omega)).1
      congr 1
      refine rintK_eq (hp.trans_lt ?_)
      have : ((m - l : Int) : K) ≤ 1000000 := by exact_mod_cast (by omega : m - l ≤ 1000000)
      rw [div_lt_iff₀ (by norm_num)]
      linarith
    rw [hqi, ← b2]
    refine congrArg some (fin _ ?_ ?_)
    · intro i hi
      exact ((mem_others (by omega)).1 hi).1
    · unfold others otherInts
      rw [List.map_append]
      congr 1
      · rw [List.take_range, Nat.min_eq_left (by omega)]
      · rw [show (u - l + 1).toNat = ((m - l).toNat + 1) + (u - m).toNat by omega, List.range_add, List.drop_append_of_le_length (by simp),
          List.drop_of_length_le (by simp), List.nil_append, List.map_map]
        apply List.map_congr_left
        intro i hi
        simp only [Function.comp_apply]
        push_cast
        omega

/-- **C108**, integers (the guard: fewer than `2 ^ 25` integers; see the counterexample): the current integer is not among its
neighbours. -/
theorem C108_integers_fresh_partial (hl : |l| < 2 ^ 49) (hu : |u| < 2 ^ 49) (h : l < u) (hs : u - l < 2 ^ 25) {m : Int} (h1 : l ≤ m)
    (h2 : m ≤ u) {n : Nat} {draws : List (List K)} {r : List K} (hr : intNeighbors l u (toVecInt l u m : K) n draws = some r) :
    toVecInt l u m ∉ r := by
  have hl' : |l| ≤ 2 ^ 52 := hl.le.trans (by norm_num)
  have hu' : |u| ≤ 2 ^ 52 := hu.le.trans (by norm_num)
  by_cases hbig : 1000000 ≤ n
  · unfold intNeighbors at hr
    rw [if_pos hbig] at hr; cases hr
  by_cases hall : (u - l).toNat ≤ n
  · rw [C108_integers_all hl hu h h1 h2 hall (by omega)] at hr
    cases hr
    intro hc
    obtain ⟨k, hk, e⟩ := List.mem_map.1 hc
    rw [mem_otherInts h1 h2] at hk
    exact hk.2.2 ((C75_int_order (K := K) hl hu h hk.1 hk.2.1 h1 h2).1.1 e)
  · unfold intNeighbors at hr
    simp only [if_neg hbig] at hr
    rw [if_neg (by omega), C75_int_quantize_fixed hl' hu' h hs h1 h2] at hr
    intro hc
    exact ((loop_spec (P := fun _ => True) (fun _ => trivial) hr).2.2 _ hc).2 rfl

end

/-! ## Integers on a logarithmic scale -/

section
variable {lg ex : ℝ → ℝ} {l u : Int}

/-- **C108**, integers on a logarithmic scale: from any centre, the neighbours are legal entries that are read as distinct integers within
the bounds, at most as many as are asked for. -/
theorem C108_log_integers (ha : Accurate lg ex) (h1 : 1 ≤ l) (h : l < u) (hu : u ≤ 2 ^ 39) {x : ℝ} {n : Nat} {draws : List (List ℝ)}
    {r : List ℝ} (hr : logIntNeighbors lg ex l u x n draws = some r) :
    (∀ y ∈ r, legalVecLog lg ex l u y) ∧ (r.map (toValLogInt lg ex l u)).Nodup ∧
      (∀ y ∈ r, l ≤ toValLogInt lg ex l u y ∧ toValLogInt lg ex l u y ≤ u) ∧ (n < (u - l).toNat → r.length = n) := by
  by_cases hbig : 1000000 ≤ n
  · unfold logIntNeighbors at hr
    rw [if_pos hbig] at hr; cases hr
  by_cases hall : (u - l).toNat ≤ n
  · obtain ⟨m, m1, m2, e, -⟩ := C104_log_drawn_value ha h1 h hu x
    rw [logIntNeighbors_all h1 hu (by omega) hall e m1 m2 h] at hr
    cases hr
    have hrt : ∀ k ∈ otherInts l u m, toValLogInt lg ex l u (toVecLogInt lg l u k) = k ∧ legalVecLog lg ex l u (toVecLogInt lg l u k) ∧
        l ≤ k ∧ k ≤ u := by
      intro k hk
      rw [mem_otherInts m1 m2] at hk
      exact ⟨(C75_log_int_round_trip ha h1 h hu hk.1 hk.2.1).1, (C75_log_int_round_trip ha h1 h hu hk.1 hk.2.1).2, hk.1, hk.2.1⟩
    refine ⟨?_, ?_, ?_, fun hc => absurd hc (by omega)⟩
    · intro y hy
      obtain ⟨k, hk, rfl⟩ := List.mem_map.1 hy
      exact (hrt k hk).2.1
    · have e : (otherInts l u m).map (toValLogInt lg ex l u ∘ toVecLogInt lg l u) = (otherInts l u m).map id :=
        List.map_congr_left (fun k hk => (hrt k hk).1)
      rw [List.map_map, e, List.map_id]
      exact otherInts_nodup m1 m2
    · intro y hy
      obtain ⟨k, hk, rfl⟩ := List.mem_map.1 hy
      rw [(hrt k hk).1]
      exact (hrt k hk).2.2
  · unfold logIntNeighbors at hr
    simp only [if_neg hbig] at hr
    rw [if_neg (by omega)] at hr
    obtain ⟨k1, k2, k3⟩ := loop_spec (P := fun y => ∃ c, y = drawnLogInt lg ex l u c) (fun c => ⟨c, rfl⟩) hr
    refine ⟨?_, ?_, ?_, fun _ => k1⟩
    · intro y hy
      obtain ⟨⟨c, rfl⟩, -⟩ := k3 y hy
      obtain ⟨m, _, _, _, e⟩ := C104_log_drawn_value ha h1 h hu c
      exact e
    · refine List.Nodup.map_on ?_ k2
      intro y hy z hz e
      obtain ⟨⟨c, rfl⟩, -⟩ := k3 y hy
      obtain ⟨⟨d, rfl⟩, -⟩ := k3 z hz
      exact C104_log_same_entry ha h1 h hu e
    · intro y hy
      obtain ⟨⟨c, rfl⟩, -⟩ := k3 y hy
      obtain ⟨m, m1, m2, e, -⟩ := C104_log_drawn_value ha h1 h hu c
      rw [e]
      exact ⟨m1, m2⟩

theorem entry_near (ha : Accurate lg ex) (h1 : 1 ≤ l) (h : l < u) (hu : u ≤ 2 ^ 39) {m : Int} (hm1 : l ≤ m) (hm2 : m ≤ u) {x : ℝ}
    (hx : LogEntryOf lg ex l u m x) :
    |unsafeLog lg ex (rd (l : ℝ)) (rd (u : ℝ)) x - m| ≤ m / 2 ^ 40 ∧ toValLogInt lg ex l u x = m := by
  have hu' : u ≤ 2 ^ 40 := hu.trans (by norm_num)
  have hm0 : (1 : ℝ) ≤ m := by exact_mod_cast h1.trans hm1
  rcases hx with rfl | ⟨⟨c, rfl⟩, hv⟩
  · refine ⟨(unsafeLog_near ha h1 h hu' hm1 hm2).trans ?_, (C75_log_int_round_trip ha h1 h hu hm1 hm2).1⟩
    norm_num
    linarith
  · refine ⟨?_, hv⟩
    obtain ⟨k, k0, k1, e, -⟩ := drawn_entry ha h1 h hu' c
    rw [e] at hv ⊢
    rw [(level_value ha h1 h hu k0 k1).1] at hv
    obtain ⟨n1, n2, n3⟩ := atLevel_near h1 h hu' k0 k1
    have hnear := unsafeLog_near_real ha h1 h hu' n2 n3
    rw [hv] at n1
    unfold unsafeLog toVecLog
    rw [rd_int40 h1 (h.le.trans hu'), rd_int40 (h1.trans h.le) hu']
    generalize ex (scale (normalize (lg (atLevel l u ((k : Int) : ℝ))) (lg l) (lg u)) (lg l) (lg u)) = y at *
    generalize atLevel l u ((k : Int) : ℝ) = q at *
    rw [abs_le] at *
    norm_num at *
    constructor <;> linarith

/-- **C108**, integers on a logarithmic scale (the guard: `(upper - lower) * upper ≤ 2 ^ 37`): no neighbour is read as the current
integer. -/
theorem C108_log_integers_fresh_partial (ha : Accurate lg ex) (h1 : 1 ≤ l) (h : l < u) (hu : u ≤ 2 ^ 39) (hs : (u - l) * u ≤ 2 ^ 37)
    {m : Int} (hm1 : l ≤ m) (hm2 : m ≤ u) {x : ℝ} (hx : LogEntryOf lg ex l u m x) {n : Nat} {draws : List (List ℝ)} {r : List ℝ}
    (hr : logIntNeighbors lg ex l u x n draws = some r) : ∀ y ∈ r, toValLogInt lg ex l u y ≠ m := by
  have hq := (requantized ha h1 h hu hs hm1 hm2 (entry_near ha h1 h hu hm1 hm2 hx).1).2
  have hv : toValLogInt lg ex l u (drawnLogInt lg ex l u x) = m := by
    rw [hq, (level_value ha h1 h hu (by omega) (by omega)).1]
    omega
  by_cases hbig : 1000000 ≤ n
  · unfold logIntNeighbors at hr
    rw [if_pos hbig] at hr; cases hr
  by_cases hall : (u - l).toNat ≤ n
  · rw [logIntNeighbors_all h1 hu (by omega) hall hv hm1 hm2 h] at hr
    cases hr
    intro y hy
    obtain ⟨k, hk, rfl⟩ := List.mem_map.1 hy
    rw [mem_otherInts hm1 hm2] at hk
    rw [(C75_log_int_round_trip ha h1 h hu hk.1 hk.2.1).1]
    exact hk.2.2
  · unfold logIntNeighbors at hr
    simp only [if_neg hbig] at hr
    rw [if_neg (by omega)] at hr
    intro y hy e
    obtain ⟨⟨c, rfl⟩, hne⟩ := (loop_spec (P := fun y => ∃ c, y = drawnLogInt lg ex l u c) (fun c => ⟨c, rfl⟩) hr).2.2 y hy
    exact hne (C104_log_same_entry ha h1 h hu (e.trans hv.symm))

/-- **C108**, integers on a logarithmic scale (the same guard): if there are at most as many neighbours as are asked for, then exactly the
entries of the other integers are returned, in order. -/
theorem C108_log_integers_all_partial (ha : Accurate lg ex) (h1 : 1 ≤ l) (h : l < u) (hu : u ≤ 2 ^ 39) (hs : (u - l) * u ≤ 2 ^ 37)
    {m : Int} (hm1 : l ≤ m) (hm2 : m ≤ u) {x : ℝ} (hx : LogEntryOf lg ex l u m x) {n : Nat} (hn : (u - l).toNat ≤ n) (hn' : n < 1000000)
    (draws : List (List ℝ)) : logIntNeighbors lg ex l u x n draws = some ((otherInts l u m).map (toVecLogInt lg l u)) := by
  have hq := (requantized ha h1 h hu hs hm1 hm2 (entry_near ha h1 h hu hm1 hm2 hx).1).2
  refine logIntNeighbors_all h1 hu hn' hn ?_ hm1 hm2 h draws
  rw [hq, (level_value ha h1 h hu (by omega) (by omega)).1]
  omega

end

/-! ## Where the guard is needed -/

/-- Without the guard the claim is false of the code: `UniformIntegerHyperparameter("seed", 0, 2 ** 31 - 1)` with the value `2 ** 31 - 2`.
The entry of this value is quantised to `1`, the entry of `2 ** 31 - 1`, so that this entry is excluded instead of the current one, and the
draw `1 - 2 ** -30` makes the current value its own neighbour. -/
theorem C108_current_integer_proposed :
    intNeighbors 0 (2 ^ 31 - 1) (toVecInt 0 (2 ^ 31 - 1) (2 ^ 31 - 2) : ℚ) 1 [[1 - 1 / 2 ^ 30]] =
      some [toVecInt 0 (2 ^ 31 - 1) (2 ^ 31 - 2)] := by
  have hx : (toVecInt 0 (2 ^ 31 - 1) (2 ^ 31 - 2) : ℚ) = 1 - 1 / 2 ^ 31 := by
    rw [toVecInt_eq (by norm_num) (by norm_num) (by norm_num) (by norm_num) (by norm_num)]
    rw [rd_eval (-53) 9007199250546688 (by norm_num) (by norm_num) (by norm_num) (by norm_num [abs_lt])]
    norm_num
  have hb : rd ((2 ^ 31 - 1 - 0 + 1 : Int) : ℚ) = 2 ^ 31 := by
    rw [rd_int (by norm_num)]
    norm_num
  have hb1 : rd ((2 ^ 31 - 1 - 0 + 1 - 1 : Int) : ℚ) = 2 ^ 31 - 1 := by
    rw [rd_int (by norm_num)]
    norm_num
  have hq : quantizeUnit (2 ^ 31 - 1 - 0 + 1) (1 - 1 / 2 ^ 31 : ℚ) = 1 := by
    unfold quantizeUnit
    rw [hb, hb1, show ((1 : ℚ) - 1 / 2 ^ 31) * 2 ^ 31 = ((2147483647 : Int) : ℚ) by norm_num, rd_int (by norm_num), Int.floor_intCast]
    unfold clip
    norm_num
    exact rd_one
  have hc : quantizeUnit (2 ^ 31 - 1 - 0 + 1) (1 - 1 / 2 ^ 30 : ℚ) = 1 - 1 / 2 ^ 31 := by
    unfold quantizeUnit
    rw [hb, hb1, show ((1 : ℚ) - 1 / 2 ^ 30) * 2 ^ 31 = ((2147483646 : Int) : ℚ) by norm_num, rd_int (by norm_num), Int.floor_intCast]
    unfold clip
    norm_num
    rw [rd_eval (-53) 9007199250546688 (by norm_num) (by norm_num) (by norm_num) (by norm_num [abs_lt])]
    norm_num
  rw [hx]
  unfold intNeighbors
  rw [if_neg (by norm_num)]
  simp only
  rw [if_neg (by norm_num), hq]
  unfold neighborLoop
  have hf : [(1 - 1 / 2 ^ 30 : ℚ)].filter (fun c => decide (0 ≤ c) && decide (c ≤ 1)) = [1 - 1 / 2 ^ 30] := by
    rw [List.filter_cons_of_pos (by norm_num)]
    rfl
  simp only [hf, List.map_cons, List.map_nil, hc]
  have hu : unique [(1 - 1 / 2 ^ 31 : ℚ)] = [1 - 1 / 2 ^ 31] := rfl
  rw [hu, List.filter_cons_of_pos (by norm_num)]
  rfl

/-! ## The hypotheses can be met -/

example : ∃ r, intNeighbors 0 3 (toVecInt 0 3 1 : ℚ) 5 [] = some r ∧ r.length = 3 ∧ toVecInt 0 3 1 ∉ r := by
  have h := C108_integers_all (K := ℚ) (l := 0) (u := 3) (m := 1) (n := 5) (by norm_num) (by norm_num) (by norm_num) (by norm_num)
    (by norm_num) (by decide) (by norm_num) []
  exact ⟨_, h, rfl, C108_integers_fresh_partial (by norm_num) (by norm_num) (by norm_num) (by norm_num) (by norm_num) (by norm_num) h⟩

example : ∃ lg ex, Accurate lg ex ∧ ∃ r, logIntNeighbors lg ex 1 44 (toVecLogInt lg 1 44 24) 50 [] = some r ∧ r.length = 43 ∧
    (∀ y ∈ r, toValLogInt lg ex 1 44 y ≠ 24) := by
  refine ⟨_, _, accurate_rd, ?_⟩
  have h := C108_log_integers_all_partial accurate_rd (l := 1) (u := 44) (m := 24) (n := 50) (by norm_num) (by norm_num) (by norm_num)
    (by norm_num) (by norm_num) (by norm_num) (.inl rfl) (by decide) (by norm_num) []
  refine ⟨_, h, by rw [List.length_map]; rfl, ?_⟩
  exact C108_log_integers_fresh_partial accurate_rd (by norm_num) (by norm_num) (by norm_num) (by norm_num) (by norm_num) (by norm_num)
    (.inl rfl) h

example : catNeighbors 3 ((1 : Nat) : ℚ) 2 id = some [0, 2] ∧ ordNeighbors 3 ((0 : Nat) : ℚ) 2 true = some [1] := by decide +kernel

end Verif.F64
