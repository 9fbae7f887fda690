import Verif.Model.NeighborValues
import Verif.Props.Neighbors

/-!
# C89: neighbours as values, and the buffers in which they are collected
-/

set_option autoImplicit false

namespace Verif

open Verif.Spec Num

/-! ## Buffers -/

section
variable {K : Type} [Field K] [LinearOrder K]

private theorem sliceAssign_fits {xs new : List K} {k : Nat} (h : new.length ≤ k) :
    sliceAssign (xs.map some ++ List.replicate k (none : Option K)) xs.length new =
      some ((xs ++ new).map some ++ List.replicate (k - new.length) none) := by
  unfold sliceAssign
  rw [if_pos (by simp; omega)]
  have e1 : (xs.map some ++ List.replicate k (none : Option K)).take xs.length = xs.map some := by
    rw [List.take_left' (by simp)]
  have e2 : (xs.map some ++ List.replicate k (none : Option K)).drop (xs.length + new.length) =
      List.replicate (k - new.length) none := by
    rw [List.drop_append, List.drop_of_length_le (by simp)]
    simp
  rw [e1, e2, List.map_append]

private theorem length_unique_le (xs : List K) : (unique xs).length ≤ xs.length := by
  unfold unique
  refine (List.dedup_sublist _).length_le.trans ?_
  rw [List.length_insertionSort]

private theorem new_length (quant : K → K) (lower upper : K) (batch : List K) (p : K → Bool) :
    ((unique ((batch.filter (fun c => decide (lower ≤ c) && decide (c ≤ upper))).map quant)).filter p).length ≤ batch.length := by
  refine (List.length_filter_le _ _).trans ((length_unique_le _).trans ?_)
  rw [List.length_map]
  exact List.length_filter_le _ _

/-- **C89, buffers of the quantised neighbourhoods.** Whatever the generator draws, in batches of `n * mult` numbers: writing the new
neighbours never goes beyond the end of the buffer, the slots that are returned have all been written, and the result is that of the
loop with lists (C36). -/
theorem C89_quantised_buffer (quant : K → K) (lower upper : K) (n mult : Nat) (q : K) (draws : List (List K))
    (hd : ∀ b ∈ draws, b.length = n * mult) :
    bufferedNeighbors quant lower upper n mult q draws =
      (match neighborLoop quant lower upper n q draws [] with
        | some r => .result (r.map some)
        | none => .exhausted) := by
  have key : ∀ (draws : List (List K)) (found : List K), (∀ b ∈ draws, b.length = n * mult) → (found = [] ∨ found.length < n) →
      bufferLoop quant lower upper n draws ((q :: found).map some ++ List.replicate (n * (mult + 1) - found.length) none)
          (q :: found).length =
        (match neighborLoop quant lower upper n q draws found with
          | some r => .result (r.map some)
          | none => .exhausted) := by
    intro draws
    induction draws with
    | nil => intro found _ _; rfl
    | cons batch rest ih =>
      intro found hd hf
      unfold bufferLoop neighborLoop
      have hmem : ∀ c : K, (some c ∉ ((q :: found).map some ++ List.replicate (n * (mult + 1) - found.length) none).take
          (q :: found).length) ↔ c ∉ q :: found := by
        intro c
        rw [List.take_left' (by simp)]
        simp
      simp only [hmem]
      have hlen := new_length quant lower upper batch (fun c => decide (c ∉ q :: found))
      rw [hd batch List.mem_cons_self] at hlen
      have hmul : n * (mult + 1) = n * mult + n := Nat.mul_succ n mult
      have hfit : ((unique ((batch.filter (fun c => decide (lower ≤ c) && decide (c ≤ upper))).map quant)).filter
          (fun c => decide (c ∉ q :: found))).length ≤ n * (mult + 1) - found.length := by
        rcases hf with rfl | hf
        · simp only [List.length_nil]; omega
        · omega
      generalize (unique ((batch.filter (fun c => decide (lower ≤ c) && decide (c ≤ upper))).map quant)).filter
          (fun c => decide (c ∉ q :: found)) = new at hfit hlen ⊢
      rw [sliceAssign_fits hfit]
      dsimp only
      have hl : (q :: found).length + new.length - 1 = (found ++ new).length := by
        simp only [List.length_cons, List.length_append]; omega
      rw [hl]
      by_cases hn : n ≤ (found ++ new).length
      · rw [if_pos hn, if_pos hn]
        dsimp only
        congr 1
        rw [List.cons_append, List.map_cons, List.cons_append, List.take_succ_cons, List.drop_succ_cons, List.drop_zero,
          List.take_append_of_le_length (by simpa using hn), List.map_take]
      · rw [if_neg hn, if_neg hn]
        have := ih (found ++ new) (fun b hb => hd b (List.mem_cons_of_mem _ hb)) (.inr (by omega))
        rw [← this]
        congr 1
        · rw [List.length_append, Nat.sub_add_eq, List.cons_append]
        · simp; omega
  have := key draws [] hd (.inl rfl)
  simpa [bufferedNeighbors] using this

/-- **C89, buffer of the continuous neighbourhood.** -/
theorem C89_continuous_buffer (lower upper : K) (n mult : Nat) (draws : List (List K)) (hd : ∀ b ∈ draws, b.length = n * mult) :
    bufferedContinuous lower upper n mult draws =
      (match continuousNeighborhood lower upper n draws with
        | some r => .result (r.map some)
        | none => .exhausted) := by
  have key : ∀ (draws : List (List K)) (found : List K), (∀ b ∈ draws, b.length = n * mult) → (found = [] ∨ found.length < n) →
      bufferLoopC lower upper n draws (found.map some ++ List.replicate (n + n * mult - found.length) none) found.length =
        (match continuousLoop lower upper n draws found with
          | some r => .result (r.map some)
          | none => .exhausted) := by
    intro draws
    induction draws with
    | nil => intro found _ _; rfl
    | cons batch rest ih =>
      intro found hd hf
      unfold bufferLoopC continuousLoop
      dsimp only
      have hlen := List.length_filter_le (fun c => decide (lower ≤ c) && decide (c ≤ upper)) batch
      rw [hd batch List.mem_cons_self] at hlen
      have hfit : (batch.filter (fun c => decide (lower ≤ c) && decide (c ≤ upper))).length ≤ n + n * mult - found.length := by
        rcases hf with rfl | hf
        · simp only [List.length_nil]; omega
        · omega
      generalize batch.filter (fun c => decide (lower ≤ c) && decide (c ≤ upper)) = new at hfit hlen ⊢
      rw [sliceAssign_fits hfit]
      dsimp only
      rw [← List.length_append]
      by_cases hn : n ≤ (found ++ new).length
      · rw [if_pos hn, if_pos hn]
        dsimp only
        rw [List.take_append_of_le_length (by simpa using hn), List.map_take]
      · rw [if_neg hn, if_neg hn]
        have := ih (found ++ new) (fun b hb => hd b (List.mem_cons_of_mem _ hb)) (.inr (by omega))
        rw [← this]
        congr 1
        rw [List.length_append, Nat.sub_add_eq]
  have := key draws [] hd (.inl rfl)
  simpa [bufferedContinuous, continuousNeighborhood] using this

end

/-- A case: two batches of four, the second one is needed, and numbers are left over in the buffer. -/
example : bufferedContinuous (0 : ℚ) 1 2 2 [[-1, 1 / 2, 3, 4], [1 / 3, 1 / 4, 2, 1 / 5]] = .result [some (1 / 2), some (1 / 3)] := by
  rw [C89_continuous_buffer _ _ _ _ _ (by decide)]
  have : continuousNeighborhood (0 : ℚ) 1 2 [[-1, 1 / 2, 3, 4], [1 / 3, 1 / 4, 2, 1 / 5]] = some [1 / 2, 1 / 3] := by decide +kernel
  rw [this]; rfl

/-! ## Values -/

/-- Every entry stands for a legal value that has this entry. -/
private def Good (k : Kind) (r : List Rat) : Prop :=
  ∀ y ∈ r, ∃ w, k.toVal y = some w ∧ k.legalValue w = true ∧ k.toVec w = some y

private theorem good_choice {h : HP} (hw : h.wf = true) {cs : List Val} (hk : h.kind = .cat cs ∨ h.kind = .ord cs) {r : List Rat}
    (hr : ∀ y ∈ r, ∃ j : Nat, j < cs.length ∧ y = (j : Rat)) : Good h.kind r := by
  intro y hy
  obtain ⟨j, hj, rfl⟩ := hr y hy
  have hleg : h.kind.legalVec (((j : Nat) : Int) : Rat) = true := by
    have h1 : (0 : Rat) ≤ (j : Rat) := Nat.cast_nonneg j
    have h2 : (j : Rat) < (cs.length : Rat) := by exact_mod_cast hj
    rcases hk with hk | hk <;> rw [hk] <;> simp only [Kind.legalVec, Int.cast_natCast, closeToInt_nat, h1, h2] <;> simp
  obtain ⟨v, h1, _, h3, h4⟩ := C30_choices_partial hw hk hleg
  exact ⟨v, by exact_mod_cast h1, h3, by exact_mod_cast h4⟩

/-- The integers of a range, through their entries. -/
private theorem int_grid {l u m : Int} (hlu : l < u) (h1 : l ≤ m) (h2 : m ≤ u) {x : Rat} {n : Nat}
    (hx : (Kind.int l u).toVec (.int m) = some x) (draws : List (List Rat)) :
    ((u - l).toNat ≤ n → ∃ r, quantizedNeighborhood x n 0 1 (u - l + 1).toNat draws = some r) ∧
    ∀ r, quantizedNeighborhood x n 0 1 (u - l + 1).toNat draws = some r →
      r.Nodup ∧ x ∉ r ∧
      (∀ y ∈ r, r.length = min n (u - l).toNat ∧
        ∃ w, (Kind.int l u).toVal y = some w ∧ (Kind.int l u).legalValue w = true ∧ (Kind.int l u).toVec w = some y) ∧
      ((u - l).toNat ≤ n → ∀ m' : Int, l ≤ m' → m' ≤ u → m' ≠ m → ∃ y ∈ r, (Kind.int l u).toVec (.int m') = some y) := by
  obtain ⟨k, rfl⟩ : ∃ k : Nat, m = l + k := ⟨(m - l).toNat, by omega⟩
  obtain ⟨d, rfl⟩ : ∃ d : Nat, u = l + d := ⟨(u - l).toNat, by omega⟩
  have hd : 0 < d := by omega
  have hdQ : (0 : Rat) < d := by exact_mod_cast hd
  have eb : (l + d - l + 1).toNat = d + 1 := by omega
  have ed : (l + d - l).toNat = d := by omega
  have enc : ∀ j : Nat, (Kind.int l (l + d)).toVec (.int (l + j)) = some ((j : Rat) / (((d + 1 : Nat) : Rat) - 1)) := by
    intro j
    simp only [Kind.toVec, Val.num?, Option.map_some, normalize_eq]
    push_cast
    congr 1
    have e1 : (l : Rat) + d - l = d := by ring
    have e2 : (d : Rat) + 1 - 1 = d := by ring
    have e3 : (l : Rat) + j - l = j := by ring
    rw [e1, e2, e3]
  have hx' := enc k
  rw [hx] at hx'
  cases hx'
  rw [eb, ed]
  obtain ⟨a1, a2⟩ := C36_integer_neighbors (K := Rat) (bins := d + 1) (k := k) (n := n) (by omega) (by omega) draws
  have inj : ∀ i j : Nat, (i : Rat) / (((d + 1 : Nat) : Rat) - 1) = (j : Rat) / (((d + 1 : Nat) : Rat) - 1) → i = j := by
    intro i j e
    have hne : (((d + 1 : Nat) : Rat) - 1) ≠ 0 := by push_cast; linarith
    have := (div_left_inj' hne).1 e
    exact_mod_cast this
  refine ⟨fun hn => a1 (by omega), fun r hr => ?_⟩
  obtain ⟨b1, b2, b3, b4⟩ := a2 r hr
  refine ⟨b1, ?_, ?_, ?_⟩
  · intro hm
    obtain ⟨j, _, hne, e⟩ := b2 _ hm
    exact hne (inj _ _ e).symm
  · intro y hy
    obtain ⟨j, hj, _, rfl⟩ := b2 y hy
    refine ⟨by simpa using b3, .int (l + j), ?_, ?_, enc j⟩
    · have hne : (d : Rat) ≠ 0 := hdQ.ne'
      simp only [Kind.toVal, scaleQ]
      have : (j : Rat) / (((d + 1 : Nat) : Rat) - 1) * (((l + d : Int) : Rat) - (l : Rat)) + (l : Rat) = ((l + j : Int) : Rat) := by
        push_cast
        have e1 : (l : Rat) + d - l = d := by ring
        have e2 : (d : Rat) + 1 - 1 = d := by ring
        rw [e1, e2, div_mul_cancel₀ _ hne]; ring
      rw [this, rint_int]
    · simp only [Kind.legalValue, Val.num?, rint_int, closeToInt_int, Bool.and_eq_true, decide_eq_true_eq]
      exact ⟨⟨by omega, by omega⟩, trivial⟩
  · intro hn m' h1 h2 hne
    obtain ⟨j, rfl⟩ : ∃ j : Nat, m' = l + j := ⟨(m' - l).toNat, by omega⟩
    exact ⟨_, b4 (by omega) j (by omega) (by rintro rfl; exact hne rfl), enc j⟩

private theorem int_facts {h : HP} (hw : h.wf = true) {v : Val} (hl : h.kind.legalValue v = true) (he : ExactInt h.kind v)
    {x : Rat} (hx : h.kind.toVec v = some x) {l u : Int} (hk : h.kind = .int l u) :
    l < u ∧ ∃ m : Int, (Kind.int l u).toVec (.int m) = some x ∧ l ≤ m ∧ m ≤ u := by
  rw [hk] at hx hl
  have hluQ := HP.wf_int hw hk
  obtain ⟨m, hm⟩ := he l u hk
  refine ⟨by exact_mod_cast hluQ, m, by rw [← hx]; simp only [Kind.toVec, hm]; rfl, ?_⟩
  simp only [Kind.legalValue, hm, rint_int, Bool.and_eq_true, decide_eq_true_eq] at hl
  exact hl.1

/-- The neighbourhood of an entry that stands for a legal value. -/
private theorem neighborhood_good {h : HP} (hw : h.wf = true) {v : Val} (hl : h.kind.legalValue v = true) (he : ExactInt h.kind v)
    {x : Rat} (hx : h.kind.toVec v = some x) {n : Nat} {g : Gen} (hg : ∀ l, (g.shuffle l).Perm l) {r : List Rat}
    (hr : h.kind.neighborhood x n g = some r) :
    Good h.kind r ∧ (h.kind.isFloat = false → r.Nodup ∧ x ∉ r) ∧ (h.kind.isFloat = true → r.length = n) := by
  cases hk : h.kind with
  | cat cs =>
    rw [hk] at hx hr hl
    obtain ⟨i, hi, rfl⟩ : ∃ i : Nat, i < cs.length ∧ x = (i : Rat) := by
      simp only [Kind.toVec, Option.map_eq_some_iff] at hx
      obtain ⟨i, h1, h2⟩ := hx
      obtain ⟨w, hw, _⟩ := seqIndex_some h1
      exact ⟨i, (List.getElem?_eq_some_iff.1 hw).1, h2.symm⟩
    simp only [Kind.neighborhood, Option.map_eq_some_iff] at hr
    obtain ⟨r', h1, rfl⟩ := hr
    obtain ⟨r'', k1, k2, k3, _, _⟩ := C35_categorical_partial (n := n) hi hg
    rw [k1] at h1; cases h1
    refine ⟨?_, fun _ => ⟨?_, ?_⟩, fun h => by cases h⟩
    · have := good_choice hw (.inl hk) (r := r'.map (fun i : Nat => (i : Rat))) (by
        intro y hy
        obtain ⟨j, hj, rfl⟩ := List.mem_map.1 hy
        exact ⟨j, (k3 j hj).1, rfl⟩)
      rwa [hk] at this
    · exact k2.map (fun a b e => by exact_mod_cast e)
    · intro hm
      obtain ⟨j, hj, e⟩ := List.mem_map.1 hm
      exact (k3 j hj).2 (by exact_mod_cast e)
  | ord cs =>
    rw [hk] at hx hr hl
    obtain ⟨i, hi, rfl⟩ : ∃ i : Nat, i < cs.length ∧ x = (i : Rat) := by
      simp only [Kind.toVec, Option.map_eq_some_iff] at hx
      obtain ⟨i, h1, h2⟩ := hx
      obtain ⟨w, hw, _⟩ := seqIndex_some h1
      exact ⟨i, (List.getElem?_eq_some_iff.1 hw).1, h2.symm⟩
    simp only [Kind.neighborhood] at hr
    obtain ⟨r', k1, k2, k3, _, _⟩ := C35_ordinal_partial (n := n) hi g.pick
    rw [k1] at hr; cases hr
    refine ⟨?_, fun _ => ⟨k2, ?_⟩, fun h => by cases h⟩
    · have := good_choice hw (.inr hk) (r := r) (by
        intro y hy
        obtain ⟨j, rfl, hj, _⟩ := k3 y hy
        exact ⟨j, hj, rfl⟩)
      rwa [hk] at this
    · intro hm
      obtain ⟨j, e, _, hj⟩ := k3 _ hm
      have : i = j := by exact_mod_cast e
      omega
  | const c =>
    rw [hk] at hr
    simp only [Kind.neighborhood, Option.some.injEq] at hr
    subst hr
    exact ⟨fun y hy => (List.not_mem_nil hy).elim, fun _ => ⟨List.nodup_nil, List.not_mem_nil⟩, fun h => by cases h⟩
  | int l u =>
    obtain ⟨hlu, m, hx', hb1, hb2⟩ := int_facts hw hl he hx hk
    rw [hk] at hr
    simp only [Kind.neighborhood] at hr
    obtain ⟨i1, i2, i3, _⟩ := (int_grid hlu hb1 hb2 hx' g.draws).2 r hr
    exact ⟨fun y hy => (i3 y hy).2, fun _ => ⟨i1, i2⟩, fun h => by cases h⟩
  | flt l u =>
    rw [hk] at hr
    simp only [Kind.neighborhood] at hr
    obtain ⟨f1, f2⟩ := C53_float_neighbors hr
    refine ⟨?_, (fun h => by cases h), fun _ => f1⟩
    intro y hy
    obtain ⟨q, q1, q2, q3⟩ := C30_float (HP.wf_flt hw hk) (x := y) (by
      simp only [Kind.legalVec, Bool.and_eq_true, decide_eq_true_eq]; exact f2 y hy)
    exact ⟨.flt q, q1, by simp only [Kind.legalValue, Val.num?]; simp [q2], q3⟩

private theorem mapM_toVal {k : Kind} : ∀ {r : List Rat}, Good k r → ∃ ws, r.mapM k.toVal = some ws ∧
    List.Forall₂ (fun y w => k.toVal y = some w ∧ k.legalValue w = true ∧ k.toVec w = some y) r ws
  | [], _ => ⟨[], rfl, .nil⟩
  | y :: r, h => by
    obtain ⟨ws, h1, h2⟩ := mapM_toVal (k := k) (r := r) fun z hz => h z (List.mem_cons_of_mem _ hz)
    obtain ⟨w, h3, h4, h5⟩ := h y List.mem_cons_self
    exact ⟨w :: ws, by rw [List.mapM_cons, h3, h1]; rfl, .cons ⟨h3, h4, h5⟩ h2⟩

private theorem forall₂_right {A B : Type} {R : A → B → Prop} : ∀ {r : List A} {ws : List B}, List.Forall₂ R r ws →
    ∀ {b}, b ∈ ws → ∃ a ∈ r, R a b
  | _, _, .cons h hs, b, hb => by
    rcases List.mem_cons.1 hb with rfl | hb
    · exact ⟨_, List.mem_cons_self, h⟩
    · obtain ⟨a, ha, h'⟩ := forall₂_right hs hb
      exact ⟨a, List.mem_cons_of_mem _ ha, h'⟩

private theorem forall₂_left {A B : Type} {R : A → B → Prop} : ∀ {r : List A} {ws : List B}, List.Forall₂ R r ws →
    ∀ {a}, a ∈ r → ∃ b ∈ ws, R a b
  | _, _, .cons h hs, a, ha => by
    rcases List.mem_cons.1 ha with rfl | ha
    · exact ⟨_, List.mem_cons_self, h⟩
    · obtain ⟨b, hb, h'⟩ := forall₂_left hs ha
      exact ⟨b, List.mem_cons_of_mem _ hb, h'⟩

private theorem pairwise_of_forall₂ {k : Kind} : ∀ {r : List Rat} {ws : List Val},
    List.Forall₂ (fun y w => k.toVal y = some w ∧ k.legalValue w = true ∧ k.toVec w = some y) r ws → r.Nodup →
    ws.Pairwise (fun a b => a.pyEq b = false)
  | _, _, .nil, _ => .nil
  | _, _, .cons (a := y) (b := w) (l₁ := r) (l₂ := ws) h hs, hn => by
    rw [List.nodup_cons] at hn
    refine List.pairwise_cons.2 ⟨fun b hb => ?_, pairwise_of_forall₂ hs hn.2⟩
    obtain ⟨z, hz, h'⟩ := forall₂_right hs hb
    cases hp : w.pyEq b with
    | false => rfl
    | true =>
      have := toVec_of_pyEq hp k
      rw [h.2.2, h'.2.2] at this
      cases this
      exact absurd hz hn.1

/-- What `neighbors_values` does with a legal value. -/
private theorem neighborsValues_legal {h : HP} (hw : h.wf = true) {v : Val} (hl : h.kind.legalValue v = true) (he : ExactInt h.kind v)
    {x : Rat} (hx : h.kind.toVec v = some x) {n : Nat} {g : Gen} (hg : ∀ l, (g.shuffle l).Perm l) :
    (h.kind.neighborhood x n g = none ∧ h.kind.neighborsValues v n g = .error .valueError) ∨
    ∃ r ws, h.kind.neighborhood x n g = some r ∧ h.kind.neighborsValues v n g = .ok ws ∧
      List.Forall₂ (fun y w => h.kind.toVal y = some w ∧ h.kind.legalValue w = true ∧ h.kind.toVec w = some y) r ws := by
  have hv := toVec_legal hw hl hx he
  cases hr : h.kind.neighborhood x n g with
  | none =>
    left
    refine ⟨rfl, ?_⟩
    simp only [Kind.neighborsValues, hx, Kind.neighborsVec, hv, hr]
    rfl
  | some r =>
    right
    obtain ⟨ws, h1, h2⟩ := mapM_toVal (neighborhood_good hw hl he hx hg hr).1
    refine ⟨r, ws, rfl, ?_, h2⟩
    simp only [Kind.neighborsValues, hx, Kind.neighborsVec, hv, hr]
    show (match r.mapM h.kind.toVal with | none => Except.error Err.valueError | some ws => .ok ws) = _
    rw [h1]

/-- **C89**, values (partial: linear scales, uniform distributions).  For a legal value, everything `neighbors_values` returns is a legal
value, whatever the generator does.  For a hyperparameter with enumerable values the neighbours are different from each other and from the
given value; a float hyperparameter gets as many as asked for. -/
theorem C89_neighbors_values_partial {h : HP} (hw : h.wf = true) {v : Val} (hl : h.kind.legalValue v = true) (he : ExactInt h.kind v)
    {n : Nat} {g : Gen} (hg : ∀ l, (g.shuffle l).Perm l) {ws : List Val} (hr : h.kind.neighborsValues v n g = .ok ws) :
    (∀ w ∈ ws, h.kind.legalValue w = true) ∧
    (h.kind.isFloat = false → ws.Pairwise (fun a b => a.pyEq b = false) ∧ ∀ w ∈ ws, w.pyEq v = false) ∧
    (h.kind.isFloat = true → ws.length = n) := by
  obtain ⟨x, hx⟩ := legal_toVec hl
  rcases neighborsValues_legal hw hl he hx hg (n := n) with ⟨_, h2⟩ | ⟨r, ws', h1, h2, h3⟩
  · rw [hr] at h2; cases h2
  · rw [hr] at h2; cases h2
    obtain ⟨g1, g2, g3⟩ := neighborhood_good hw hl he hx hg h1
    refine ⟨fun w hw' => ?_, fun hf => ?_, fun hf => ?_⟩
    · obtain ⟨y, _, h'⟩ := forall₂_right h3 hw'
      exact h'.2.1
    · obtain ⟨n1, n2⟩ := g2 hf
      refine ⟨pairwise_of_forall₂ h3 n1, fun w hw' => ?_⟩
      obtain ⟨y, hy, h'⟩ := forall₂_right h3 hw'
      cases hp : w.pyEq v with
      | false => rfl
      | true =>
        have := toVec_of_pyEq hp h.kind
        rw [h'.2.2, hx] at this
        cases this
        exact absurd hy n2
    · rw [← h3.length_eq]
      exact g3 hf

/-- **C89**: for a legal value of a categorical, ordinal or constant hyperparameter `neighbors_values` does not raise, nor for one of an
integer range of which all other values are asked for. -/
theorem C89_total {h : HP} (hw : h.wf = true) {v : Val} (hl : h.kind.legalValue v = true) (he : ExactInt h.kind v)
    {n : Nat} {g : Gen} (hg : ∀ l, (g.shuffle l).Perm l) (hf : h.kind.isFloat = false)
    (hn : ∀ l u, h.kind = .int l u → u - l ≤ n) : ∃ ws, h.kind.neighborsValues v n g = .ok ws := by
  obtain ⟨x, hx⟩ := legal_toVec hl
  rcases neighborsValues_legal hw hl he hx hg (n := n) with ⟨h1, _⟩ | ⟨r, ws', _, h2, _⟩
  · exfalso
    have idx : ∀ cs : List Val, (seqIndex cs v).map (fun i : Nat => (i : Rat)) = some x → ∃ i : Nat, i < cs.length ∧ x = (i : Rat) := by
      intro cs h
      simp only [Option.map_eq_some_iff] at h
      obtain ⟨i, h1, h2⟩ := h
      obtain ⟨w, hw, _⟩ := seqIndex_some h1
      exact ⟨i, (List.getElem?_eq_some_iff.1 hw).1, h2.symm⟩
    cases hk : h.kind with
    | cat cs =>
      rw [hk] at h1 hx
      obtain ⟨i, hi, rfl⟩ := idx cs hx
      obtain ⟨r, k1, _⟩ := C35_categorical_partial (n := n) hi hg
      simp only [Kind.neighborhood, k1, Option.map_some] at h1
      cases h1
    | ord cs =>
      rw [hk] at h1 hx
      obtain ⟨i, hi, rfl⟩ := idx cs hx
      obtain ⟨r, k1, _⟩ := C35_ordinal_partial (n := n) hi g.pick
      simp only [Kind.neighborhood, k1] at h1
      cases h1
    | const c => rw [hk] at h1; cases h1
    | flt l u => rw [hk] at hf; cases hf
    | int l u =>
      obtain ⟨hlu, m, hx', hb1, hb2⟩ := int_facts hw hl he hx hk
      obtain ⟨r, h2⟩ := (int_grid hlu hb1 hb2 hx' g.draws (n := n)).1 (by have := hn l u hk; omega)
      rw [hk] at h1
      simp only [Kind.neighborhood, h2] at h1
      cases h1
  · exact ⟨ws', h2⟩

/-- **C89**: if as many neighbours are asked for as there are other values, a categorical and an integer hyperparameter return every legal
value but the given one. -/
theorem C89_all_values {h : HP} (hw : h.wf = true) {v : Val} (hl : h.kind.legalValue v = true) (he : ExactInt h.kind v)
    {n : Nat} {g : Gen} (hg : ∀ l, (g.shuffle l).Perm l) {ws : List Val} (hr : h.kind.neighborsValues v n g = .ok ws)
    (hk : (∃ cs, h.kind = .cat cs ∧ cs.length ≤ n + 1) ∨ ∃ l u, h.kind = .int l u ∧ u - l ≤ n)
    {w : Val} (hlw : h.kind.legalValue w = true) (hew : ExactInt h.kind w) (hne : w.pyEq v = false) :
    ∃ w' ∈ ws, w'.pyEq w = true := by
  obtain ⟨x, hx⟩ := legal_toVec hl
  obtain ⟨z, hz⟩ := legal_toVec hlw
  rcases neighborsValues_legal hw hl he hx hg (n := n) with ⟨_, h2⟩ | ⟨r, ws', h1, h2, h3⟩
  · rw [hr] at h2; cases h2
  · rw [hr] at h2; cases h2
    have hzx : z ≠ x := by
      rintro rfl
      obtain ⟨a, a1, a2⟩ := toVal_toVec hw hl hx he
      obtain ⟨b, b1, b2⟩ := toVal_toVec hw hlw hz hew
      rw [a1] at b1; cases b1
      have := Val.pyEq_trans (Val.pyEq_symm b2) a2
      rw [hne] at this; cases this
    have hmem : z ∈ r := by
      rcases hk with ⟨cs, hk, hn⟩ | ⟨l, u, hk, hn⟩
      · rw [hk] at h1 hx hz
        simp only [Kind.toVec, Option.map_eq_some_iff] at hx hz
        obtain ⟨i, i1, rfl⟩ := hx
        obtain ⟨j, j1, rfl⟩ := hz
        obtain ⟨_, i2, _⟩ := seqIndex_some i1
        obtain ⟨_, j2, _⟩ := seqIndex_some j1
        obtain ⟨r', k1, _, _, _, k5⟩ := C35_categorical_partial (n := n) (List.getElem?_eq_some_iff.1 i2).1 hg
        simp only [Kind.neighborhood, k1, Option.map_some, Option.some.injEq] at h1
        subst h1
        refine List.mem_map.2 ⟨j, (k5 (by omega) j).2 ⟨(List.getElem?_eq_some_iff.1 j2).1, ?_⟩, rfl⟩
        rintro rfl; exact hzx rfl
      · obtain ⟨hlu, m, hx', hb1, hb2⟩ := int_facts hw hl he hx hk
        obtain ⟨_, m', hz', hb1', hb2'⟩ := int_facts hw hlw hew hz hk
        rw [hk] at h1
        obtain ⟨_, _, _, h4⟩ := (int_grid hlu hb1 hb2 hx' g.draws (n := n)).2 r h1
        obtain ⟨y, hy, e⟩ := h4 (by omega) m' hb1' hb2' (by
          rintro rfl
          rw [hx'] at hz'; cases hz'; exact hzx rfl)
        rw [hz'] at e; cases e
        exact hy
    obtain ⟨w', hw', h'⟩ := forall₂_left h3 hmem
    obtain ⟨b, b1, b2⟩ := toVal_toVec hw hlw hz hew
    rw [h'.1] at b1; cases b1
    exact ⟨w', hw', b2⟩

/-- An integer range, its third value and a generator. -/
example : (Kind.int 1 5).neighborsValues (.int 3) 4 ⟨id, true, []⟩ = .ok [.int 1, .int 2, .int 4, .int 5] ∧
    (Kind.cat [.str "a", .str "b", .str "c"]).neighborsValues (.str "b") 2 ⟨List.reverse, true, []⟩ = .ok [.str "c", .str "a"] ∧
    (Kind.ord [.str "a", .str "b", .str "c"]).neighborsValues (.str "b") 2 ⟨id, true, []⟩ = .ok [.str "a", .str "c"] ∧
    (Kind.flt 0 2).neighborsValues (.flt 1) 2 ⟨id, true, [[-1, 1 / 2], [1 / 4]]⟩ = .ok [.flt 1, .flt (1 / 2)] := by decide +kernel

/-- The hypotheses of the theorems, for an integer range. -/
example : ∃ h : HP, h.wf = true ∧ h.kind = .int 1 5 ∧ h.kind.legalValue (.int 3) = true ∧ ExactInt h.kind (.int 3) ∧
    (∀ l, (id l : List Nat).Perm l) ∧ (Kind.int 1 5).isFloat = false :=
  ⟨{ name := "i", kind := .int 1 5, default := .int 3 }, by decide +kernel, rfl, by decide +kernel,
    fun _ _ _ => ⟨3, rfl⟩, fun _ => .refl _, rfl⟩

/-- A float hyperparameter may be given its own value as a neighbour, and the same one twice: the entries are compared with nothing.
The claim that neighbours differ is false of the code for floats. -/
theorem C89_float_repeats :
    (Kind.flt 0 2).neighborsValues (.flt 1) 2 ⟨id, true, [[1 / 2, 1 / 2]]⟩ = .ok [.flt 1, .flt 1] := by decide +kernel

/-- The constant of a constant hyperparameter has no neighbours, and any other value is refused: its entry is not legal. -/
theorem C89_constant (c v : Val) (n : Nat) (g : Gen) :
    (Kind.const c).neighborsValues v n g = if v.pyEq c then .ok [] else .error .valueError := by
  cases h : v.pyEq c with
  | true => simp only [Kind.neighborsValues, Kind.toVec, h]; rfl
  | false => simp only [Kind.neighborsValues, Kind.toVec, h]; rfl

/-- A value that is not among the choices is refused with the error of the look-up. -/
theorem C89_unknown_choice {cs : List Val} {v : Val} (h : v.pyIn cs = false) (n : Nat) (g : Gen) :
    (Kind.cat cs).neighborsValues v n g = .error .keyError ∧ (Kind.ord cs).neighborsValues v n g = .error .keyError := by
  have : seqIndex cs v = none := by
    cases hs : seqIndex cs v with
    | none => rfl
    | some i =>
      obtain ⟨w, h1, h2⟩ := seqIndex_some hs
      have : v.pyIn cs = true := by
        unfold Val.pyIn
        rw [List.any_eq_true]
        exact ⟨w, List.mem_of_getElem? h1, h2⟩
      rw [h] at this; cases this
  constructor <;> simp only [Kind.neighborsValues, Kind.toVec, this, Option.map_none]

/-! ## The theorems applied to concrete cases -/

namespace ExNv

/-- `UniformInteger("i", 1, 5, default_value=3)` -/
def five : HP := { name := "i", kind := .int 1 5, default := .int 3 }

/-- `UniformFloat("f", 0, 2)` -/
def two : HP := { name := "f", kind := .flt 0 2, default := .flt 1 }

theorem exact_five (m : Int) : ExactInt five.kind (.int m) := fun _ _ _ => ⟨m, rfl⟩

example := C89_total (h := five) (by decide +kernel) (v := .int 3) (by decide +kernel) (exact_five 3) (n := 4) (g := ⟨id, true, []⟩)
  (fun _ => .refl _) rfl (by
    intro l u e
    cases e
    decide)

example := C89_neighbors_values_partial (h := five) (by decide +kernel) (v := .int 3) (by decide +kernel) (exact_five 3) (n := 4)
  (g := ⟨id, true, []⟩) (fun _ => .refl _) (ws := [.int 1, .int 2, .int 4, .int 5]) (by decide +kernel)

example := C89_neighbors_values_partial (h := two) (by decide +kernel) (v := .flt 1) (by decide +kernel) (fun _ _ e => by cases e) (n := 2)
  (g := ⟨id, true, [[-1, 1 / 2], [1 / 4]]⟩) (fun _ => .refl _) (ws := [.flt 1, .flt (1 / 2)]) (by decide +kernel)

example : ∃ w' ∈ [Val.int 1, .int 2, .int 4, .int 5], w'.pyEq (.int 5) = true :=
  C89_all_values (h := five) (by decide +kernel) (v := .int 3) (by decide +kernel) (exact_five 3) (n := 4)
    (g := ⟨id, true, []⟩) (fun _ => .refl _) (ws := [.int 1, .int 2, .int 4, .int 5]) (by decide +kernel) (.inr ⟨1, 5, rfl, by decide⟩)
    (by decide +kernel) (exact_five 5) (by decide)

example := C89_unknown_choice (cs := [.str "a", .str "b"]) (v := .str "z") (by decide) 2 ⟨id, true, []⟩

/-- Two batches of four draws each. -/
example := C89_quantised_buffer (fun x : ℚ => x) 0 1 2 2 (1 / 2) [[-1, 1 / 2, 3, 4], [1 / 3, 1 / 4, 2, 1 / 5]] (by decide)

end ExNv

end Verif
