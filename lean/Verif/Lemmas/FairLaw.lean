import Verif.Lemmas.FairEnds

/-!
# Lemmas: the distribution of what the sampler returns, whatever the conditions of the space are
-/

set_option autoImplicit false

namespace Verif.Fair
open Verif Verif.Spec MeasureTheory ProbabilityTheory

variable {calls : List Call} {s : Space} {Ω : Type} [MeasurableSpace Ω] {P : Measure Ω} {X : Nat × Nat → Ω → Vec}

/-- `M T` are the legal draws that are accepted and turned into a configuration in `T`. -/
def Makes (calls : List Call) (s : Space) (M : Set Vec → Set Vec) : Prop :=
  ∀ u, LegalDraw calls s u → ∀ T, u ∈ M T ↔ okCol s u = true ∧ maskCol s u ∈ T

theorem empty_ok (h : Reach calls s) (h0 : s.len = 0) : okCol s [] = true ∧ maskCol s [] = [] := by
  have hm : maskCol s [] = [] := List.length_eq_zero_iff.1 (by rw [maskCol_length]; rfl)
  refine ⟨okCol_iff.2 ?_, hm⟩
  have hd : LegalDraws calls s (constDraws s []) := constDraws_legal h (fun x hx => by
    have := idx_lt h ((reach_isNode h x.name).2 ⟨x, hx, rfl⟩)
    omega)
  obtain ⟨a, ha, hval⟩ := C25_samples_not_forbidden h hd.1 (fuel := 0) (size := none) (r := .one { vec := [] }) (by
    unfold Space.sampleConfiguration
    rw [if_pos h0]) { vec := [] } (by simp [Sampled.all])
  have hi := sinv_of_reach h
  rw [hm]
  refine ⟨fun f hf => ?_, fun f hf => ?_⟩
  · have hf' := hi.hist.forbs.mem_iff.1 (List.mem_append.2 (.inl hf))
    rw [forbids_represents h ha hf']
    exact hval f hf'
  · have hf' := hi.hist.forbs.mem_iff.1 (List.mem_append.2 (.inr hf))
    rw [forbids_represents h ha hf']
    exact hval f hf'

theorem made_empty (h : Reach calls s) (hX : IidDraws calls s P X) {M : Set Vec → Set Vec} (hM : Makes calls s M) (h0 : s.len = 0)
    (T : Set Vec) : {ω | X (0, 0) ω ∈ M T} = {ω | ([] : Vec) ∈ T} := by
  ext ω
  have hnil : X (0, 0) ω = [] := List.length_eq_zero_iff.1 (by rw [(hX.legal _ ω).1, h0])
  have he := empty_ok h h0
  rw [Set.mem_ofPred_eq, hM _ (hX.legal _ ω), hnil, he.2]
  simp [he.1]

theorem vectors_empty {rng : Nat → Nat → Mat} {fuel : Nat} {size : Option Int} (h0 : s.len = 0) :
    (s.sampleConfiguration rng fuel size).map vectors = some (List.replicate (size.getD 1).toNat []) := by
  unfold Space.sampleConfiguration
  rw [if_pos h0]
  cases size <;> simp [vectors, Sampled.all]

theorem returns_iff {t : Nat × Nat → Vec} {fuel : Nat} {size : Option Int} {S : Nat → Set Vec} {o : Option (List Vec)}
    (h : (s.sampleConfiguration (matrixOf s t) fuel size).map vectors = o) :
    Returns s t fuel size S ↔ ∃ l, o = some l ∧ ∀ k v, l[k]? = some v → v ∈ S k := by
  subst h
  unfold Returns
  constructor
  · rintro ⟨r, h1, h2⟩
    exact ⟨vectors r, by rw [h1]; rfl, h2⟩
  · rintro ⟨l, h1, h2⟩
    obtain ⟨r, h3, rfl⟩ := Option.map_eq_some_iff.1 h1
    exact ⟨r, h3, h2⟩

theorem results_fair (h : Reach calls s) (hX : IidDraws calls s P X) {M : Set Vec → Set Vec}
    (hM : Makes calls s M)
    (fuel : Nat) (size : Option Int) (S : Nat → Set Vec) :
    P {ω | Returns s (fun p => X p ω) fuel size S} * P {ω | X (0, 0) ω ∈ M Set.univ} ^ (size.getD 1).toNat =
      P {ω | Returns s (fun p => X p ω) fuel size (fun _ => Set.univ)} *
        ∏ k ∈ Finset.range (size.getD 1).toNat, P {ω | X (0, 0) ω ∈ M (S k)} := by
  have hP : IsProbabilityMeasure P := hX.indep.isProbabilityMeasure
  by_cases h0 : s.len = 0
  · have e1 : ∀ S : Set Vec, {ω | X (0, 0) ω ∈ M S} = {ω | ([] : Vec) ∈ S} := made_empty h hX hM h0
    have e2 : ∀ S : Nat → Set Vec, {ω | Returns s (fun p => X p ω) fuel size S} = {ω | ∀ k < (size.getD 1).toNat, ([] : Vec) ∈ S k} := by
      intro S
      ext ω
      simp only [Set.mem_ofPred_eq, returns_iff (vectors_empty h0), Option.some.injEq, exists_eq_left']
      constructor
      · exact fun hk k hlt => hk k [] (by simp [hlt])
      · intro hk k v hv
        simp only [List.getElem?_replicate] at hv
        split at hv
        · cases hv; exact hk k (by assumption)
        · cases hv
    rw [e1, e2, e2]
    simp only [e1]
    generalize (size.getD 1).toNat = n
    have eT : ∀ p : Prop, p → P {ω : Ω | p} = 1 := fun p hp => by
      rw [show {ω : Ω | p} = Set.univ by ext; simpa using hp, measure_univ]
    have eF : ∀ p : Prop, ¬ p → P {ω : Ω | p} = 0 := fun p hp => by
      rw [show {ω : Ω | p} = ∅ by ext; simpa using hp, measure_empty]
    rw [eT _ (Set.mem_univ _), eT _ (fun _ _ => Set.mem_univ _), one_pow, mul_one, one_mul]
    by_cases hk : ∀ k < n, ([] : Vec) ∈ S k
    · rw [eT _ hk]
      exact (Finset.prod_eq_one (fun k hm => eT _ (hk k (Finset.mem_range.1 hm)))).symm
    · rw [eF _ hk]
      push Not at hk
      obtain ⟨k, hlt, hk⟩ := hk
      exact (Finset.prod_eq_zero (Finset.mem_range.2 hlt) (eF _ hk)).symm
  by_cases hn : size.getD 1 < 1
  · have hz : (size.getD 1).toNat = 0 := by omega
    have e2 : ∀ S : Nat → Set Vec, {ω | Returns s (fun p => X p ω) fuel size S} = Set.univ := by
      intro S
      ext ω
      simp only [Set.mem_ofPred_eq, Set.mem_univ, iff_true]
      rw [returns_iff (vectors_eq h0), if_pos hn]
      exact ⟨[], rfl, fun k v hv => by simp at hv⟩
    rw [e2, e2, hz]
    simp
  · generalize hnn : (size.getD 1).toNat = n
    have hlen : ∀ ω p, (X p ω).length = s.len := fun ω p => (hX.legal p ω).1
    obtain ⟨C, hC⟩ := law_of_selected (n := n) (ok := okCol s) hX.measurable hX.indep (MeasurableSpace.measurableSet_top) (window s n fuel) (sel := chosen s n fuel)
      (fun π π' => chosen_congr) (fun π p => chosen_mem) (μ := fun B => P (X (0, 0) ⁻¹' B)) (fun i _ B _ => hX.same i (0, 0) B)
    let B : Set Vec → Set Vec := fun T => {u | okCol s u = true ∧ maskCol s u ∈ T}
    have e1 : ∀ T, {ω | X (0, 0) ω ∈ M T} = X (0, 0) ⁻¹' (B T) := by
      intro T
      ext ω
      exact hM _ (hX.legal _ ω) T
    have e2 : ∀ S : Nat → Set Vec, P {ω | Returns s (fun p => X p ω) fuel size S} = C * ∏ k ∈ Finset.range n, P (X (0, 0) ⁻¹' (B (S k))) := by
      intro S
      rw [Finset.prod_range, ← hC (fun k => B (S k)) (fun k => MeasurableSpace.measurableSet_top) (fun k x hx => hx.1)]
      congr 1
      ext ω
      simp only [Set.mem_ofPred_eq]
      rw [returns_iff (vectors_chosen h h0 (hlen ω) hn), hnn]
      constructor
      · rintro ⟨l, h1, h2⟩
        obtain ⟨p, hp, rfl⟩ := Option.map_eq_some_iff.1 h1
        exact ⟨p, hp, fun k => ⟨((chosen_mem hp).2 k).2, h2 k _ (by simp)⟩⟩
      · rintro ⟨p, hp, h2⟩
        refine ⟨_, by rw [hp]; rfl, fun k v hv => ?_⟩
        obtain ⟨hk, rfl⟩ := List.getElem?_eq_some_iff.1 hv
        rw [List.length_ofFn] at hk
        simpa using (h2 ⟨k, hk⟩).2
    rw [e2, e2, e1]
    simp only [e1, Finset.prod_const, Finset.card_range]
    ring

/-! ## The end of the loop -/

theorem sure_return {size : Option Int} (h0 : s.len = 0 ∨ size.getD 1 < 1) {t : Nat × Nat → Vec} {fuel : Nat} : Returns s t fuel size (fun _ => Set.univ) := by
  by_cases hz : s.len = 0
  · exact (returns_iff (vectors_empty hz)).2 ⟨_, rfl, fun _ _ _ => Set.mem_univ _⟩
  · rw [returns_iff (vectors_eq hz), if_pos (h0.resolve_left hz)]
    exact ⟨_, rfl, fun _ _ _ => Set.mem_univ _⟩

theorem number_of_batches (h : Reach calls s) (hX : IidDraws calls s P X) {M : Set Vec → Set Vec}
    (hM : Makes calls s M)
    (size : Option Int) (m : Nat) :
    P {ω | ¬ Returns s (fun p => X p ω) ((size.getD 1).toNat * m) size (fun _ => Set.univ)} ≤
      (size.getD 1).toNat * (1 - P {ω | X (0, 0) ω ∈ M Set.univ}) ^ m := by
  by_cases h0 : s.len = 0 ∨ size.getD 1 < 1
  · have : {ω | ¬ Returns s (fun p => X p ω) ((size.getD 1).toNat * m) size (fun _ => Set.univ)} = ∅ := by
      ext ω
      simpa using sure_return h0
    rw [this, measure_empty]
    exact zero_le
  · push Not at h0
    obtain ⟨hz, hn⟩ := h0
    have hn' : ¬ size.getD 1 < 1 := not_lt.2 hn
    let A : Set Vec := {u | okCol s u = true}
    have e1 : {ω | X (0, 0) ω ∈ M Set.univ} = X (0, 0) ⁻¹' A := by
      ext ω
      rw [Set.mem_ofPred_eq, hM _ (hX.legal _ ω)]
      simp [A]
    rw [e1]
    generalize hnn : (size.getD 1).toNat = n
    have hsub : {ω | ¬ Returns s (fun p => X p ω) (n * m) size (fun _ => Set.univ)} ⊆
        ⋃ i ∈ Finset.range n, {ω | ∀ c < m, X (i * m + c, 0) ω ∉ A} := by
      intro ω hω
      by_contra hcon
      refine hω ((returns_iff (vectors_chosen h hz (fun p => (hX.legal p ω).1) hn')).2 ?_)
      rw [hnn]
      obtain ⟨p, hp⟩ := chosen_ends (s := s) (n := n) (m := m) (π := fun p => okCol s (X p ω)) (fun i hi => by
        by_contra hno
        push Not at hno
        exact hcon (Set.mem_iUnion₂.2 ⟨i, Finset.mem_range.2 hi, fun c hc hA => hno c hc hA⟩))
      exact ⟨_, by rw [hp]; rfl, fun _ _ _ => Set.mem_univ _⟩
    refine (measure_mono hsub).trans ((measure_biUnion_finset_le _ _).trans ?_)
    have e2 : ∀ i, P {ω | ∀ c < m, X (i * m + c, 0) ω ∉ A} = (1 - P (X (0, 0) ⁻¹' A)) ^ m := fun i =>
      none_passes (Y := fun c => X (i * m + c, 0)) (fun c => hX.measurable _)
        (hX.indep.precomp (g := fun c => (i * m + c, 0)) (fun a c hac => by have := (Prod.mk.inj hac).1; omega))
        MeasurableSpace.measurableSet_top (fun c => hX.same _ _ _) m
    rw [Finset.sum_congr rfl (fun i _ => e2 i), Finset.sum_const, Finset.card_range, nsmul_eq_mul]

theorem ends (h : Reach calls s) (hX : IidDraws calls s P X) {M : Set Vec → Set Vec}
    (hM : Makes calls s M)
    (size : Option Int) (hQ : P {ω | X (0, 0) ω ∈ M Set.univ} ≠ 0) :
    P {ω | ¬ Delivers s (fun p => X p ω) size (fun _ => Set.univ)} = 0 := by
  have hb : ∀ m : Nat, P {ω | ¬ Delivers s (fun p => X p ω) size (fun _ => Set.univ)} ≤
      (size.getD 1).toNat * (1 - P {ω | X (0, 0) ω ∈ M Set.univ}) ^ m := fun m =>
    (measure_mono (show {ω | ¬ Delivers s (fun p => X p ω) size (fun _ => Set.univ)} ⊆ _ from fun ω hω hr => hω ⟨_, hr⟩)).trans (number_of_batches h hX hM size m)
  have hlt : 1 - P {ω | X (0, 0) ω ∈ M Set.univ} < 1 := ENNReal.sub_lt_self (by simp) (by simp) hQ
  have ht := ENNReal.Tendsto.const_mul (ENNReal.tendsto_pow_atTop_nhds_zero_of_lt_one hlt) (a := ((size.getD 1).toNat : ENNReal))
    (.inr (ENNReal.natCast_ne_top _))
  rw [mul_zero] at ht
  exact le_antisymm (ge_of_tendsto' ht hb) zero_le

theorem never_ends (h : Reach calls s) (hX : IidDraws calls s P X) {M : Set Vec → Set Vec}
    (hM : Makes calls s M)
    (size : Option Int) (hn : 1 ≤ size.getD 1) (hQ : P {ω | X (0, 0) ω ∈ M Set.univ} = 0) (S : Nat → Set Vec) :
    P {ω | Delivers s (fun p => X p ω) size S} = 0 := by
  have hP : IsProbabilityMeasure P := hX.indep.isProbabilityMeasure
  have hz : s.len ≠ 0 := by
    intro h0
    have : {ω | X (0, 0) ω ∈ M Set.univ} = Set.univ := by
      rw [made_empty h hX hM h0]
      ext ω
      simp
    rw [this, measure_univ] at hQ
    exact one_ne_zero hQ
  have hall : P (⋃ p : Nat × Nat, X p ⁻¹' {u | okCol s u = true}) = 0 := by
    refine measure_iUnion_null (fun p => ?_)
    rw [hX.same p (0, 0), ← hQ]
    congr 1
    ext ω
    rw [Set.mem_ofPred_eq, hM _ (hX.legal _ ω)]
    simp
  refine measure_mono_null ?_ hall
  rintro ω ⟨fuel, hr⟩
  obtain ⟨l, h1, -⟩ := (returns_iff (vectors_chosen h hz (fun p => (hX.legal p ω).1) (not_lt.2 hn))).1 hr
  obtain ⟨p, hp, -⟩ := Option.map_eq_some_iff.1 h1
  have hk : 0 < (size.getD 1).toNat := by omega
  exact Set.mem_iUnion.2 ⟨p ⟨0, hk⟩, ((chosen_mem hp).2 ⟨0, hk⟩).2⟩

/-! ## The distribution of what is returned -/

theorem returns_mono (h : Reach calls s) {t : Nat × Nat → Vec} (ht : ∀ p, (t p).length = s.len) (size : Option Int) (S : Nat → Set Vec) :
    Monotone (fun fuel => Returns s t fuel size S) := by
  intro f g hfg hr
  obtain ⟨k, rfl⟩ := Nat.exists_eq_add_of_le hfg
  by_cases h0 : s.len = 0
  · exact (returns_iff (vectors_empty h0)).2 ((returns_iff (vectors_empty h0)).1 hr)
  by_cases hn : size.getD 1 < 1
  · have h1 := (returns_iff (vectors_eq h0)).1 hr
    rw [if_pos hn] at h1
    refine (returns_iff (vectors_eq h0)).2 ?_
    rw [if_pos hn]
    exact h1
  · obtain ⟨l, h1, h2⟩ := (returns_iff (vectors_chosen h h0 ht hn)).1 hr
    obtain ⟨p, hp, rfl⟩ := Option.map_eq_some_iff.1 h1
    exact (returns_iff (vectors_chosen h h0 ht hn)).2 ⟨_, by rw [chosen_more hp]; rfl, h2⟩

theorem ends_one (h : Reach calls s) (hX : IidDraws calls s P X) {M : Set Vec → Set Vec} (hM : Makes calls s M)
    (size : Option Int) (hQ : P {ω | X (0, 0) ω ∈ M Set.univ} ≠ 0) : P {ω | Delivers s (fun p => X p ω) size (fun _ => Set.univ)} = 1 := by
  have hP : IsProbabilityMeasure P := hX.indep.isProbabilityMeasure
  have h1 := ends h hX hM size hQ
  refine le_antisymm prob_le_one ?_
  calc (1 : ENNReal) = P Set.univ := measure_univ.symm
    _ ≤ P ({ω | Delivers s (fun p => X p ω) size (fun _ => Set.univ)} ∪ {ω | ¬ Delivers s (fun p => X p ω) size (fun _ => Set.univ)}) :=
      measure_mono (fun ω _ => by simpa using em _)
    _ ≤ _ := measure_union_le _ _
    _ = _ := by rw [h1, add_zero]

theorem distribution (h : Reach calls s) (hX : IidDraws calls s P X) {M : Set Vec → Set Vec}
    (hM : Makes calls s M)
    (size : Option Int) (hQ : P {ω | X (0, 0) ω ∈ M Set.univ} ≠ 0) (S : Nat → Set Vec) :
    P {ω | Delivers s (fun p => X p ω) size S} = ∏ k ∈ Finset.range (size.getD 1).toNat,
      P {ω | X (0, 0) ω ∈ M (S k)} / P {ω | X (0, 0) ω ∈ M Set.univ} := by
  have hP : IsProbabilityMeasure P := hX.indep.isProbabilityMeasure
  have hun : ∀ S : Nat → Set Vec, {ω | Delivers s (fun p => X p ω) size S} = ⋃ fuel, {ω | Returns s (fun p => X p ω) fuel size S} := by
    intro S
    ext ω
    simp [Delivers]
  have hlim : ∀ S : Nat → Set Vec, Filter.Tendsto (fun fuel => P {ω | Returns s (fun p => X p ω) fuel size S}) Filter.atTop
      (nhds (P {ω | Delivers s (fun p => X p ω) size S})) := by
    intro S
    rw [hun]
    exact tendsto_measure_iUnion_atTop (fun f g hfg ω hr => returns_mono h (fun p => (hX.legal p ω).1) size S hfg hr)
  have hone : P {ω | Delivers s (fun p => X p ω) size (fun _ => Set.univ)} = 1 := ends_one h hX hM size hQ
  generalize hq : P {ω | X (0, 0) ω ∈ M Set.univ} = q at *
  have hqt : q ≠ ⊤ := by rw [← hq]; exact measure_ne_top _ _
  have h1 := ENNReal.Tendsto.mul_const (hlim S) (b := q ^ (size.getD 1).toNat) (.inr (ENNReal.pow_ne_top hqt))
  have h2 := ENNReal.Tendsto.mul_const (hlim (fun _ => Set.univ))
    (b := ∏ k ∈ Finset.range (size.getD 1).toNat, P {ω | X (0, 0) ω ∈ M (S k)})
    (.inr (ENNReal.prod_ne_top (fun _ _ => measure_ne_top _ _)))
  have heq := tendsto_nhds_unique h1 (h2.congr (fun fuel => by
    rw [← results_fair h hX hM fuel size S, hq]))
  rw [hone, one_mul] at heq
  simp only [div_eq_mul_inv]
  rw [Finset.prod_mul_distrib, Finset.prod_const, Finset.card_range, ← heq, ← ENNReal.inv_pow, ← div_eq_mul_inv]
  exact (ENNReal.mul_div_cancel_right (pow_ne_zero _ hQ) (ENNReal.pow_ne_top hqt)).symm

theorem vectors_length (h : Reach calls s) {t : Nat × Nat → Vec} (ht : ∀ p, (t p).length = s.len) {fuel : Nat} {size : Option Int} {r : Sampled}
    (hr : s.sampleConfiguration (matrixOf s t) fuel size = some r) : (vectors r).length = (size.getD 1).toNat := by
  have hv : (s.sampleConfiguration (matrixOf s t) fuel size).map vectors = some (vectors r) := by rw [hr]; rfl
  by_cases h0 : s.len = 0
  · rw [vectors_empty h0] at hv
    rw [← Option.some.inj hv, List.length_replicate]
  by_cases hn : size.getD 1 < 1
  · rw [vectors_eq h0, if_pos hn] at hv
    rw [← Option.some.inj hv, List.length_nil]
    omega
  · rw [vectors_chosen h h0 ht hn] at hv
    obtain ⟨p, -, hp⟩ := Option.map_eq_some_iff.1 hv
    rw [← hp, List.length_ofFn]

end Verif.Fair
