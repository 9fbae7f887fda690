import Mathlib.Probability.Independence.Basic

/-!
# Lemmas: choosing independent random variables by what passes a filter

A program looks at which of the variables pass a filter, and at nothing else, and picks some that passed.  What it picked is
independent, with the distribution of the variables restricted to the filter.
-/

set_option autoImplicit false

namespace Verif.Fair
open MeasureTheory ProbabilityTheory

variable {Ω α ι : Type} [MeasurableSpace Ω] [MeasurableSpace α]

theorem law_of_selected [DecidableEq ι] {P : Measure Ω} {X : ι → Ω → α} {n : Nat} (hm : ∀ i, Measurable (X i)) (hind : iIndepFun X P)
    {ok : α → Bool} (hA : MeasurableSet {x | ok x = true}) (I : Finset ι) {sel : (ι → Bool) → Option (Fin n → ι)}
    (hsel : ∀ π π', (∀ i ∈ I, π i = π' i) → sel π = sel π')
    (hin : ∀ π p, sel π = some p → Function.Injective p ∧ ∀ k, p k ∈ I ∧ π (p k) = true)
    {μ : Set α → ENNReal} (hid : ∀ i ∈ I, ∀ B, MeasurableSet B → P (X i ⁻¹' B) = μ B) :
    ∃ C : ENNReal, ∀ B : Fin n → Set α, (∀ k, MeasurableSet (B k)) → (∀ k, ∀ x ∈ B k, ok x = true) →
      P {ω | ∃ p, sel (fun i => ok (X i ω)) = some p ∧ ∀ k, X (p k) ω ∈ B k} = C * ∏ k, μ (B k) := by
  classical
  let J : (Fin n → ι) → Finset ι := fun p => I \ Finset.univ.image p
  let ψ : ∀ p : Fin n → ι, ((i : J p) → Bool) → Option (Fin n → ι) := fun p g =>
    sel (fun i => if h : i ∈ J p then g ⟨i, h⟩ else true)
  let F : (Fin n → ι) → Set Ω := fun p => {ω | ψ p (fun i => ok (X i ω)) = some p}
  let T : Finset (Fin n → ι) := (Fintype.piFinset (fun _ : Fin n => I)).filter Function.Injective
  refine ⟨∑ p ∈ T, P (F p), fun B hB hBA => ?_⟩
  have hmF : ∀ p, Measurable (fun g : ((i : J p) → α) => (fun i => ok (g i))) := fun p =>
    measurable_pi_iff.2 (fun i => (measurable_to_bool (by simpa [Set.preimage] using hA)).comp (measurable_pi_apply i))
  have key : ∀ (p : Fin n → ι) ω, (∀ k, X (p k) ω ∈ B k) →
      sel (fun i => if h : i ∈ J p then ok (X i ω) else true) = sel (fun i => ok (X i ω)) := by
    intro p ω hp
    refine hsel _ _ (fun i hi => ?_)
    by_cases h : i ∈ J p
    · rw [dif_pos h]
    · rw [dif_neg h]
      obtain ⟨k, -, rfl⟩ := Finset.mem_image.1 (by
        by_contra hne
        exact h (Finset.mem_sdiff.2 ⟨hi, hne⟩))
      rw [hBA _ _ (hp k)]
  have hev : {ω | ∃ p, sel (fun i => ok (X i ω)) = some p ∧ ∀ k, X (p k) ω ∈ B k} = ⋃ p ∈ T, ({ω | ∀ k, X (p k) ω ∈ B k} ∩ F p) := by
    ext ω
    simp only [Set.mem_ofPred_eq, Set.mem_iUnion, Set.mem_inter_iff, F, ψ]
    constructor
    · rintro ⟨p, h1, h2⟩
      obtain ⟨k1, k2⟩ := hin _ _ h1
      exact ⟨p, Finset.mem_filter.2 ⟨Fintype.mem_piFinset.2 (fun k => (k2 k).1), k1⟩, h2, by rw [key p ω h2]; exact h1⟩
    · rintro ⟨p, -, h2, h1⟩
      exact ⟨p, by rw [← key p ω h2]; exact h1, h2⟩
  have hset : ∀ p, MeasurableSet (F p) := fun p => by
    have h1 : Measurable (fun ω => (fun i : J p => X i ω)) := measurable_pi_iff.2 (fun i => hm i)
    exact ((hmF p).comp h1) (Set.toFinite {g | ψ p g = some p}).measurableSet
  have hall : ∀ p : Fin n → ι, {ω | ∀ k, X (p k) ω ∈ B k} = ⋂ k, X (p k) ⁻¹' B k := by
    intro p
    ext ω
    simp
  rw [hev, measure_biUnion_finset, Finset.sum_mul]
  · refine Finset.sum_congr rfl (fun p hp => ?_)
    obtain ⟨hpI, hinj⟩ := Finset.mem_filter.1 hp
    have hpI := Fintype.mem_piFinset.1 hpI
    have hI := hind.indepFun_finset (Finset.univ.image p) (J p) Finset.disjoint_sdiff hm
    have h2 := hI.comp (φ := id) (ψ := fun g i => ok (g i)) measurable_id (hmF p)
    have hmS : MeasurableSet {g : (↥(Finset.univ.image p) → α) | ∀ k, g ⟨p k, Finset.mem_image_of_mem _ (Finset.mem_univ k)⟩ ∈ B k} := by
      have : {g : (↥(Finset.univ.image p) → α) | ∀ k, g ⟨p k, Finset.mem_image_of_mem _ (Finset.mem_univ k)⟩ ∈ B k} =
          ⋂ k, (fun g => g ⟨p k, Finset.mem_image_of_mem _ (Finset.mem_univ k)⟩) ⁻¹' B k := by
        ext g
        simp
      rw [this]
      exact MeasurableSet.iInter (fun k => (measurable_pi_apply (X := fun _ : ↥(Finset.univ.image p) => α) _) (hB k))
    have h3 := h2.measure_inter_preimage_eq_mul _ _ hmS (Set.toFinite {g | ψ p g = some p}).measurableSet
    have h4 : P {ω | ∀ k, X (p k) ω ∈ B k} = ∏ k, μ (B k) := by
      rw [hall]
      have := (hind.precomp hinj).measure_inter_preimage_eq_mul Finset.univ (sets := B) (fun k _ => hB k)
      simp only [Finset.mem_univ, Set.iInter_true] at this
      exact this.trans (Finset.prod_congr rfl (fun k _ => hid _ (hpI k) _ (hB k)))
    rw [← h4, mul_comm]
    exact h3
  · intro p hp q hq hpq
    rw [Function.onFun, Set.disjoint_left]
    rintro ω ⟨h1, h2⟩ ⟨h3, h4⟩
    have e1 : ∀ p : Fin n → ι, (∀ k, X (p k) ω ∈ B k) → ω ∈ F p → sel (fun i => ok (X i ω)) = some p := fun p hp hF => by
      rw [← key p ω hp]
      exact hF
    have := e1 p h1 h2
    rw [e1 q h3 h4] at this
    exact hpq (Option.some.inj this).symm
  · refine fun p _ => MeasurableSet.inter ?_ (hset p)
    rw [hall]
    exact MeasurableSet.iInter (fun k => hm _ (hB k))

end Verif.Fair
