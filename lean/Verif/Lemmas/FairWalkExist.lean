import Verif.Lemmas.FairWalk
import Mathlib.Probability.Independence.InfinitePi

/-!
# Lemmas: the random calls of `get_random_neighbor` exist, for any distribution of the proposals
-/

set_option autoImplicit false

namespace Verif.Walk
open Verif Verif.Spec MeasureTheory ProbabilityTheory

variable {s : Space}

noncomputable section

/-- The uniform distribution on `0`, ..., `n - 1`. -/
def unif (n : Nat) : Measure Nat := (n : ENNReal)⁻¹ • ∑ i ∈ Finset.range n, Measure.dirac i

theorem unif_apply (n : Nat) (A : Set Nat) [DecidablePred (· ∈ A)] : unif n A = (n : ENNReal)⁻¹ * ((Finset.range n).filter (· ∈ A)).card := by
  simp only [unif, Measure.smul_apply, Measure.finsetSum_apply, smul_eq_mul]
  congr 1
  rw [Finset.sum_congr rfl (fun i _ => Measure.dirac_apply' i (MeasurableSpace.measurableSet_top (s := A)))]
  simp only [Set.indicator_apply, Pi.one_apply, Finset.sum_ite, Finset.sum_const, nsmul_eq_mul, mul_one, mul_zero, add_zero]

theorem unif_prob {n : Nat} (h : 0 < n) : IsProbabilityMeasure (unif n) := ⟨by
  rw [unif_apply]
  simp only [Set.mem_univ, Finset.filter_true, Finset.card_range]
  exact ENNReal.inv_mul_cancel (by simpa using h.ne') (ENNReal.natCast_ne_top n)⟩

theorem unif_mod {n i : Nat} (hi : i < n) : unif n {r | r % n = i} = (n : ENNReal)⁻¹ := by
  classical
  rw [unif_apply]
  have : (Finset.range n).filter (· ∈ {r | r % n = i}) = {i} := by
    ext j
    simp only [Finset.mem_filter, Finset.mem_range, Set.mem_ofPred_eq, Finset.mem_singleton]
    constructor
    · rintro ⟨h1, h2⟩
      rwa [Nat.mod_eq_of_lt h1] at h2
    · rintro rfl
      exact ⟨hi, Nat.mod_eq_of_lt hi⟩
  rw [this]
  simp

end

theorem calls_exist (hl : 0 < s.len) (ν : Measure Vec) [IsProbabilityMeasure ν] :
    ∃ (Ω : Type) (_ : MeasurableSpace Ω) (P : Measure Ω) (R : Nat → Ω → Nat) (N : Nat → Ω → Vec), RandomCalls s P R N ∧
      ∀ B : Set Vec, P (N 0 ⁻¹' B) = ν B := by
  classical
  have hu := unif_prob hl
  let ρ : Measure (Nat × Vec) := (unif s.len).prod ν
  let P : Measure (Nat ⊕ Nat → Nat × Vec) := Measure.infinitePi (fun _ => ρ)
  have law : ∀ (p : Nat ⊕ Nat) (A : Set (Nat × Vec)), MeasurableSet A → P ((fun ω => ω p) ⁻¹' A) = ρ A := by
    intro p A hA
    have h := Measure.infinitePi_map_eval (fun _ : Nat ⊕ Nat => ρ) p
    rw [← h, Measure.map_apply (measurable_pi_apply p) hA]
  have mR : ∀ t, Measurable (fun ω : Nat ⊕ Nat → Nat × Vec => (ω (.inl t)).1) := fun t => measurable_fst.comp (measurable_pi_apply _)
  have mN : ∀ k, Measurable (fun ω : Nat ⊕ Nat → Nat × Vec => (ω (.inr k)).2) := fun k => measurable_snd.comp (measurable_pi_apply _)
  have lawR : ∀ t (A : Set Nat), P ((fun ω => (ω (.inl t)).1) ⁻¹' A) = unif s.len A := by
    intro t A
    have hA : MeasurableSet (Prod.fst ⁻¹' A : Set (Nat × Vec)) := measurable_fst MeasurableSpace.measurableSet_top
    have := law (.inl t) _ hA
    refine this.trans ?_
    rw [show (Prod.fst ⁻¹' A : Set (Nat × Vec)) = A ×ˢ Set.univ from by ext; simp, Measure.prod_prod, measure_univ, mul_one]
  have lawN : ∀ k (B : Set Vec), P ((fun ω => (ω (.inr k)).2) ⁻¹' B) = ν B := by
    intro k B
    have hB : MeasurableSet (Prod.snd ⁻¹' B : Set (Nat × Vec)) := measurable_snd MeasurableSpace.measurableSet_top
    have := law (.inr k) _ hB
    refine this.trans ?_
    rw [show (Prod.snd ⁻¹' B : Set (Nat × Vec)) = Set.univ ×ˢ B from by ext; simp, Measure.prod_prod, measure_univ, one_mul]
  have hind : iIndepFun (fun (i : Nat ⊕ Nat) (ω : Nat ⊕ Nat → Nat × Vec) => ω i) P :=
    iIndepFun_infinitePi (X := fun _ (g : Nat × Vec) => g) (fun _ => measurable_id)
  refine ⟨_, inferInstance, P, fun t ω => (ω (.inl t)).1, fun k ω => (ω (.inr k)).2, ⟨mR, mN, ?_, ?_, ?_⟩, lawN 0⟩
  · intro m A B
    let sets : Nat ⊕ Nat → Set (Nat × Vec) := Sum.elim (fun t => Prod.fst ⁻¹' A t) (fun k => Prod.snd ⁻¹' B k)
    have hms : ∀ i, MeasurableSet (sets i) := by
      intro i
      cases i with
      | inl t => exact measurable_fst MeasurableSpace.measurableSet_top
      | inr k => exact measurable_snd MeasurableSpace.measurableSet_top
    have := hind.measure_inter_preimage_eq_mul ((Finset.range m).disjSum (Finset.range m)) (sets := sets) (fun i _ => hms i)
    rw [Finset.prod_disjSum] at this
    refine Eq.trans ?_ this
    congr 1
    ext ω
    simp only [Set.mem_ofPred_eq, Set.mem_iInter, Set.mem_preimage]
    constructor
    · rintro ⟨h1, h2⟩ i hi
      cases i with
      | inl t => exact h1 t (Finset.mem_range.1 (Finset.inl_mem_disjSum.1 hi))
      | inr k => exact h2 k (Finset.mem_range.1 (Finset.inr_mem_disjSum.1 hi))
    · intro h
      exact ⟨fun t ht => h (.inl t) (Finset.inl_mem_disjSum.2 (Finset.mem_range.2 ht)),
        fun k hk => h (.inr k) (Finset.inr_mem_disjSum.2 (Finset.mem_range.2 hk))⟩
  · intro t i hi
    exact (lawR t {r | r % s.len = i}).trans (unif_mod hi)
  · intro k B
    exact (lawN k B).trans (lawN 0 B).symm

end Verif.Walk
