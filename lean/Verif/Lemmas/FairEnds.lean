import Verif.Lemmas.Fair
import Mathlib.Analysis.SpecificLimits.Basic

/-!
# Lemmas: how long the sampler with random draws takes
-/

set_option autoImplicit false

namespace Verif.Fair
open Verif Verif.Spec Verif.Scaled MeasureTheory ProbabilityTheory

variable {calls : List Call} {s : Space}

/-- More batches do not change what is returned. -/
theorem loopG_more {α : Type} {B : Nat → Nat → List α} {width : Nat → Nat} {size : Nat} {r : List α} : ∀ fuel b need acc k,
    loopG B width size fuel b need acc = some r → loopG B width size (fuel + k) b need acc = some r
  | 0, b, need, acc, k, h => by
    simp only [loopG] at h
    split at h
    · cases k with
      | zero => simpa [loopG] using ⟨by assumption, by simpa using h⟩
      | succ k =>
        rw [Nat.zero_add, loopG, if_pos (by assumption)]
        exact h
    · cases h
  | fuel + 1, b, need, acc, k, h => by
    rw [show fuel + 1 + k = (fuel + k) + 1 by omega]
    simp only [loopG] at h ⊢
    split at h
    · rw [if_pos (by assumption)]
      exact h
    · rw [if_neg (by assumption)]
      exact loopG_more fuel _ _ _ k h

/-- The number of batches from `b` on, of `fuel` batches, whose first draw is accepted. -/
def firsts (π : Nat × Nat → Bool) (b fuel : Nat) : Nat := ((List.range' b fuel).filter (fun c => π (c, 0))).length

theorem firsts_succ {π : Nat × Nat → Bool} {b fuel : Nat} :
    firsts π b (fuel + 1) = (if π (b, 0) = true then 1 else 0) + firsts π (b + 1) fuel := by
  unfold firsts
  rw [List.range'_succ, List.filter_cons]
  split
  · rw [List.length_cons]; omega
  · omega

theorem posBatch_length {π : Nat × Nat → Bool} {b w : Nat} (hw : 0 < w) : (if π (b, 0) = true then 1 else 0) ≤ (posBatch π b w).length := by
  split
  · refine List.length_pos_of_mem (a := (b, 0)) (List.mem_filter.2 ⟨List.mem_map.2 ⟨0, List.mem_range.2 hw, rfl⟩, by assumption⟩)
  · omega

theorem loop_ends {π : Nat × Nat → Bool} {width : Nat → Nat} (hw : ∀ n, 0 < width n) {size : Nat} : ∀ fuel b need acc,
    size ≤ acc.length + firsts π b fuel → ∃ r, loopG (posBatch π) width size fuel b need acc = some r
  | 0, b, need, acc, h => by
    refine ⟨acc, ?_⟩
    simp only [loopG]
    rw [if_pos (by simpa [firsts] using h)]
  | fuel + 1, b, need, acc, h => by
    simp only [loopG]
    split
    · exact ⟨_, rfl⟩
    · refine loop_ends hw fuel _ _ _ ?_
      rw [firsts_succ] at h
      have := posBatch_length (π := π) (b := b) (hw need)
      rw [List.length_append]
      omega

theorem firsts_add {π : Nat × Nat → Bool} {b m k : Nat} : firsts π b (m + k) = firsts π b m + firsts π (b + m) k := by
  unfold firsts
  rw [← List.range'_append_1, List.filter_append, List.length_append]

/-- If each of `n` blocks of `m` batches has an accepted first draw then there are at least `n`. -/
theorem firsts_blocks {π : Nat × Nat → Bool} {m : Nat} : ∀ n, (∀ i < n, ∃ c, c < m ∧ π (i * m + c, 0) = true) → n ≤ firsts π 0 (n * m)
  | 0, _ => by omega
  | n + 1, h => by
    rw [Nat.add_mul, Nat.one_mul, firsts_add, Nat.zero_add]
    have h1 := firsts_blocks n (fun i hi => h i (by omega))
    obtain ⟨c, hc, hp⟩ := h n (by omega)
    have h2 : 0 < firsts π (n * m) m := List.length_pos_of_mem (List.mem_filter.2 ⟨List.mem_range'_1.2 ⟨by omega, by omega⟩, hp⟩)
    omega

theorem chosen_ends {π : Nat × Nat → Bool} {n m : Nat} (h : ∀ i < n, ∃ c, c < m ∧ π (i * m + c, 0) = true) :
    ∃ p, chosen s n (n * m) π = some p := by
  obtain ⟨r, hr⟩ := loop_ends (width := s.batchWidth) (fun k => by unfold Space.batchWidth; omega) (size := n) (n * m) 0 n []
    (by simpa using firsts_blocks n h)
  exact ⟨_, by unfold chosen positions; rw [hr]; rfl⟩

theorem chosen_more {π : Nat × Nat → Bool} {n fuel k : Nat} {p : Fin n → Nat × Nat} (h : chosen s n fuel π = some p) :
    chosen s n (fuel + k) π = some p := by
  unfold chosen positions at h ⊢
  obtain ⟨r, hr, rfl⟩ := Option.map_eq_some_iff.1 h
  rw [loopG_more fuel 0 n [] k hr]
  rfl

variable {Ω α ι : Type} [MeasurableSpace Ω] [MeasurableSpace α]

/-- The probability that none of `m` independent variables passes the filter. -/
theorem none_passes {P : Measure Ω} {Y : Nat → Ω → α} (hm : ∀ i, Measurable (Y i)) (hind : iIndepFun Y P) {A : Set α} (hA : MeasurableSet A)
    {q : ENNReal} (hq : ∀ i, P (Y i ⁻¹' A) = q) (m : Nat) : P {ω | ∀ c < m, Y c ω ∉ A} = (1 - q) ^ m := by
  have hP : IsProbabilityMeasure P := hind.isProbabilityMeasure
  have := hind.measure_inter_preimage_eq_mul (Finset.range m) (sets := fun _ => Aᶜ) (fun _ _ => hA.compl)
  have e : {ω | ∀ c < m, Y c ω ∉ A} = ⋂ i ∈ Finset.range m, Y i ⁻¹' Aᶜ := by
    ext ω
    simp
  rw [e, this]
  have e2 : ∀ i, P (Y i ⁻¹' Aᶜ) = 1 - q := fun i => by
    rw [Set.preimage_compl, prob_compl_eq_one_sub (hm i hA), hq]
  rw [Finset.prod_congr rfl (fun i _ => e2 i), Finset.prod_const, Finset.card_range]

end Verif.Fair
