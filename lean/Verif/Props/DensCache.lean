import Verif.Model.DensCache
import Verif.Props.Density

/-!
# C85: asking for densities has no effect on later answers, but on equality
-/

set_option autoImplicit false

namespace Verif

open Verif.Dens

namespace Dens

/-- The states in which a normally or beta distributed integer can be: nothing computed, or both constants. -/
private theorem after_fresh (legal : ℝ → Prop) (rv : RV) (steps : Nat) (qs : List Query) :
    (freshDisc rv steps).after legal qs = (if qs = [] then freshDisc rv steps else
      { rv := rv, steps := steps, maxDensity? := some (freshDisc rv steps).constants.1,
        pdfNorm? := some (freshDisc rv steps).constants.2 }) := by
  induction qs using List.reverseRecOn with
  | nil => rfl
  | append_singleton qs q ih =>
    have hne : qs ++ [q] ≠ [] := by simp
    rw [if_neg hne]
    unfold Disc.after at ih ⊢
    rw [List.foldl_append, ih]
    by_cases h : qs = []
    · rw [if_pos h]; cases q <;> rfl
    · rw [if_neg h]; cases q <;> rfl

private theorem after_given (legal : ℝ → Prop) (steps : Nat) (qs : List Query) :
    (givenDisc steps).after legal qs = givenDisc steps := by
  induction qs using List.reverseRecOn with
  | nil => rfl
  | append_singleton qs q ih =>
    unfold Disc.after at ih ⊢
    rw [List.foldl_append, ih]
    cases q <;> rfl

end Dens

open Dens

/-- **C85.** Whatever densities of a normally or beta distributed integer have been asked for before, and in which order, the
answers are those of the distribution (`discretized`, the object of C78): the largest density, and the density of each entry. -/
theorem C85_answers (legal : ℝ → Prop) (rv : RV) (steps : Nat) (before : List Query) (xs : List ℝ) :
    (((freshDisc rv steps).after legal before).ask legal .maxDensity).2 = [getMaxDensity (discretized rv.pdf steps)]
    ∧ (((freshDisc rv steps).after legal before).ask legal (.pdf xs)).2
        = xs.map (Dens.pdfVector legal (discretized rv.pdf steps)) := by
  rw [after_fresh]
  by_cases h : before = []
  · rw [if_pos h]; exact ⟨rfl, rfl⟩
  · rw [if_neg h]; exact ⟨rfl, rfl⟩

/-- **C85, logarithmic scale.** The same for uniform integers on the logarithmic scale. -/
theorem C85_answers_log (legal : ℝ → Prop) (steps : Nat) (before : List Query) (xs : List ℝ) :
    (((givenDisc steps).after legal before).ask legal .maxDensity).2 = [getMaxDensity (uniformLogInteger steps)]
    ∧ (((givenDisc steps).after legal before).ask legal (.pdf xs)).2
        = xs.map (Dens.pdfVector legal (uniformLogInteger steps)) := by
  rw [after_given]
  refine ⟨rfl, ?_⟩
  refine List.map_congr_left fun x _ => ?_
  unfold Dens.pdfVector uniformLogInteger
  dsimp only [givenDisc, RV.pdf, Disc.pdfNorm]
  congr 1
  by_cases h : 0 ≤ x ∧ x ≤ 1
  · simp [normed, h]
  · simp [h]

/-- **C85, equality of uniform integers.** Asking for densities does not change what a uniform integer on the logarithmic scale is
equal to. -/
theorem C85_equality_log {F : Type} (legal : ℝ → Prop) (fields : F) (steps : Nat) (before before' : List Query) :
    (DiscHP.after legal ⟨fields, givenDisc steps⟩ before).eq (DiscHP.after legal ⟨fields, givenDisc steps⟩ before') := by
  unfold DiscHP.after
  simp only [after_given]
  exact ⟨rfl, rfl, rfl, rfl, rfl⟩

/-- **C85, false of the code.** Two normally (or beta) distributed integers made by the same call are equal exactly if densities
have been asked of both or of neither. -/
theorem C85_equality_depends_on_history {F : Type} (legal : ℝ → Prop) (fields : F) (rv : RV) (steps : Nat)
    (before before' : List Query) :
    (DiscHP.after legal ⟨fields, freshDisc rv steps⟩ before).eq (DiscHP.after legal ⟨fields, freshDisc rv steps⟩ before')
      ↔ (before = [] ↔ before' = []) := by
  unfold DiscHP.after
  simp only [after_fresh]
  by_cases h : before = [] <;> by_cases h' : before' = []
  · rw [if_pos h, if_pos h']; exact ⟨fun _ => by simp [h, h'], fun _ => ⟨rfl, rfl, rfl, rfl, rfl⟩⟩
  · rw [if_pos h, if_neg h']
    refine ⟨fun e => ?_, fun e => absurd (e.1 h) h'⟩
    exact absurd e.2.2.2.1 (by simp [freshDisc])
  · rw [if_neg h, if_pos h']
    refine ⟨fun e => ?_, fun e => absurd (e.2 h') h⟩
    exact absurd e.2.2.2.1 (by simp [freshDisc])
  · rw [if_neg h, if_neg h']; exact ⟨fun _ => by simp [h, h'], fun _ => ⟨rfl, rfl, rfl, rfl, rfl⟩⟩

/-- Two integers from 1 to 5, normally distributed: equal when made, different after the largest density of one has been asked. -/
example (legal : ℝ → Prop) :
    (DiscHP.mk "n" (freshDisc (.normal (1 / 2) (1 / 4)) 5)).eq ⟨"n", freshDisc (.normal (1 / 2) (1 / 4)) 5⟩
    ∧ ¬ (DiscHP.after legal ⟨"n", freshDisc (.normal (1 / 2) (1 / 4)) 5⟩ [.maxDensity]).eq
        ⟨"n", freshDisc (.normal (1 / 2) (1 / 4)) 5⟩ :=
  ⟨⟨rfl, rfl, rfl, rfl, rfl⟩, fun h => by
    have := (C85_equality_depends_on_history legal "n" (.normal (1 / 2) (1 / 4)) 5 [.maxDensity] []).1 h
    simp at this⟩

end Verif
