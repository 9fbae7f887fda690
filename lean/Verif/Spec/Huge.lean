import Mathlib.MeasureTheory.Integral.IntervalIntegral.Basic

/-!
# Specification vocabulary: densities with one peak, and sums of densities
-/

set_option autoImplicit false

namespace Verif.Spec

open MeasureTheory

/-- A density on the unit interval with a single peak: it grows up to the peak and falls after it, it is at most `M`, and its
integral is 1. -/
structure OnePeak (f : ℝ → ℝ) (M : ℝ) : Prop where
  nonneg : ∀ x, 0 ≤ f x
  le : ∀ x, f x ≤ M
  peak : ∃ m, MonotoneOn f (Set.Iic m) ∧ AntitoneOn f (Set.Ici m)
  one : ∫ x in (0 : ℝ)..1, f x = 1

/-- `ppf` is the inverse of the distribution function of the density. -/
def Quantile (rv ppf : ℝ → ℝ) : Prop :=
  ∀ p, 0 < p → p < 1 → 0 ≤ ppf p ∧ ppf p ≤ 1 ∧ ∫ x in (0 : ℝ)..ppf p, rv x = p

/-- The sum of the densities of all `steps` values. -/
noncomputable def densitySum (d : ℝ → ℝ) (steps : Nat) : ℝ :=
  ((List.range steps).map fun k : Nat => d (k / ((steps : ℝ) - 1))).sum

/-- The width of the part of the unit interval that has all but a millionth of the probability. -/
noncomputable def middleWidth (ppf : ℝ → ℝ) : ℝ := ppf 0.9999995 - ppf 0.0000005

end Verif.Spec
