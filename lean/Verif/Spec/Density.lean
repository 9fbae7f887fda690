import Verif.Model.Density

/-!
# Largest densities
-/

set_option autoImplicit false

namespace Verif.Spec

open Verif.Dens

/-- The number reported by `get_max_density()` is the largest value of `pdf_vector`: no entry has a larger density, and some legal
entry has this density. -/
def MaxDensityRight (legal : ℝ → Prop) (d : VDist) : Prop :=
  (∀ x, pdfVector legal d x ≤ getMaxDensity d) ∧ ∃ x, legal x ∧ pdfVector legal d x = getMaxDensity d

/-- The entries of floats. -/
def unit (x : ℝ) : Prop := 0 ≤ x ∧ x ≤ 1

/-- The entries of choices are (up to a tolerance) the integers below the size. -/
def index (size : Nat) (x : ℝ) : Prop := 0 ≤ x ∧ x < size ∧ Num.closeToIntK x

end Verif.Spec
