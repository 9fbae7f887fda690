import Mathlib.Algebra.Order.Field.Basic
import Mathlib.Analysis.SpecialFunctions.Log.Basic

/-!
# Double precision numbers, without reference to the model
-/

set_option autoImplicit false

namespace Verif.F64

/-- The doubles: integers of at most 53 bits times a power of two that is at least `2 ^ -1074`. -/
def IsF64 {K : Type} [Field K] [LinearOrder K] (x : K) : Prop :=
  ∃ m e : Int, |m| ≤ 2 ^ 53 ∧ -1074 ≤ e ∧ x = (m : K) * 2 ^ e

/-- `x` is a double, and no double is nearer to `q`. -/
def NearestF64 {K : Type} [Field K] [LinearOrder K] (q x : K) : Prop :=
  IsF64 x ∧ ∀ z : K, IsF64 z → |q - x| ≤ |q - z|

/-- `lg` and `ex` compute the logarithm and the exponential function with a relative error of at most `2 ^ -50`, four
units in the last place; `lg` yields doubles and keeps the order. -/
structure Accurate (lg ex : ℝ → ℝ) : Prop where
  isF64 : ∀ x, 0 < x → IsF64 (lg x)
  mono : ∀ x y, 0 < x → x ≤ y → lg x ≤ lg y
  log_near : ∀ x, 0 < x → |lg x - Real.log x| ≤ |Real.log x| / 2 ^ 50 + 2 ^ (-400 : Int)
  exp_near : ∀ y, |ex y - Real.exp y| ≤ Real.exp y / 2 ^ 50 + 2 ^ (-400 : Int)

end Verif.F64
