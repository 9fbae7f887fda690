import Verif.Model.Numeric
import Mathlib.Data.Int.Log

/-!
# Ranges in double precision (`UnitScaler` of `hp_components.py`, `functional.py`)

`Model/Numeric.lean` computes with exact numbers.  Here every arithmetic operation of the same functions is followed by
the rounding of IEEE 754 double precision: to the nearest number with 53 significant bits, ties to even, with gradual
underflow at `2 ^ -1074`.  Numbers are those of an ordered field with a floor function (the rationals, the real numbers).

Simplified: exponents are not bounded from above, so that there is no overflow to infinity; there are no NaN, no
infinities and no negative zero.
-/

set_option autoImplicit false

namespace Verif.F64

open Verif.Num

section
variable {K : Type} [Field K] [LinearOrder K] [IsStrictOrderedRing K] [FloorRing K]

/-- Distance between neighbouring doubles of the size of `x`. -/
def ulp (x : K) : K := 2 ^ (max (Int.log 2 |x| - 52) (-1074))

/-- Rounding to the nearest double, ties to even: what follows every operation on `np.float64`, and what `f64(n)` and
the conversion of an `int64` operand do. -/
def rd (x : K) : K := (rintK (x / ulp x) : K) * ulp x

/-- `scale` (functional.py:248-268). -/
def scale (x lo hi : K) : K := rd (rd (x * rd (hi - lo)) + lo)

/-- `normalize` (functional.py:271-295). -/
def normalize (x lo hi : K) : K := if lo = 0 ∧ hi = 1 then x else rd (rd (x - lo) / rd (hi - lo))

/-- `UnitScaler.to_vector` of floats, linear scale (hyperparameters/hp_components.py:337, 344). -/
def toVecFlt (lo hi x : K) : K := normalize x lo hi

/-- `UnitScaler.to_value` of floats, linear scale (hyperparameters/hp_components.py:300-311, 334): clipped. -/
def toValFlt (lo hi x : K) : K := clip (scale x lo hi) lo hi

/-- `np.round(x, ROUND_PLACES)` with `ROUND_PLACES = 13` (configuration.py:121, 234): multiply, `rint`, divide. -/
def round13 (x : K) : K := rd ((rintK (rd (x * 10 ^ 13)) : K) / 10 ^ 13)

/-- `UnitScaler.to_vector` of integers, linear scale: bounds and values are converted to `f64`
(hyperparameters/hp_components.py:295-297, 337, 344). -/
def toVecInt (l u n : Int) : K := normalize (rd (n : K)) (rd (l : K)) (rd (u : K))

/-- `UnitScaler.to_value` of integers, linear scale: rounded, not clipped
(hyperparameters/hp_components.py:300-304, 334). -/
def toValInt (l u : Int) (x : K) : Int := rintK (scale x (rd (l : K)) (rd (u : K)))

/-- `is_close_to_integer` / `is_close_to_integer_single` with `atol=ATOL` (functional.py:345-393). -/
def closeToInt (a : K) : Prop :=
  rd |a - (rintK a : K)| ≤ rd (rd (1 / 10000000000000) + rd (rd (1 / 100000) * |(rintK a : K)|))

/-- `legal_value` / `legal_value_single` of integers on a number (hyperparameters/hp_components.py:366-372,
395-401). -/
def legalInt (l u : Int) (a : K) : Prop :=
  rd (l : K) ≤ (rintK a : K) ∧ (rintK a : K) ≤ rd (u : K) ∧ closeToInt a

/-- `legal_vector` of integers on an array, linear scale (hyperparameters/hp_components.py:377-386). -/
def legalVecArray (l u : Int) (x : K) : Prop := legalInt l u (scale x (rd (l : K)) (rd (u : K)))

/-- `legal_vector_single` of integers, linear scale; `_size` is the rounded difference of the rounded bounds
(hyperparameters/hp_components.py:297, 406-413). -/
def legalVecSingle (l u : Int) (x : K) : Prop :=
  closeToInt (rd (x * rd (rd (u : K) - rd (l : K)))) ∧ 0 ≤ x ∧ x ≤ 1

/-- `UniformIntegerNormalizedDistribution.sample_vector`: the vector made of the drawn number `k` of `size`
(hyperparameters/distributions.py:801-802). -/
def drawnVec (size k : Int) : K := rd (rd (k : K) / rd ((size - 1 : Int) : K))

/-- `quantize` with bounds `(0, 1)`, as `quantized_neighborhood` calls it (functional.py:208-245). -/
def quantizeUnit (bins : Int) (x : K) : K :=
  rd (clip ((⌊rd (x * rd (bins : K))⌋ : Int) : K) 0 (rd ((bins - 1 : Int) : K)) / rd ((bins - 1 : Int) : K))

/-- The mask of `UniformIntegerNormalizedDistribution.pdf_vector`: which vectors have a positive density
(hyperparameters/distributions.py:819-824). -/
def drawable (size : Int) (x : K) : Prop :=
  0 ≤ x ∧ x ≤ 1 ∧ closeToInt (rd (x * rd ((size - 1 : Int) : K)))

/-! ## Logarithmic scale

`np.log` and `np.exp` are parameters. -/

/-- `UnitScaler.to_vector` with `log=True` (hyperparameters/hp_components.py:337-342). -/
def toVecLog (lg : K → K) (lo hi v : K) : K := normalize (lg v) (lg lo) (lg hi)

/-- `UnitScaler._unsafe_to_value` and `_unsafe_to_value_single` with `log=True`
(hyperparameters/hp_components.py:313-332). -/
def unsafeLog (lg ex : K → K) (lo hi x : K) : K := ex (scale x (lg lo) (lg hi))

/-- `UnitScaler.to_value` of floats with `log=True` (hyperparameters/hp_components.py:300-311). -/
def toValLogFlt (lg ex : K → K) (lo hi x : K) : K := clip (unsafeLog lg ex lo hi x) lo hi

/-- `UnitScaler.to_vector` of integers with `log=True` (hyperparameters/hp_components.py:295-297, 337-342). -/
def toVecLogInt (lg : K → K) (l u n : Int) : K := toVecLog lg (rd (l : K)) (rd (u : K)) (rd (n : K))

/-- `UnitScaler.to_value` of integers with `log=True`: rounded, not clipped
(hyperparameters/hp_components.py:300-304). -/
def toValLogInt (lg ex : K → K) (l u : Int) (x : K) : Int := rintK (unsafeLog lg ex (rd (l : K)) (rd (u : K)) x)

/-- `legal_vector` and `legal_vector_single` of integers with `log=True`
(hyperparameters/hp_components.py:377-386, 415-416). -/
def legalVecLog (lg ex : K → K) (l u : Int) (x : K) : Prop :=
  legalInt l u (unsafeLog lg ex (rd (l : K)) (rd (u : K)) x)

end

end Verif.F64
