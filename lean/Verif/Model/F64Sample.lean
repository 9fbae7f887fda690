import Verif.Model.F64

/-!
# Integers on a logarithmic scale, drawn in double precision

`UniformIntegerHyperparameter(..., log=True)`, `NormalIntegerHyperparameter(..., log=True)` and `BetaIntegerHyperparameter(..., log=True)` draw
a double and quantise it.
-/

set_option autoImplicit false

namespace Verif.F64
open Verif.Num

section
variable {K : Type} [Field K] [LinearOrder K] [IsStrictOrderedRing K] [FloorRing K]

/-- The end of `quantize` for the given level (functional.py:241-245). -/
def atLevel (l u : Int) (level : K) : K :=
  rd (rd (rd (level / rd ((u - l : Int) : K)) * rd ((u - l : Int) : K)) + rd (l : K))

/-- `quantize` with integer bounds `(l, u)`, not `(0, 1)`, and `u - l + 1` bins, as `quantize_log` calls it (functional.py:208-245, 181-186). -/
def quantizeOrig (l u : Int) (x : K) : K :=
  atLevel l u (clip ((⌊rd (rd (rd (x - rd (l : K)) / rd ((u - l : Int) : K)) * rd ((u - l + 1 : Int) : K))⌋ : Int) : K) 0
    (rd ((u - l : Int) : K)))

/-- The entry that `sample_vector` of an integer hyperparameter with `log=True` makes from the draw `x`: `quantize_log` with bounds `(0, 1)`
(functional.py:148-192, hyperparameters/distributions.py:521-540).  The slice of the logarithmic scale, which the code reads off
with `to_value` of `0` and `1` (hyperparameters/distributions.py:414-422), is taken to be the bounds of the hyperparameter. -/
def drawnLogInt (lg ex : K → K) (l u : Int) (x : K) : K :=
  scale (normalize (lg (quantizeOrig l u (ex (scale x (lg (rd (l : K))) (lg (rd (u : K))))))) (lg (rd (l : K))) (lg (rd (u : K)))) 0 1

end

end Verif.F64
