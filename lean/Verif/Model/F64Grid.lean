import Verif.Model.F64Neighbors

/-!
# The values of a grid in double precision, on linear and logarithmic scales

`Model/Util.lean` has `generate_grid` with exact numbers on linear scales.  Here are the values of one numerical hyperparameter
(`_get_value_set`), with every operation followed by the rounding of doubles.
-/

set_option autoImplicit false

namespace Verif.F64
open Verif Verif.Num

/-- The corrections of the end points (util.py:704-708, 732-736): first `grid_points[0]`, then `grid_points[-1]`; `none` models the
IndexError for an empty array. -/
def clampEnds {N : Type} [LT N] [DecidableLT N] (lo hi : N) : List N → Option (List N)
  | [] => none
  | x :: xs =>
    let ys := (if x < lo then lo else x) :: xs
    let last := ys.getLast (List.cons_ne_nil _ _)
    some (if hi < last then ys.dropLast ++ [hi] else ys)

section
variable {K : Type} [Field K] [LinearOrder K] [IsStrictOrderedRing K] [FloorRing K]

/-- The evenly spaced numbers, on the scale of the hyperparameter with the bounds `a` and `b` (util.py:687-702, 713-729). -/
def gridRaw (lg ex : K → K) (log : Bool) (a b : K) (n : Nat) : List K :=
  if log then (linspace (lg a) (lg b) n true).map ex else linspace a b n true

/-- `_get_value_set` (util.py:686-710) of a float with the bounds `l` and `u`. -/
def gridFloats (lg ex : K → K) (log : Bool) (l u : K) (n : Nat) : Option (List K) :=
  clampEnds (rd l) (rd u) (gridRaw lg ex log (rd l) (rd u) n)

/-- `_get_value_set` (util.py:712-738) of an integer: `np.round` and `astype(int)`. -/
def gridInts (lg ex : K → K) (log : Bool) (l u : Int) (n : Nat) : Option (List Int) :=
  clampEnds l u ((gridRaw lg ex log (rd (l : K)) (rd (u : K)) n).map rintK)

end

end Verif.F64
