import Verif.Model.F64Sample
import Verif.Model.Neighbors

/-!
# Neighbours of single hyperparameters in double precision

`Model/Neighbors.lean` computes with exact numbers.  Here every operation is followed by the rounding of doubles, and ranges may be
logarithmic.
-/

set_option autoImplicit false

namespace Verif.F64
open Verif Verif.Num

section
variable {K : Type} [Field K] [LinearOrder K] [IsStrictOrderedRing K] [FloorRing K]

/-- `np.linspace(a, b, num, endpoint)`: `arange(num) * step + a` with `step = (b - a) / div`; if the step is zero the indices are divided
first; with `endpoint` the last of several numbers is `b`. -/
def linspace (a b : K) (num : Nat) (endpoint : Bool) : List K :=
  let div : Nat := if endpoint then num - 1 else num
  let delta := rd (b - a)
  let step := rd (delta / (div : K))
  (List.range num).map (fun i : Nat =>
    if endpoint && decide (1 < num) && decide (i = num - 1) then b
    else rd ((if div = 0 then rd ((i : K) * delta)
      else if step = 0 then rd (rd ((i : K) / (div : K)) * delta) else rd ((i : K) * step)) + a))

/-- `NeighborhoodCat.__call__` (hyperparameters/categorical.py:60-92) for an entry `≥ 0`; `none` models IndexError. -/
def catNeighbors (size : Nat) (x : K) (n : Nat) (shuffle : List Nat → List Nat) : Option (List Nat) :=
  let pivot := ⌊x⌋.toNat
  if size ≤ 5 then
    if pivot < size then some (shuffle (others size pivot)) else none
  else some ((shuffle (others size pivot)).take n)

/-- `ordinal_neighborhood` (hyperparameters/hp_components.py:419-470); `none` models the failing assertion. -/
def ordNeighbors (size : Nat) (x : K) (n : Nat) (pick : Bool) : Option (List K) :=
  let endIndex : Int := (size : Int) - 1
  if 0 ≤ x ∧ x ≤ (endIndex : K) then
    if size = 1 then some []
    else if x = 0 then some [1]
    else if (rintK x : K) = (endIndex : K) then some [rd ((endIndex - 1 : Int) : K)]
    else
      let a : K := (rintK (rd (x - 1)) : K)
      let b : K := (rintK (rd (x + 1)) : K)
      if 2 ≤ n then some [a, b] else some [if pick then a else b]
  else none

/-- `quantized_neighborhood` with the bounds `(0, 1)`, as an integer hyperparameter `l..u` on a linear scale uses it
(hyperparameters/distributions.py:69-199, 826-848); `none` models the failing assertion on `n` and the final ValueError. -/
def intNeighbors (l u : Int) (x : K) (n : Nat) (draws : List (List K)) : Option (List K) :=
  if 1000000 ≤ n then none else
  let bins : Nat := (u - l + 1).toNat
  let q : K := quantizeUnit (u - l + 1) x
  if bins - 1 ≤ n then
    let level : Nat → K := fun i => rd (rd ((i : Int) : K) / rd ((u - l : Int) : K))
    if q = 0 then some ((List.range' 1 (bins - 1)).map level)
    else if q = rd ((u - l : Int) : K) then some ((List.range (bins - 1)).map level)
    else
      let qint := (rintK (rd (x * rd ((u - l : Int) : K)))).toNat
      some ((others bins qint).map level)
  else neighborLoop (quantizeUnit (u - l + 1)) 0 1 n q draws []

/-- `DiscretizedContinuousScipyDistribution.neighborhood` with log scale for the integers `l..u`
(hyperparameters/distributions.py:613-714; steps, bounds and transformer as set by uniform_integer.py:121-131).  As in `drawnLogInt`,
`original_value_scale` is taken to be `(l, u)`. -/
def logIntNeighbors (lg ex : K → K) (l u : Int) (x : K) (n : Nat) (draws : List (List K)) : Option (List K) :=
  if 1000000 ≤ n then none else
  let steps : Nat := (u - l + 1).toNat
  let q := drawnLogInt lg ex l u x
  if steps - 1 ≤ n then
    let qOrig : Int := toValLogInt lg ex l u q
    let stepsize : K := rd (rd ((u - l : Int) : K) / rd ((u - l : Int) : K))
    let stepsToTake : Nat := ⌊rd (rd ((qOrig - l : Int) : K) / stepsize)⌋.toNat + 1
    let toVector : K → K := toVecLog lg (rd (l : K)) (rd (u : K))
    let bottom := if stepsToTake = 1 then []
      else (linspace (rd (l : K)) (rd (qOrig : K)) (stepsToTake - 1) false).map toVector
    let top := (linspace (rd (rd (qOrig : K) + stepsize)) (rd (u : K)) (steps - stepsToTake) true).map toVector
    some (bottom ++ top)
  else neighborLoop (drawnLogInt lg ex l u) 0 1 n q draws []

/-- What the random generator does in one call: the permutation of `shuffle`, the pick of `choice`, and the batches of `normal`. -/
structure Gen (K : Type) where
  shuffle : List Nat → List Nat
  pick : Bool
  draws : List (List K)

/-- The `_neighborhood` of each hyperparameter class (categorical.py:287, ordinal.py:127, constant.py:22-23, 93, uniform_integer.py:116-143,
uniform_float.py:118; distributions.py:202-285, 898-918); `none` models an exception. -/
def neighborhood (lg ex : K → K) (log : Bool) (k : Kind) (x : K) (n : Nat) (g : Gen K) : Option (List K) :=
  match k with
  | .cat cs => (catNeighbors cs.length x n g.shuffle).map (fun r => r.map (fun i : Nat => (i : K)))
  | .ord cs => ordNeighbors cs.length x n g.pick
  | .const _ => some []
  | .int l u => if log then logIntNeighbors lg ex l u x n g.draws else intNeighbors l u x n g.draws
  | .flt _ _ => continuousNeighborhood 0 1 n g.draws

end

end Verif.F64
