import Verif.Model.Numeric
import Mathlib.Data.List.Dedup
import Mathlib.Data.List.Sort

/-!
# Neighbourhoods and distributions of single hyperparameters

`hyperparameters/distributions.py`, `NeighborhoodCat` of `hyperparameters/categorical.py` and
`ordinal_neighborhood` of `hyperparameters/hp_components.py`.  Random numbers are explicit arguments: the function the
generator's `shuffle` applies, the batches `normal` returns, the integers `randint` returns.
-/

set_option autoImplicit false

namespace Verif.Num

/-! ## Choices -/

/-- `np.arange(0, size)` without the element at `pivot`: `concatenate((_range[:pivot], _range[pivot + 1:]))`
(hyperparameters/categorical.py:62-66, 87-89), for `pivot ≥ 0`. -/
def others (size pivot : Nat) : List Nat := (List.range size).take pivot ++ (List.range size).drop (pivot + 1)

/-- `NeighborhoodCat.__call__` (hyperparameters/categorical.py:60-92) for a vector entry `≥ 0` (the entry has passed
`legal_vector`, hyperparameter.py:436).  `shuffle` is the permutation applied by the generator; `none` models IndexError
of the cached list.  The caches hold what is recomputed here; for `size ≤ 5` the number `n` is ignored, as in the code. -/
def catNeighbors (size : Nat) (x : Rat) (n : Nat) (shuffle : List Nat → List Nat) : Option (List Nat) :=
  let pivot := x.floor.toNat
  if size ≤ 5 then
    if pivot < size then some (shuffle (others size pivot)) else none
  else some ((shuffle (others size pivot)).take n)

/-- `ordinal_neighborhood` (hyperparameters/hp_components.py:419-470).  `pick` is the result of `seed.choice` on the two
neighbours (first or second); `none` models the failing assertion. -/
def ordNeighbors (size : Nat) (x : Rat) (n : Nat) (pick : Bool) : Option (List Rat) :=
  let endIndex : Rat := (size : Rat) - 1
  if 0 ≤ x ∧ x ≤ endIndex then
    if size = 1 then some []
    else if x = 0 then some [1]
    else if (rint x : Rat) = endIndex then some [endIndex - 1]
    else
      let a : Rat := rint (x - 1)
      let b : Rat := rint (x + 1)
      if 2 ≤ n then some [a, b] else some [if pick then a else b]
  else none

/-- `CategoricalHyperparameter._categorical_neighborhood_size` (hyperparameters/categorical.py:327-330). -/
def catNumNeighbors (cs : List Val) (v : Option Val) : Nat :=
  match v with
  | none => cs.length
  | some w => if w.pyIn cs then cs.length - 1 else cs.length

/-- `OrdinalHyperparameter._ordinal_neighborhood_size` (hyperparameters/ordinal.py:133-149); the outer `none` models the
ValueError of `sequence.index`. -/
def ordNumNeighbors (cs : List Val) (v : Option Val) : Option Nat :=
  match v with
  | none => some cs.length
  | some w =>
    if cs.length = 1 then some 0
    else (seqIndex cs w).map (fun i => if i = 0 ∨ i = cs.length - 1 then 1 else 2)

/-- `IntegerHyperparameter._integer_neighborhood_size` (hyperparameters/hyperparameter.py:732-739), for integers. -/
def intNumNeighbors (l u : Int) (v : Option Int) : Nat :=
  match v with
  | none => (u - l + 1).toNat
  | some n => if l ≤ n ∧ n ≤ u then (u - l + 1).toNat - 1 else (u - l + 1).toNat

/-! ## Numbers -/

section
variable {K : Type} [Field K] [LinearOrder K]

/-- `np.unique`: sorted, without duplicates. -/
def unique (xs : List K) : List K := (xs.insertionSort (· ≤ ·)).dedup

/-- The rejection sampling loop shared by `quantized_neighborhood` and
`DiscretizedContinuousScipyDistribution.neighborhood` and `UniformIntegerDistribution.neighborhood`
(hyperparameters/distributions.py:165-190, 690-714): one batch of raw normal samples per standard deviation.
`quant` is the quantiser, `q` the quantised centre, `found` the neighbours so far.  Simplification: the preallocated buffer
(large enough, since a batch has `n * sample_multiplier` entries) is a list. `none` models the final ValueError. -/
def neighborLoop (quant : K → K) (lower upper : K) (n : Nat) (q : K) : List (List K) → List K → Option (List K)
  | [], _ => none
  | batch :: rest, found =>
    let valid := batch.filter (fun c => decide (lower ≤ c) && decide (c ≤ upper))
    let new := (unique (valid.map quant)).filter (fun c => decide (c ∉ q :: found))
    let found' := found ++ new
    if n ≤ found'.length then some (found'.take n) else neighborLoop quant lower upper n q rest found'

/-- The loop of `continuous_neighborhood` (hyperparameters/distributions.py:256-272): candidates within the bounds are
collected until there are `n`.  `none` models the final ValueError. -/
def continuousLoop (lower upper : K) (n : Nat) : List (List K) → List K → Option (List K)
  | [], _ => none
  | batch :: rest, found =>
    let valid := batch.filter (fun c => decide (lower ≤ c) && decide (c ≤ upper))
    let found' := found ++ valid
    if n ≤ found'.length then some (found'.take n) else continuousLoop lower upper n rest found'

/-- `continuous_neighborhood` (hyperparameters/distributions.py:202-285). -/
def continuousNeighborhood (lower upper : K) (n : Nat) (draws : List (List K)) : Option (List K) :=
  continuousLoop lower upper n draws []

variable [FloorRing K]

/-- `quantized_neighborhood` (hyperparameters/distributions.py:69-199) for a centre `≥ 0`. -/
def quantizedNeighborhood (x : K) (n : Nat) (lower upper : K) (bins : Nat) (draws : List (List K)) :
    Option (List K) :=
  let q := quantize x lower upper bins
  if bins - 1 ≤ n then
    if q = 0 then some ((List.range' 1 (bins - 1)).map (fun i : Nat => (i : K) / ((bins : K) - 1)))
    else if q = (bins : K) - 1 then some ((List.range (bins - 1)).map (fun i : Nat => (i : K) / ((bins : K) - 1)))
    else
      let qint := (rintK (x * ((bins : K) - 1))).toNat
      some ((others bins qint).map (fun i : Nat => (i : K) / ((bins : K) - 1)))
  else neighborLoop (fun c => quantize c lower upper bins) lower upper n q draws []

/-- `DiscretizedContinuousScipyDistribution.neighborhood` without log scale
(hyperparameters/distributions.py:613-714); normal and beta distributed integers. -/
def discretizedNeighborhood (x : K) (n : Nat) (lower upper : K) (steps : Nat) (draws : List (List K)) :
    Option (List K) :=
  let q := quantize x lower upper steps
  if steps - 1 ≤ n then
    let stepsize := (upper - lower) / ((steps : K) - 1)
    let stepsToTake := ⌊(q - lower) / stepsize⌋.toNat + 1
    let bottom := if stepsToTake = 1 then [] else linspace lower q stepsToTake false
    let top := linspace (q + stepsize) upper (steps - stepsToTake) true
    some (bottom ++ top)
  else neighborLoop (fun c => quantize c lower upper steps) lower upper n q draws []

/-! ## Densities and samples -/

/-- `UniformIntegerNormalizedDistribution.pdf_vector` (hyperparameters/distributions.py:808-824). -/
noncomputable def uniformIntPdf (size : Nat) (x : K) : K :=
  haveI := Classical.propDecidable
  if 0 ≤ x ∧ x ≤ 1 ∧ closeToIntK (x * ((size : K) - 1)) then 1 / size else 0

/-- `UniformIntegerNormalizedDistribution.sample_vector` for one drawn integer
(hyperparameters/distributions.py:793-802). -/
def uniformIntSample (size : Nat) (draw : Nat) : K := (draw : K) / ((size : K) - 1)

/-- `WeightedIntegerDiscreteDistribution.pdf_vector` (hyperparameters/distributions.py:1148-1171): the entry is clipped and
truncated to an index. -/
noncomputable def weightedPdf (probs : List K) (x : K) : K :=
  haveI := Classical.propDecidable
  if 0 ≤ x ∧ x ≤ (probs.length : K) - 1 ∧ closeToIntK x then
    probs.getD ⌊clip x 0 ((probs.length : K) - 1)⌋.toNat 0
  else 0

/-- The probabilities of a categorical hyperparameter: uniform, or the normalised weights
(hyperparameters/categorical.py:222-227). -/
def probabilities (size : Nat) (weights : Option (List K)) : List K :=
  match weights with
  | none => List.replicate size (1 / (size : K))
  | some ws => ws.map (· / ws.sum)

/-- `_meaningful_pdf_values` without log scale and with at most `ARANGE_CHUNKSIZE` steps, on the unit interval
(hyperparameters/distributions.py:456-495): `linspace_chunked(0, 1, steps)` leaves `endpoint` at its default `False`. -/
def pdfPoints (steps : Nat) : List K := linspace 0 1 steps false

/-- `pdf_vector` of a discretised distribution with density `f` (hyperparameters/distributions.py:543-561, 447-454),
at a point of `[0, 1]`. -/
def discretizedPdf (f : K → K) (steps : Nat) (x : K) : K := f x / ((pdfPoints steps).map f).sum

end

noncomputable section

/-- `DiscretizedContinuousScipyDistribution.neighborhood` with log scale for the integer range `l..u`
(hyperparameters/distributions.py:613-714; steps, bounds and transformer as set by uniform_integer.py:121-131). -/
def logNeighborhood (x : ℝ) (n : Nat) (l u : Int) (draws : List (List ℝ)) : Option (List ℝ) :=
  let steps := (u - l + 1).toNat
  let q := quantizeLog x 0 1 l u steps
  if steps - 1 ≤ n then
    let qOrig := toValLogInt l u q
    let stepsize : ℝ := ((u : ℝ) - l) / ((steps : ℝ) - 1)
    let stepsToTake := ⌊((qOrig : ℝ) - l) / stepsize⌋.toNat + 1
    let bottom := if stepsToTake = 1 then [] else (linspace (l : ℝ) qOrig (stepsToTake - 1) false).map (toVecLog l u)
    let top := (linspace ((qOrig : ℝ) + stepsize) u (steps - stepsToTake) true).map (toVecLog l u)
    some (bottom ++ top)
  else neighborLoop (fun c => quantizeLog c 0 1 l u steps) 0 1 n q draws []

end

end Verif.Num
