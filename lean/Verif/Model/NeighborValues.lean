import Verif.Model.Neighbors

/-!
# Neighbours as values, and the buffers in which they are collected
-/

set_option autoImplicit false

namespace Verif

open Num

/-- What the random generator does in one call: the permutation of `shuffle`, the pick of `choice`, and the batches of `normal`. -/
structure Gen where
  shuffle : List Nat → List Nat
  pick : Bool
  draws : List (List Rat)

/-- The `_neighborhood` of each hyperparameter class (categorical.py:287, ordinal.py:127, constant.py:22-23, 93, uniform_integer.py:143,
uniform_float.py:118; distributions.py:826-848, 898-918). -/
def Kind.neighborhood (k : Kind) (x : Rat) (n : Nat) (g : Gen) : Option (List Rat) :=
  match k with
  | .cat cs => (catNeighbors cs.length x n g.shuffle).map (fun r => r.map (fun i : Nat => (i : Rat)))
  | .ord cs => ordNeighbors cs.length x n g.pick
  | .const _ => some []
  | .int l u => quantizedNeighborhood x n 0 1 (u - l + 1).toNat g.draws
  | .flt _ _ => continuousNeighborhood 0 1 n g.draws

/-- `Hyperparameter.neighbors_vectorized` (hyperparameter.py:395-443) without the argument `std`. -/
def Kind.neighborsVec (k : Kind) (x : Rat) (n : Nat) (g : Gen) : Except Err (List Rat) :=
  if !k.legalVec x then .error .valueError
  else match k.neighborhood x n g with
    | none => .error .valueError
    | some r => .ok r

/-- `Hyperparameter.neighbors_values` (hyperparameter.py:449-491).  The two conversions are `to_vector` of a single value and `to_value` of
an array, entry by entry. -/
def Kind.neighborsValues (k : Kind) (v : Val) (n : Nat) (g : Gen) : Except Err (List Val) :=
  match k.toVec v with
  | none => .error .keyError
  | some x => match k.neighborsVec x n g with
    | .error e => .error e
    | .ok r => match r.mapM k.toVal with
      | none => .error .valueError
      | some ws => .ok ws

namespace Num

section
variable {K : Type} [Field K] [LinearOrder K]

/-- `buf[off : off + len(new)] = new` for numpy arrays; the slots of `np.empty` that have not been written are `none`.  Behind the end of
the buffer the slice is shorter: then numpy raises ValueError (`none`), unless one number is written to an empty slice, which is lost. -/
def sliceAssign (buf : List (Option K)) (off : Nat) (new : List K) : Option (List (Option K)) :=
  if off + new.length ≤ buf.length then some (buf.take off ++ new.map some ++ buf.drop (off + new.length))
  else if new.length = 1 then some buf
  else none

/-- How the loops end. -/
inductive BufEnd (K : Type) where
  /-- `return neighbors[a : b]`: the slots -/
  | result (r : List (Option K))
  /-- ValueError: not enough neighbours -/
  | exhausted
  /-- ValueError: could not broadcast -/
  | overflow

/-- The loop of `quantized_neighborhood`, `UniformIntegerDistribution.neighborhood` and
`DiscretizedContinuousScipyDistribution.neighborhood` with its buffer (distributions.py:137-190, 1040-1086, 690-714).  Every batch has
`n * sample_multiplier` entries. -/
def bufferLoop (quant : K → K) (lower upper : K) (n : Nat) : List (List K) → List (Option K) → Nat → BufEnd K
  | [], _, _ => .exhausted
  | batch :: rest, buf, off =>
    let valid := batch.filter (fun c => decide (lower ≤ c) && decide (c ≤ upper))
    let new := (unique (valid.map quant)).filter (fun c => decide (some c ∉ buf.take off))
    match sliceAssign buf off new with
    | none => .overflow
    | some buf' =>
      let off' := off + new.length
      if n ≤ off' - 1 then .result ((buf'.take (n + 1)).drop 1) else bufferLoop quant lower upper n rest buf' off'

/-- The loop with the buffer as it is set up: `n * (sample_multiplier + 1) + 1` slots of which the first holds the centre
(distributions.py:144-149). -/
def bufferedNeighbors (quant : K → K) (lower upper : K) (n mult : Nat) (q : K) (draws : List (List K)) : BufEnd K :=
  bufferLoop quant lower upper n draws (some q :: List.replicate (n * (mult + 1)) none) 1

/-- The loop of `continuous_neighborhood` with its buffer (distributions.py:239-272). -/
def bufferLoopC (lower upper : K) (n : Nat) : List (List K) → List (Option K) → Nat → BufEnd K
  | [], _, _ => .exhausted
  | batch :: rest, buf, off =>
    let valid := batch.filter (fun c => decide (lower ≤ c) && decide (c ≤ upper))
    match sliceAssign buf off valid with
    | none => .overflow
    | some buf' =>
      let off' := off + valid.length
      if n ≤ off' then .result (buf'.take n) else bufferLoopC lower upper n rest buf' off'

/-- The same with the buffer as it is set up: `n + n * sample_multiplier` slots (distributions.py:242-245). -/
def bufferedContinuous (lower upper : K) (n mult : Nat) (draws : List (List K)) : BufEnd K :=
  bufferLoopC lower upper n draws (List.replicate (n + n * mult) none) 0

end

end Num

end Verif
