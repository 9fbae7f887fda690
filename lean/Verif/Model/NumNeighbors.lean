import Verif.Model.Neighbors

/-!
# `get_num_neighbors` with and without a value, and `has_neighbors`
-/

set_option autoImplicit false

namespace Verif

open Num

/-- A number of neighbours: `int` or `np.inf`. -/
inductive Neighbours where
  | fin (n : Nat)
  | inf
deriving DecidableEq, Repr

/-- `get_num_neighbors(value)` (hyperparameters/hyperparameter.py:542-560); without a value, `none`, the functions get `NotSet`.
The functions are those of categorical.py:327-330, ordinal.py:133-149 and hyperparameter.py:732-739 (also used by normal and
beta distributed integers); constants have none (constant.py:94), floats infinitely many (uniform_float.py:120).
A result `none` is an exception: the ValueError of `sequence.index` or the TypeError of `lower <= value` for a string. -/
def Kind.getNumNeighbors : Kind → Option Val → Option Neighbours
  | .cat cs, v => some (.fin (catNumNeighbors cs v))
  | .ord cs, v => (ordNumNeighbors cs v).map .fin
  | .const _, _ => some (.fin 0)
  | .int l u, none => some (.fin (intNumNeighbors l u none))
  | .int l u, some v => v.num?.map (fun q =>
      if (l : Rat) ≤ q ∧ q ≤ (u : Rat) then .fin ((u - l + 1).toNat - 1) else .fin (u - l + 1).toNat)
  | .flt _ _, _ => some .inf

/-- `has_neighbors()` (hyperparameters/hyperparameter.py:563-566): `self.get_num_neighbors() > 0`. -/
def Kind.hasNeighbors (k : Kind) : Bool :=
  match k.getNumNeighbors none with
  | some (.fin n) => decide (0 < n)
  | some .inf => true
  | none => false

end Verif
