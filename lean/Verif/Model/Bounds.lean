import Verif.Model.Construct
import Verif.Model.Space

/-!
# Building a space from a list of bounds (configuration_space.py:450-464)
-/

set_option autoImplicit false

namespace Verif

/-- `f"x{i}"` (configuration_space.py:462): the name of the hyperparameter for the `i`-th pair of bounds. -/
def boundName (i : Nat) : Name := "x" ++ Nat.repr i

/-- The argument of `add`, one hyperparameter after the other (configuration_space.py:462-463).  The generator is consumed before
anything is added (configuration_space.py:316-338), so the first constructor that raises ends the call. -/
def boundHps : Nat → List (Rat × Rat) → Except Err (List HP)
  | _, [] => .ok []
  | i, (lower, upper) :: bs => match mkFlt (boundName i) lower upper none with
    | .error e => .error e
    | .ok h => match boundHps (i + 1) bs with
      | .error e => .error e
      | .ok hs => .ok (h :: hs)

/-- `ConfigurationSpace.generate_all_continuous_from_bounds` (configuration_space.py:450-464). -/
def Space.addBounds (s : Space) (bounds : List (Rat × Rat)) : Space × Option Err :=
  match boundHps 0 bounds with
  | .error e => (s, some e)
  | .ok hps => s.add hps [] []

end Verif
