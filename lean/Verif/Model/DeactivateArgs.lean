import Verif.Model.Util

/-!
# Dictionaries and vectors as arguments

`Configuration(space, values=..., vector=...)` and `deactivate_inactive_hyperparameters(configuration, space, vector)` with both, one
or none of the two arguments.
-/

set_option autoImplicit false

namespace Verif

/-- `Configuration.__init__` (configuration.py:75-150): exactly one of the two arguments must be given. -/
def Config.make (s : Space) (values : Option Dict) (vector : Option Vec) (allow : Bool := false) : Except Err Config :=
  match values, vector with
  | some _, some _ => .error .valueError
  | none, none => .error .valueError
  | some d, none => Config.ofValues s d allow
  | none, some v => Config.ofVector s v allow

/-- `deactivate_inactive_hyperparameters(configuration, configuration_space, vector)` (util.py:433-510). -/
def deactivateArgs (s : Space) (fuel : Nat) (values : Option Dict) (vector : Option Vec) : Option (Except Err Config) :=
  match Config.make s values vector true with
  | .error e => some (.error e)
  | .ok c => deactivateFrom s fuel c

end Verif
