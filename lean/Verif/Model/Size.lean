import Verif.Model.Space

/-!
# The estimated number of configurations
-/

set_option autoImplicit false

namespace Verif

/-- `acc *= size`, where `none` is `np.inf` (sizes are at least one, so there is no `0 * inf`). -/
def timesSize : Option Nat → Option Nat → Option Nat
  | some a, some b => some (a * b)
  | _, _ => none

/-- `ConfigurationSpace.estimate_size` (configuration_space.py:676-699); `none` is `np.inf`.  Simplification: the
answer `0.0` of the empty space is the number `0`. -/
def Space.estimateSize (s : Space) : Option Nat :=
  let sizes := s.com.map (fun x => x.hp.kind.size)
  if sizes.length = 0 then some 0 else sizes.foldl timesSize (some 1)

end Verif
