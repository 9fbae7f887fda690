import Verif.Model.F64Space
import Verif.Model.Config

/-!
# The dictionary of a configuration, in double precision

`Configuration(space, values=dict(config))`: what one does to store a configuration as plain values and to make it again.
-/

set_option autoImplicit false

namespace Verif.F64
open Verif

/-- The loop of `dict(config)` over the given keys (configuration.py:212-240, 263-267).  Reading fills the cache with values that would be
computed again anyway, so the cache is not threaded through. -/
def items64 (s : Space) (c : Config) : List Name → Except Err Dict
  | [] => .ok []
  | n :: ns => match (getItem64 s c n).1 with
    | .error e => .error e
    | .ok w => match items64 s c ns with
      | .error e => .error e
      | .ok d => .ok ((n, some w) :: d)

/-- `dict(config)` (configuration.py:263-267, 212-240). -/
def dict64 (s : Space) (c : Config) : Except Err Dict := items64 s c (c.keys s)

/-- `Configuration(space, values=dict(config), allow_inactive_with_values=allow)` (configuration.py:97-126). -/
def rebuild64 (s : Space) (c : Config) (allow : Bool := false) : Except Err Config :=
  match dict64 s c with
  | .error e => .error e
  | .ok d => ofValues64 s d allow

end Verif.F64
