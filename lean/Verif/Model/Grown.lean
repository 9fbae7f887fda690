import Verif.Model.Config

/-!
# Configurations of a space that has changed since

A configuration refers to its space, and reads its vector with the positions that the space has at the time of reading.  Here the
vector may be shorter than the space, so that reading an entry can raise IndexError.
-/

set_option autoImplicit false

namespace Verif

/-- The loop of `Configuration.__iter__` (configuration.py:263-267) over the remaining names. -/
def Config.iterFrom (s : Space) (c : Config) : List Name → Except Err (List Name)
  | [] => .ok []
  | n :: ns =>
    if s.idx n < c.vec.length then
      (c.iterFrom s ns).map (fun l => if isSet (c.vec.at (s.idx n)) then n :: l else l)
    else .error .indexError

/-- `list(config)` -/
def Config.iter (s : Space) (c : Config) : Except Err (List Name) := c.iterFrom s s.names

/-- `config[name]` (configuration.py:212-240); `IndexError` if the position of the name is behind the end of the vector. -/
def Config.read (s : Space) (c : Config) (n : Name) : Except Err Val :=
  match (c.vals.getD []).lookup n with
  | some w => .ok w
  | none =>
    if n ∈ s.names ∧ c.vec.length ≤ s.idx n then .error .indexError else (c.getItem s n).1

end Verif
