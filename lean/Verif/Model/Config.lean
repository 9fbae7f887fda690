import Verif.Model.Space

/-!
# A configuration as a mapping

Construction, reading and writing of single items are in `Model/Space.lean`.
-/

set_option autoImplicit false

namespace Verif

/-- `Configuration.__iter__` (configuration.py:263-267): the names of the space, in order, whose vector entry
is not NaN. -/
def Config.keys (s : Space) (c : Config) : List Name :=
  s.names.filter (fun n => isSet (c.vec.at (s.idx n)))

/-- `Configuration.__contains__` (configuration.py:176-184): only `KeyError` is caught. -/
def Config.contains (s : Space) (c : Config) (n : Name) : Except Err Bool :=
  match (c.getItem s n).1 with
  | .ok _ => .ok true
  | .error .keyError => .ok false
  | .error e => .error e

/-- `Configuration.__len__` (configuration.py:269-270): the length of the space. -/
def Config.length (s : Space) (_c : Config) : Nat := s.len

/-- The configurations of a space: built from a dictionary or from a vector, then written to and read from.
Reading matters because it fills the cache of values. -/
inductive CfgReach (s : Space) : Config → Prop where
  | values {d : Dict} {al : Bool} {c : Config} : Config.ofValues s d al = .ok c → CfgReach s c
  | vector {v : Vec} {al : Bool} {c : Config} : Config.ofVector s v al = .ok c → CfgReach s c
  | set {c : Config} {n : Name} {w : Val} : CfgReach s c → CfgReach s (c.setItem s n w).1
  | get {c : Config} {n : Name} : CfgReach s c → CfgReach s (c.getItem s n).2

end Verif
