import Verif.Model.AnyNum

/-!
# Configurations from values over any arithmetic

`Configuration(space, values=d)` for an arbitrary type of entries, as in `Model/AnyNum.lean`.  `keep` is what a configuration keeps of a
value: float hyperparameters round it to 13 decimal places.  Simplified: the values that are kept are not part of the result, only
the vector is.
-/

set_option autoImplicit false

namespace Verif.AnyNum
open Verif

section
variable {α β : Type} [DecidableEq α] (A : Arith α β) (keep : HP → Val → Val)

/-- The loop over the hyperparameters in `Configuration(values=...)` (configuration.py:108-124). -/
def fillVec (s : Space) (d : Dict) : List Node → AVec α → Except Err (AVec α)
  | [], v => .ok v
  | x :: xs, v =>
    match d.lookup x.name with
    | none => fillVec s d xs (v.set (s.idx x.name) none)
    | some none => fillVec s d xs (v.set (s.idx x.name) none)
    | some (some w) =>
      if !A.legalValue x.hp w then .error (.illegalValue x.name)
      else fillVec s d xs (v.set (s.idx x.name) (some (A.toVec x.hp (keep x.hp w))))

/-- `Configuration(space, values=d)` (configuration.py:97-126), on the vector. -/
def ofValues (s : Space) (d : Dict) (allow : Bool := false) : Except Err (AVec α) :=
  if d.any (fun kv => decide (kv.1 ∉ s.dag.nodes.map Node.name) && kv.1 != "") then .error .valueError
  else match fillVec A keep s d s.dag.nodes (List.replicate s.len none) with
    | .error e => .error e
    | .ok v => match check A s v allow with
      | some e => .error e
      | none => .ok v

end

/-- `Configuration.__iter__` (configuration.py:263-267), on the vector. -/
def keys {α : Type} (s : Space) (v : AVec α) : List Name := s.names.filter (fun n => (v.at (s.idx n)).isSome)

end Verif.AnyNum
