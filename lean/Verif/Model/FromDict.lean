import Verif.Model.Construct
import Verif.Model.Space

/-!
# Building a space from a mapping (configuration_space.py:86-115, 129-208)
-/

set_option autoImplicit false

namespace Verif

/-- What the user may write behind a name: a hyperparameter, a tuple, a list, or anything else. -/
inductive Entry where
  | hp (h : HP)
  | tuple (vs : List Val)
  | list (vs : List Val)
  | other (v : Val)
deriving Repr

/-- A bound that is used as a number.  Simplification: a string raises `TypeError` in the constructor. -/
def boundOf (v : Val) : Except Err Rat :=
  match v.num? with
  | some q => .ok q
  | none => .error .typeError

/-- The hyperparameter for one item of the mapping (configuration_space.py:89-115). -/
def parseEntry (n : Name) : Entry → Except Err HP
  | .hp h => .ok h
  | .tuple [lower, upper] => match boundOf lower, boundOf upper with
    | .ok l, .ok u => match lower with
      | .flt _ => mkFlt n l u none
      | _ => mkInt n l u none
    | .error e, _ => .error e
    | _, .error e => .error e
  | .tuple _ => .error .valueError
  | .list vs => if vs.isEmpty then .error .valueError else mkCat n vs none none
  | .other v => mkConst n v

/-- `ConfigurationSpace(mapping)` (configuration_space.py:190-208): the hyperparameters are made first, then added in one
call. -/
def Space.ofDict (items : List (Name × Entry)) : Except Err Space :=
  match mapExcept (fun ne : Name × Entry => parseEntry ne.1 ne.2) items with
  | .error e => .error e
  | .ok hps => match ({} : Space).add hps [] [] with
    | (s, none) => .ok s
    | (_, some e) => .error e

end Verif
