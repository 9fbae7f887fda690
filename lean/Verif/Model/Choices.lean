import Verif.Model.F64
import Mathlib.Data.List.DropRight

/-!
# Choices with their types

`Model/Hyper.lean` keeps the choices of a categorical or ordinal hyperparameter as they are given.  The code keeps them in a numpy
array, and an array has one type for all of its elements.  This file models what the array makes of choices that are booleans,
integers, floats, texts or `None`, and how values are looked up in it.

Simplified: no infinities and NaN among the choices; a numpy scalar (`np.int64`, `np.str_`, ...) counts as the Python type that it
stands for; integers that do not fit into 64 bits with sign are kept as they are, which is what numpy does if the others are not
numbers (the theorems are about lists without such integers).  Choices that are sequences or dictionaries are in `Model/Arrays.lean`.
-/

set_option autoImplicit false

namespace Verif.Typed

/-- Python objects that are used as choices. -/
inductive Sc where
  | none
  | bool (b : Bool)
  | int (n : Int)
  | flt (q : Rat)
  | str (t : List Char)
deriving DecidableEq, Repr

/-- The number that a boolean, an integer or a float stands for in a comparison. -/
def Sc.num? : Sc → Option Rat
  | .bool b => some (if b then 1 else 0)
  | .int n => some n
  | .flt q => some q
  | _ => Option.none

/-- Python `==`. -/
def Sc.pyEq : Sc → Sc → Bool
  | .none, .none => true
  | .str s, .str t => decide (s = t)
  | a, b => match a.num?, b.num? with
    | some x, some y => decide (x = y)
    | _, _ => false

def Sc.isNone : Sc → Bool | .none => true | _ => false
def Sc.isStr : Sc → Bool | .str _ => true | _ => false
def Sc.isBool : Sc → Bool | .bool _ => true | _ => false
def Sc.isInt : Sc → Bool | .int _ => true | _ => false
def Sc.isFlt : Sc → Bool | .flt _ => true | _ => false

/-- Texts in a numpy array of texts lose the null characters at their ends. -/
def stripNul (t : List Char) : List Char := t.rdropWhile (fun c => c == '\x00')

/-- An element of an array of dtype `U`. -/
def Sc.asText : Sc → Sc
  | .str t => .str (stripNul t)
  | v => v

/-- An element of an array of dtype `float64`. -/
def Sc.asFloat : Sc → Sc
  | .bool b => .flt (if b then 1 else 0)
  | .int n => .flt (F64.rd (n : Rat))
  | v => v

/-- An element of an array of dtype `int64`. -/
def Sc.asInt : Sc → Sc
  | .bool b => .int (if b then 1 else 0)
  | v => v

/-- `seq_choices` (hyperparameters/categorical.py:250-267, ordinal.py:92-109): `np.asarray(choices)`, and an array of objects if there
are texts and other things.  With `None` the array is one of objects, too; booleans, integers and floats are converted to the
widest type among them. -/
def stored (xs : List Sc) : List Sc :=
  if xs.any Sc.isNone then xs
  else if xs.any Sc.isStr then (if xs.all Sc.isStr then xs.map Sc.asText else xs)
  else if xs.any Sc.isFlt then xs.map Sc.asFloat
  else if xs.any Sc.isInt then xs.map Sc.asInt
  else xs

/-- `np.array([value])[0]` for a value to look up (hyperparameters/categorical.py:337-358, 361-380, ordinal.py:178-225). -/
def queried (v : Sc) : Sc := v.asText

/-- `_lookup` (hyperparameters/hp_components.py:154-157): later elements replace earlier ones that are equal; `base` is the position of
the first element. -/
def lookupFrom (v : Sc) : Nat → List Sc → Option Nat
  | _, [] => Option.none
  | base, x :: xs => match lookupFrom v (base + 1) xs with
    | some i => some i
    | Option.none => if x.pyEq v then some base else Option.none

/-- `legal_value` of one value (hyperparameters/hp_components.py:205-207). -/
def legalValue (seq : List Sc) (v : Sc) : Bool := (lookupFrom (queried v) 0 seq).isSome

/-- `to_vector` of one value (hyperparameters/hp_components.py:195-197). -/
def toVector (seq : List Sc) (v : Sc) : Except Err Nat :=
  match lookupFrom (queried v) 0 seq with
  | some i => .ok i
  | Option.none => .error .keyError

/-- `to_value` of one entry (hyperparameters/hp_components.py:172-193, hyperparameter.py:342-362). -/
def toValue (seq : List Sc) (i : Nat) : Option Sc := seq[i]?

/-- The constructors of categorical hyperparameters without weights and of ordinal ones, as far as choices and default value are
concerned (hyperparameters/categorical.py:163-196, 220-240, ordinal.py:76-109, hyperparameter.py:128-134).  The result is the array
and the default value. Simplified: an empty list raises another exception. -/
def mk (choices : List Sc) (default : Option Sc) : Except Err (List Sc × Sc) :=
  if choices.Pairwise (fun a b => a.pyEq b = false) then
    match choices, default with
    | [], _ => .error .valueError
    | c :: cs, d =>
      let d' := d.getD c
      if (c :: cs).any (fun x => x.pyEq d') then
        if legalValue (stored (c :: cs)) d' then .ok (stored (c :: cs), d') else .error .valueError
      else .error .valueError
  else .error .valueError

end Verif.Typed
