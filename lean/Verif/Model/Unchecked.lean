import Verif.Model.Serial

/-!
# Conditions that are made without checking the value (conditions.py:115-147)

`BinaryOpCondition` has a flag `check_condition_legality`; `Model/Cond.lean` has the constructor with the flag on, which is the
default.
-/

set_option autoImplicit false

namespace Verif.Unchecked

/-- `UnitScaler.to_vector` on a linear scale, for any value (hyperparameters/hp_components.py:337-344; `normalize`, functional.py:292-295).
Texts: numpy cannot subtract from a text and raises a subclass of `TypeError`; but for the bounds `(0, 1)` nothing is subtracted, the
array is only converted to numbers, and this conversion reads texts.  `parse` is that conversion: `none` is its `ValueError`. -/
def numVec (parse : String → Option Rat) (lo hi : Rat) : Val → Except Err Rat
  | .int n => .ok (normalizeQ n lo hi)
  | .flt q => .ok (normalizeQ q lo hi)
  | .str t => if lo = 0 ∧ hi = 1 then (match parse t with
      | some q => .ok q
      | none => .error .valueError) else .error .typeError

/-- `_lookup[v]` of a sequence (hyperparameters/hp_components.py:196-197). -/
def seqVec (cs : List Val) (v : Val) : Except Err Rat :=
  match seqIndex cs v with
  | some i => .ok (i : Rat)
  | none => .error .keyError

/-- `parent.to_vector(value)` with its exceptions (hyperparameters/hyperparameter.py:374-393, hp_components.py:195-202, 337-344, 509-513). -/
def toVecAny (parse : String → Option Rat) : Kind → Val → Except Err Rat
  | .cat cs, v => seqVec cs v
  | .ord cs, v => seqVec cs v
  | .const c, v => .ok (if v.pyEq c then 1 else 0)
  | .int l u, v => numVec parse l u v
  | .flt l u, v => numVec parse l u v

/-- `EqualsCondition(child, parent, value, check_condition_legality=check)` and its likes (conditions.py:53-65, 115-147). -/
def make (parse : String → Option Rat) (check : Bool) (op : BOp) (child parent : HP) (value : Val) : Except Err Lit :=
  if child.pyEq parent then .error .valueError
  else if (op == .lt || op == .gt) && !parent.kind.orderable then .error .valueError
  else if check && !parent.kind.legalValue value then .error .valueError
  else match toVecAny parse parent.kind value with
    | .error e => .error e
    | .ok x => .ok { child, parent, test := .bin op value x }

/-- `copy.copy(condition)`: the constructor is called again, with the check (conditions.py:152-157, 347-352).  Copies of hyperparameters have
the same attributes. -/
def copyLit (parse : String → Option Rat) (l : Lit) : Except Err Lit :=
  match l.test with
  | .bin op v _ => make parse true op l.child l.parent v
  | .isIn vs _ => mkIn l.child l.parent vs

end Verif.Unchecked
