import Verif.Model.Construct
import Verif.Model.Util

/-!
# `fix_types` (util.py:513-567)
-/

set_option autoImplicit false

namespace Verif

/-- The conversions between numbers and text of Python that the model leaves open: `str` of a float, and `float` and `int` of a
string (`none` is a `ValueError`).  `str` of an integer is decimal. -/
structure PyText where
  strFloat : Rat → String
  parseFloat : String → Option Rat
  parseInt : String → Option Int

/-- `str(value)`. -/
def PyText.str (T : PyText) : Val → String
  | .int n => toString n
  | .flt q => T.strFloat q
  | .str t => t

/-- `float(value)`. -/
def PyText.float (T : PyText) : Val → Option Rat
  | .int n => some (n : Rat)
  | .flt q => some q
  | .str t => T.parseFloat t

/-- `int(value)`: floats are truncated. -/
def PyText.int (T : PyText) : Val → Option Int
  | .int n => some n
  | .flt q => some (trunc q)
  | .str t => T.parseInt t

/-- `fix_type_from_candidates` (util.py:533-540). -/
def fixFromCandidates (T : PyText) (w : Val) (cs : List Val) : Except Err Val :=
  match cs.filter (fun c => T.str w == T.str c) with
  | [c] => .ok c
  | _ => .error .valueError

/-- The new value for one hyperparameter (util.py:545-566).  `uniform` tells whether a number comes from the uniform
classes; for the normal and beta ones the function raises. -/
def fixValue (T : PyText) (uniform : Name → Bool) (h : HP) (w : Val) : Except Err Val :=
  match h.kind with
  | .cat cs => fixFromCandidates T w cs
  | .ord cs => fixFromCandidates T w cs
  | .const c => fixFromCandidates T w [c]
  | .flt _ _ => if uniform h.name then match T.float w with
      | some q => .ok (.flt q)
      | none => .error .valueError
    else .error .typeError
  | .int _ _ => if uniform h.name then match T.int w with
      | some n => .ok (.int n)
      | none => .error .valueError
    else .error .typeError

/-- The loop over the hyperparameters (util.py:542-567).  The dictionary is changed in place: it is returned together with
the exception. -/
def fixLoop (T : PyText) (uniform : Name → Bool) : List Node → Dict → Dict × Option Err
  | [], d => (d, none)
  | x :: xs, d => match d.lookup x.name with
    | some (some w) => match fixValue T uniform x.hp w with
      | .ok w' => fixLoop T uniform xs (dictSet d x.name (some w'))
      | .error e => (d, some e)
    | _ => fixLoop T uniform xs d

/-- `fix_types(configuration, configuration_space)` (util.py:513-567): the dictionary after the call, and the exception. -/
def fixTypes (T : PyText) (uniform : Name → Bool) (s : Space) (d : Dict) : Dict × Option Err :=
  fixLoop T uniform s.com d

end Verif
