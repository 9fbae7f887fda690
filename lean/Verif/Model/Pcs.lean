import Verif.Model.Subst

/-!
# The pcs writers: expansion of forbidden clauses
-/

set_option autoImplicit false

namespace Verif

/-- `[ForbiddenEqualsClause(dlc.hyperparameter, value) for value in dlc.values]` for the in-clauses among the literal
clauses (pcs_new.py:803-813, pcs.py:498-508). -/
def inStatements : List Forb → Except Err (List (List Forb))
  | [] => .ok []
  | .isIn h vs _ :: fs => match mapExcept (fun w => mkForbEq h w) vs with
    | .error e => .error e
    | .ok l => match inStatements fs with
      | .error e => .error e
      | .ok ls => .ok (l :: ls)
  | _ :: fs => inStatements fs

/-- The other literal clauses (pcs_new.py:804, 814-815; pcs.py:499, 509-510). -/
def otherStatements (fs : List Forb) : List Forb :=
  fs.filter (fun f => match f with
    | .isIn _ _ _ => false
    | _ => true)

/-- `itertools.product(*in_statements)`. -/
def productF : List (List Forb) → List (List Forb)
  | [] => [[]]
  | l :: ls => l.flatMap (fun f => (productF ls).map (f :: ·))

/-- One line of the file: the names and values of the equality clauses of a conjunction. -/
abbrev PcsLine := List (Name × Val)

/-- `build_forbidden` (pcs_new.py:321-361; pcs.py:206-234) on the literal clauses of a clause: the pairs that are written
as `name=value`.  An in-clause does not occur here; a relation raises (`NotImplementedError` in pcs_new, an
`AssertionError` or `NotImplementedError` in pcs; `NotImplementedError` is a `RuntimeError`). -/
def buildForbidden : List Forb → Except Err PcsLine
  | [] => .ok []
  | .eq h w _ :: fs => match buildForbidden fs with
    | .error e => .error e
    | .ok l => .ok ((h.name, w) :: l)
  | _ :: _ => .error .runtimeError

/-- The lines for one clause in `pcs_new.write` and `pcs.write` (pcs_new.py:795-827, pcs.py:490-519), before sorting.
Simplification: a line is the list of its pairs, not a string; a relation that is not part of a conjunction raises
`TypeError` in pcs_new (pcs_new.py:824-825) and `NotImplementedError` in pcs. -/
def pcsLines (f : Forb) : Except Err (List PcsLine) :=
  let dlcs := f.dlcs
  match inStatements dlcs with
  | .error e => .error e
  | .ok ins =>
    if ins.isEmpty then match buildForbidden dlcs with
      | .error e => .error e
      | .ok l => .ok [l]
    else mapExcept (fun p => buildForbidden (p ++ otherStatements dlcs)) (productF ins)

end Verif
