import Verif.Model.PcsOld
import Verif.Model.Prior

/-!
# Numerical hyperparameters in the pcs formats, with their scales and distributions

`build_continuous` and the reading of parameter lines in read_and_write/pcs_new.py and read_and_write/pcs.py.  `Model/PcsNew.lean` and
`Model/PcsOld.lean` have whole files for the linear scale; here are the parameter lines for both scales and all distributions.
-/

set_option autoImplicit false

namespace Verif

/-! ## The new format -/

/-- `build_continuous` (pcs_new.py:208-237).  Other objects do not come here (pcs_new.py:771-779). -/
noncomputable def buildNum (T : PyText) (r : NumHP) : Except Err Chars :=
  match toUniform r with
  | none => .error .typeError
  | some (.error e) => .error e
  | some (.ok p) =>
    let line (ty : String) (l u d : Val) : Chars :=
      p.hp.name.toList ++ ty.toList ++ T.chars l ++ ", ".toList ++ T.chars u ++ "] [".toList ++ T.chars d ++ "]".toList ++
        (if p.log then "log".toList else [])
    match p.hp.kind with
    | .int l u => .ok (line " integer [" (.int l) (.int u) (.int (trunc (p.hp.default.num?.getD 0))))
    | .flt l u => .ok (line " real [" (.flt l) (.flt u) p.hp.default)
    | _ => .error .typeError

/-- The first attempt at a parameter line (pcs_new.py:508-540), on both scales: `log = param_list[10:]`, and `"log" in log`. -/
noncomputable def readNum (T : PyText) (line : Chars) : Except Err (Option NumHP) :=
  match ppContParam line with
  | none => .ok none
  | some (toks, _) =>
    let at' (i : Nat) : Chars := toks.getD i []
    let log := hasSub "log".toList (at' 10)
    if at' 1 = "integer".toList then
      match T.readInt (at' 3), T.readInt (at' 5), T.readInt (at' 8) with
        | .ok l, .ok u, .ok d => (mkUniformInt (String.ofList (at' 0)) (l : Rat) (u : Rat) (some (d : Rat)) log).map some
        | _, _, _ => .error .valueError
    else if at' 1 = "real".toList then
      match T.readFloat (at' 3), T.readFloat (at' 5), T.readFloat (at' 8) with
        | .ok l, .ok u, .ok d => (mkUniformFlt (String.ofList (at' 0)) l u (some d) log).map some
        | _, _, _ => .error .valueError
    else .ok none

/-- What a parameter line gives: a numerical hyperparameter or another one. -/
inductive ReadHP where
  | num (r : NumHP)
  | other (h : HP)

/-- The hyperparameter of a parameter line (pcs_new.py:498-572): what the second attempt gives replaces the first. -/
noncomputable def readAny (T : PyText) (line : Chars) : Except Err ReadHP :=
  match readNum T line with
  | .error e => .error e
  | .ok prev => match readDiscrete line none with
    | .error e => .error e
    | .ok (some h) => .ok (.other h)
    | .ok none => match prev with
      | some r => .ok (.num r)
      | none => .error .runtimeError

/-! ## The old format -/

/-- `build_continuous` (pcs.py:142-168). -/
noncomputable def buildOldNum (T : PyText) (r : NumHP) : Except Err Chars :=
  match toUniform r with
  | none => .error .typeError
  | some (.error e) => .error e
  | some (.ok p) =>
    let line (l u d : Val) (i : String) : Chars :=
      p.hp.name.toList ++ " [".toList ++ T.chars l ++ ", ".toList ++ T.chars u ++ "] [".toList ++ T.chars d ++ "]".toList ++
        i.toList ++ (if p.log then "l".toList else [])
    match p.hp.kind with
    | .int l u => .ok (line (.int l) (.int u) (.int (trunc (p.hp.default.num?.getD 0))) "i")
    | .flt l u => .ok (line (.flt l) (.flt u) p.hp.default "")
    | _ => .error .typeError

/-- The first attempt at a parameter line (pcs.py:318-340), on both scales: `"i" in il` and `"l" in il`. -/
noncomputable def readOldNum (T : PyText) (line : Chars) : Except Err (Option NumHP) :=
  match ppOldCont line with
  | none => .ok none
  | some (toks, _) =>
    let at' (i : Nat) : Chars := toks.getD i []
    let il := at' 9
    match T.readFloat (at' 2), T.readFloat (at' 4), T.readFloat (at' 7) with
    | .ok l, .ok u, .ok d =>
      if 'i' ∈ il then (mkUniformInt (String.ofList (at' 0)) l u (some d) (decide ('l' ∈ il))).map some
      else (mkUniformFlt (String.ofList (at' 0)) l u (some d) (decide ('l' ∈ il))).map some
    | _, _, _ => .error .valueError

/-- The hyperparameter of a parameter line (pcs.py:308-359). -/
noncomputable def readOldAny (T : PyText) (line : Chars) : Except Err ReadHP :=
  match readOldNum T line with
  | .error e => .error e
  | .ok prev => match readOldCat line none with
    | .error e => .error e
    | .ok (some h) => .ok (.other h)
    | .ok none => match prev with
      | some r => .ok (.num r)
      | none => .error .runtimeError

/-! ## The parameter lines of a file -/

/-- The text of the parameters (pcs_new.py:762-781, 829-835; pcs.py:466-484, 521-528), with the function for a line. -/
def writeParams (build : NumHP → Except Err Chars) (rs : List NumHP) : Except Err String :=
  match mapExcept (fun r : NumHP => if (ppName r.hp.name.toList).isNone then .error .valueError else build r) rs with
  | .error e => .error e
  | .ok ls => .ok (String.ofList (joinWith "\n".toList ls))

/-- The loop over the lines (pcs_new.py:470-573, pcs.py:279-359), with the function for a parameter line.  Simplification: the lines of
conditions and clauses are left out, and adding the hyperparameters to a space is not part of this. -/
def readParams (read : Chars → Except Err ReadHP) : List Chars → Except Err (List ReadHP)
  | [] => .ok []
  | raw :: ls =>
    let line := cleanLine raw
    if '|' ∈ line then readParams read ls
    else if '}' ∉ line ∧ ']' ∉ line then readParams read ls
    else if line.head? = some '{' ∧ line.getLast? = some '}' then readParams read ls
    else if line.isEmpty then readParams read ls
    else match read line with
      | .error e => .error e
      | .ok h => match readParams read ls with
        | .error e => .error e
        | .ok hs => .ok (h :: hs)

end Verif
