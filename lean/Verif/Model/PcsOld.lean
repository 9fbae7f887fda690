import Verif.Model.PcsNew

/-!
# The old pcs format

`read_and_write/pcs.py` on the characters of the text.  Names, numbers, choices and forbidden clauses have the same grammar as in the new
format (pcs.py:57-90, 110-119; pcs_new.py), and the clauses are written in the same way.
-/

set_option autoImplicit false

namespace Verif

/-! ## The grammar (pcs.py:92-109) -/

/-- `pp_cont_param` (pcs.py:96-107). -/
def ppOldCont : Parser := pSeq [ppName, pLit "[", ppNumber, pLit ",", ppNumber, pLit "]", pLit "[", ppNumber, pLit "]",
  pOpt (pWord (fun c => "il".toList.contains c))]

/-- `pp_cat_param` (pcs.py:108). -/
def ppOldCat : Parser := pSeq [ppName, pLit "{", ppChoices, pLit "}", pLit "[", ppName, pLit "]"]

/-- `pp_condition` (pcs.py:109). -/
def ppOldCond : Parser := pSeq [ppName, pLit "|", ppName, pLit "in", pLit "{", ppChoices, pLit "}"]

/-! ## Writing -/

/-- `build_categorical`, `build_constant`, `build_continuous` and their dispatch (pcs.py:122-168, 472-482); ordinal hyperparameters raise
`TypeError`.  `weighted` tells whether the (categorical) hyperparameter has weights; `log` is `False` and the
distributions are uniform here, see Model/PcsScale.lean. -/
def buildOldParam (T : PyText) (weighted : Name → Bool) (h : HP) : Except Err Chars :=
  let choices (vs : List Val) : Chars :=
    h.name.toList ++ " {".toList ++ joinWith ", ".toList (vs.map T.chars) ++ "} [".toList ++ T.chars h.default ++ "]".toList
  let bounds (l u d : Val) : Chars :=
    h.name.toList ++ " [".toList ++ T.chars l ++ ", ".toList ++ T.chars u ++ "] [".toList ++ T.chars d ++ "]".toList
  match h.kind with
  | .cat cs => if weighted h.name then .error .valueError else .ok (choices cs)
  | .const v => .ok (choices [v])
  | .int l u => .ok (bounds (.int l) (.int u) (.int (trunc (h.default.num?.getD 0))) ++ "i".toList)
  | .flt l u => .ok (bounds (.flt l) (.flt u) h.default)
  | .ord _ => .error .typeError

/-- `", ".join(values)` raises `TypeError` if one of them is not a string. -/
def joinStrings : List Val → Except Err (List Chars)
  | [] => .ok []
  | .str t :: vs => match joinStrings vs with
    | .error e => .error e
    | .ok ts => .ok (t.toList :: ts)
  | _ :: _ => .error .typeError

/-- `build_condition` for a literal condition (pcs.py:171-203).  `NotImplementedError`, a subclass of `RuntimeError`, is `runtimeError`. -/
def buildOldLit (T : PyText) (l : Lit) : Except Err Chars :=
  let line (vs : List Chars) : Chars :=
    l.child.name.toList ++ " | ".toList ++ l.parent.name.toList ++ " in {".toList ++ joinWith ", ".toList vs ++ "}".toList
  match l.test with
  | .bin .eq v _ => .ok (line [T.chars v])
  | .bin _ _ _ => .error .runtimeError
  | .isIn vs _ => match joinStrings vs with
    | .error e => .error e
    | .ok ts => .ok (line ts)

mutual
/-- `build_condition` (pcs.py:171-203): a conjunction gives one line for each literal condition. -/
def buildOldCond (T : PyText) : Cond → Except Err Chars
  | .lit l => buildOldLit T l
  | .and cs => match buildOldConds T cs with
    | .error e => .error e
    | .ok ls => .ok (joinWith "\n".toList ls)
  | .or _ => .error .runtimeError
def buildOldConds (T : PyText) : List Cond → Except Err (List Chars)
  | [] => .ok []
  | c :: cs => match buildOldCond T c with
    | .error e => .error e
    | .ok l => match buildOldConds T cs with
      | .error e => .error e
      | .ok ls => .ok (l :: ls)
end

/-- `pcs.write` (pcs.py:428-537).  Simplification: the text of a condition is not empty. -/
def pcsWriteOld (T : PyText) (weighted : Name → Bool) (s : Space) : Except Err String :=
  match mapExcept (fun x : Node => if (ppName x.name.toList).isNone then .error .valueError
      else buildOldParam T weighted x.hp) s.com with
  | .error e => .error e
  | .ok params => match mapExcept (buildOldCond T) s.conditions with
    | .error e => .error e
    | .ok conds => match mapExcept pcsLines s.forbs with
      | .error e => .error e
      | .ok lines =>
        let forbs := sortBy charsLe (lines.flatten.map (forbText T))
        .ok (String.ofList (joinWith "\n".toList params
          ++ (if conds.isEmpty then [] else "\n\n".toList ++ joinWith "\n".toList conds)
          ++ (if forbs.isEmpty then [] else "\n\n".toList ++ (forbs.map (· ++ "\n".toList)).flatten)))

/-! ## Reading -/

/-- The first attempt at a parameter line (pcs.py:318-340): `none` when the line is not of this form.  All numbers are read as floats.
Simplification: `log` is not modelled here and raises `ValueError`; see Model/PcsScale.lean. -/
def readOldCont (T : PyText) (line : Chars) : Except Err (Option HP) :=
  match ppOldCont line with
  | none => .ok none
  | some (toks, _) =>
    let at' (i : Nat) : Chars := toks.getD i []
    let il := at' 9
    match T.readFloat (at' 2), T.readFloat (at' 4), T.readFloat (at' 7) with
    | .ok l, .ok u, .ok d =>
      if 'l' ∈ il then .error .valueError
      else if 'i' ∈ il then match mkInt (String.ofList (at' 0)) l u (some d) with
        | .ok h => .ok (some h)
        | .error e => .error e
      else match mkFlt (String.ofList (at' 0)) l u (some d) with
        | .ok h => .ok (some h)
        | .error e => .error e
    | _, _, _ => .error .valueError

/-- The second attempt (pcs.py:342-354), after the first has given `prev`. -/
def readOldCat (line : Chars) (prev : Option HP) : Except Err (Option HP) :=
  match ppOldCat line with
  | none => .ok prev
  | some (toks, _) =>
    let choices := everyOther ((toks.take (toks.length - 4)).drop 2)
    match mkCat (String.ofList (toks.getD 0 [])) (choices.map strVal) (some (strVal (toks.getD (toks.length - 2) []))) none with
    | .ok h => .ok (some h)
    | .error e => .error e

/-- The hyperparameter of a parameter line (pcs.py:308-359). -/
def readOldParam (T : PyText) (line : Chars) : Except Err HP :=
  match readOldCont T line with
  | .error e => .error e
  | .ok prev => match readOldCat line prev with
    | .error e => .error e
    | .ok none => .error .runtimeError
    | .ok (some h) => .ok h

/-- What the first loop of the reader collects. -/
structure OldFile where
  hps : List HP := []
  conds : List (List Chars) := []
  forbs : List Chars := []

/-- One line (pcs.py:279-359). -/
def readOldLine (T : PyText) (f : OldFile) (raw : Chars) : Except Err OldFile :=
  let line := cleanLine raw
  if '|' ∈ line then match ppOldCond line with
    | none => .error .runtimeError
    | some (toks, _) => .ok { f with conds := f.conds ++ [toks] }
  else if '}' ∉ line ∧ ']' ∉ line then .ok f
  else if line.head? = some '{' ∧ line.getLast? = some '}' then .ok { f with forbs := f.forbs ++ [line] }
  else if line.isEmpty then .ok f
  else match readOldParam T line with
    | .error e => .error e
    | .ok h => .ok { f with hps := f.hps ++ [h] }

/-- All lines. -/
def readOldLines (T : PyText) : OldFile → List Chars → Except Err OldFile
  | f, [] => .ok f
  | f, l :: ls => match readOldLine T f l with
    | .error e => .error e
    | .ok f' => readOldLines T f' ls

/-- The loop over the tokens of a forbidden clause without the first (pcs.py:368-387): three tokens are collected, and the fourth
(a comma or the closing brace) ends them.  The value stays a string. -/
def oldClauses (s : Space) : List Chars → Except Err (List Forb)
  | n :: e :: v :: _ :: rest =>
    if e = "=".toList then match s.getHP (String.ofList n) with
      | .error e => .error e
      | .ok h => match mkForbEq h (strVal v) with
        | .error e => .error e
        | .ok f => match oldClauses s rest with
          | .error e => .error e
          | .ok fs => .ok (f :: fs)
    else .error .runtimeError
  | _ => .ok []

/-- A forbidden line (pcs.py:363-389). -/
def readOldForb (s : Space) (line : Chars) : Except Err Forb :=
  match ppForbidden line with
  | none => .error .runtimeError
  | some (toks, _) => match oldClauses s (toks.drop 1) with
    | .error e => .error e
    | .ok fs => .ok (.and fs)

/-- One condition line of a child (pcs.py:402-413), from its tokens. -/
def readOldLit (s : Space) (toks : List Chars) : Except Err Cond :=
  match s.getHP (String.ofList (toks.getD 0 [])) with
  | .error e => .error e
  | .ok child => match s.getHP (String.ofList (toks.getD 2 [])) with
    | .error e => .error e
    | .ok parent => match (everyOther (toks.drop 5).dropLast).map strVal with
      | [v] => (mkBin .eq child parent v).map Cond.lit
      | vs => (mkIn child parent vs).map Cond.lit

/-- The condition of a child (pcs.py:401-422), from the tokens of its lines. -/
def readOldCond (s : Space) (lines : List (List Chars)) : Except Err Cond :=
  match mapExcept (readOldLit s) lines with
  | .error e => .error e
  | .ok cs => match cs with
    | [c] => .ok c
    | cs => mkAnd cs

/-- `conditions_per_child` (pcs.py:394-399): the lines of one child together, in the order of the first lines. -/
def perChild (cs : List (List Chars)) : List (List (List Chars)) :=
  (uniqueBy String.ofList [] (cs.map (fun c => c.getD 0 []))).map (fun n => cs.filter (fun c => c.getD 0 [] == n))

/-- `pcs.read` (pcs.py:237-426). -/
def pcsReadOld (T : PyText) (lines : List String) : Except Err Space :=
  match readOldLines T {} (lines.map String.toList) with
  | .error e => .error e
  | .ok f => match ({} : Space).add f.hps [] [] with
    | (_, some e) => .error e
    | (s, none) => match mapExcept (readOldForb s) f.forbs with
      | .error e => .error e
      | .ok fs => match mapExcept (readOldCond s) (perChild f.conds) with
        | .error e => .error e
        | .ok cs => match s.add [] cs fs with
          | (_, some e) => .error e
          | (s', none) => .ok s'

end Verif
