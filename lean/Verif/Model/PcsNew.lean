import Verif.Model.PyParse
import Verif.Model.Pcs
import Verif.Model.Serial
import Verif.Model.FixTypes

/-!
# The new pcs format (read_and_write/pcs_new.py)

`NotImplementedError` is a `RuntimeError`; an uncaught `ParseException` of pyparsing is modelled as `RuntimeError` too.
-/

set_option autoImplicit false

namespace Verif

/-! ## The grammar (pcs_new.py:76-178) -/

/-- The characters of `pp_param_name` (pcs_new.py:77-96); `alphanums` is ASCII. -/
def nameChar (c : Char) : Bool := c.isAlphanum || "_-@.:;\\/?!$%&*+<>".toList.contains c

/-- `pp_param_name` (pcs_new.py:77-96). -/
def ppName : Parser := pWord nameChar

/-- `pp_param_operation` (pcs_new.py:97). -/
def ppOperation : Parser := pWord (fun c => "in!=><".toList.contains c)

/-- `pp_plusorminus` (pcs_new.py:102). -/
def rSign : Chars → Option (Chars × Chars) := rAlt (rLit ['+']) (rLit ['-'])

/-- `pp_int` (pcs_new.py:98, 103-105). -/
def rInt : Chars → Option (Chars × Chars) := rSeq (rOpt rSign) (rWord Char.isDigit)

/-- `pp_float` (pcs_new.py:106-108). -/
def rFloat : Chars → Option (Chars × Chars) := rSeq (rOpt rSign) (rSeq (rOpt rInt) (rSeq (rLit ['.']) rInt))

/-- `pp_e_notation` (pcs_new.py:109, 116-117). -/
def rENotation : Chars → Option (Chars × Chars) :=
  rSeq (rAlt rFloat rInt) (rSeq (rAlt (rLit ['e']) (rLit ['E'])) rInt)

/-- `pp_number` (pcs_new.py:118). -/
def ppNumber : Parser := tok (rAlt rENotation (rAlt rFloat rInt))

/-- `pp_numberorname` (pcs_new.py:119). -/
def ppNumberOrName : Parser := pAlt ppNumber ppName

/-- `pp_param_type` (pcs_new.py:110-115). -/
def ppType : Parser := pAlt (pLit "integer") (pAlt (pLit "real") (pAlt (pLit "categorical") (pLit "ordinal")))

/-- `pp_choices`, `pp_sequence` and `pp_param_val` (pcs_new.py:99-101, 125-130). -/
def ppChoices : Parser := pSeq [ppName, pMany (pSeq [pLit ",", ppName])]

/-- `pp_cat_param` and `pp_ord_param` (pcs_new.py:131-133, 147-149), which are the same. -/
def ppCatParam : Parser := pSeq [ppName, ppType, pLit "{", ppChoices, pLit "}", pLit "[", ppName, pLit "]"]

/-- `pp_cont_param` (pcs_new.py:134-146). -/
def ppContParam : Parser := pSeq [ppName, ppType, pLit "[", ppNumber, pLit ",", ppNumber, pLit "]", pLit "[", ppNumber, pLit "]",
  pOpt (pLit "log")]

/-- A test in a condition (pcs_new.py:153-157, 161-165). -/
def ppTest : Parser := pSeq [ppName, ppOperation, pOpt (pLit "{"), ppChoices, pOpt (pLit "}")]

/-- `pp_condition` (pcs_new.py:150-168). -/
def ppCondition : Parser := pSeq [ppName, pLit "|", ppTest, pMany (pSeq [pAlt (pLit "&&") (pLit "||"), ppTest])]

/-- `pp_forbidden_clause` (pcs_new.py:169-178). -/
def ppForbidden : Parser := pSeq [pLit "{", ppName, pLit "=", ppNumberOrName,
  pMany (pSeq [pLit ",", ppName, pLit "=", ppNumberOrName]), pLit "}"]

/-! ## Writing -/

/-- `str(value)` as characters. -/
def PyText.chars (T : PyText) (v : Val) : Chars := (T.str v).toList

/-- `build_categorical`, `build_ordinal`, `build_constant`, `build_continuous` (pcs_new.py:181-237).  `weighted` tells whether the
(categorical) hyperparameter has weights; `log` is `False` and the distributions are uniform here, see Model/PcsScale.lean. -/
def buildParam (T : PyText) (weighted : Name → Bool) (h : HP) : Except Err Chars :=
  let choices (ty : String) (vs : List Val) : Chars :=
    h.name.toList ++ ty.toList ++ joinWith ", ".toList (vs.map T.chars) ++ "} [".toList ++ T.chars h.default ++ "]".toList
  let bounds (ty : String) (l u d : Val) : Chars :=
    h.name.toList ++ ty.toList ++ T.chars l ++ ", ".toList ++ T.chars u ++ "] [".toList ++ T.chars d ++ "]".toList
  match h.kind with
  | .cat cs => if weighted h.name then .error .valueError else .ok (choices " categorical {" cs)
  | .ord cs => .ok (choices " ordinal {" cs)
  | .const v => .ok (choices " categorical {" [v])
  | .int l u => .ok (bounds " integer [" (.int l) (.int u) (.int (trunc (h.default.num?.getD 0))))
  | .flt l u => .ok (bounds " real [" (.flt l) (.flt u) h.default)

/-- The sign of an operator (pcs_new.py:248-252). -/
def BOp.sign : BOp → String
  | .eq => "=="
  | .ne => "!="
  | .lt => "<"
  | .gt => ">"

/-- The part of the text of a condition behind the bar (pcs_new.py:248-292). -/
def testText (T : PyText) (l : Lit) : Chars :=
  match l.test with
  | .bin op v _ => l.parent.name.toList ++ " ".toList ++ op.sign.toList ++ " ".toList ++ T.chars v
  | .isIn vs _ => l.parent.name.toList ++ " in {".toList ++ joinWith ", ".toList (vs.map T.chars) ++ "}".toList

/-- `build_condition` (pcs_new.py:240-292). -/
def buildLit (T : PyText) (l : Lit) : Chars := l.child.name.toList ++ " | ".toList ++ testText T l

/-- The component of a conjunction (pcs_new.py:300-312): `build_condition(component).split("|")[1].strip()`; a conjunction inside of a
conjunction raises `NotImplementedError`. -/
def buildPart (T : PyText) : Cond → Except Err Chars
  | .lit l => .ok (strip ((splitChar '|' (buildLit T l)).getD 1 []))
  | _ => .error .runtimeError

/-- `build_condition` and `build_conjunction` (pcs_new.py:295-318, 785-793). -/
def buildCond (T : PyText) (c : Cond) : Except Err Chars :=
  match c with
  | .lit l => .ok (buildLit T l)
  | .and cs => match mapExcept (buildPart T) cs with
    | .error e => .error e
    | .ok ps => .ok (c.childStr.toList ++ " | ".toList ++ joinWith " && ".toList ps)
  | .or cs => match mapExcept (buildPart T) cs with
    | .error e => .error e
    | .ok ps => .ok (c.childStr.toList ++ " | ".toList ++ joinWith " || ".toList ps)

/-- One line of forbidden values: `build_forbidden` (pcs_new.py:321-361). -/
def forbText (T : PyText) (line : PcsLine) : Chars :=
  "{".toList ++ joinWith ", ".toList (line.map (fun nv => nv.1.toList ++ "=".toList ++ T.chars nv.2)) ++ "}".toList

/-- The order of `list.sort` on strings. -/
def charsLe (a b : Chars) : Bool := decide (String.ofList a ≤ String.ofList b)

/-- `pcs_new.write` (pcs_new.py:733-845). -/
def pcsWrite (T : PyText) (weighted : Name → Bool) (s : Space) : Except Err String :=
  match mapExcept (fun x : Node => if (ppName x.name.toList).isNone then .error .valueError
      else buildParam T weighted x.hp) s.com with
  | .error e => .error e
  | .ok params => match mapExcept (buildCond T) s.conditions with
    | .error e => .error e
    | .ok conds => match mapExcept pcsLines s.forbs with
      | .error e => .error e
      | .ok lines =>
        let forbs := sortBy charsLe (lines.flatten.map (forbText T))
        .ok (String.ofList (joinWith "\n".toList params
          ++ (if conds.isEmpty then [] else "\n\n".toList ++ joinWith "\n".toList conds)
          ++ (if forbs.isEmpty then [] else "\n\n".toList ++ (forbs.map (· ++ "\n".toList)).flatten)))

/-! ## Reading -/

/-- The lines of a file with this contents (`for line in fh`).  Simplification: without the newlines at their ends, which the
reader strips. -/
def fileLines (text : String) : List String := (splitChar '\n' text.toList).map String.ofList

/-- Comments, quotes and whitespace at the ends are removed (pcs_new.py:473-480). -/
def cleanLine (line : Chars) : Chars :=
  strip ((line.takeWhile (fun c => c != '#')).filter (fun c => c != '"' && c != '\''))

/-- `int(text)`. -/
def PyText.readInt (T : PyText) (t : Chars) : Except Err Int :=
  match T.parseInt (String.ofList t) with
  | some n => .ok n
  | none => .error .valueError

/-- `float(text)`. -/
def PyText.readFloat (T : PyText) (t : Chars) : Except Err Rat :=
  match T.parseFloat (String.ofList t) with
  | some q => .ok q
  | none => .error .valueError

/-- A word as a value. -/
def strVal (t : Chars) : Val := .str (String.ofList t)

/-- The first attempt at a parameter line (pcs_new.py:508-540): `none` when the line is not of this form, or the type is
not a numeric one.  Simplification: `log` is not modelled here and raises `ValueError`; see Model/PcsScale.lean. -/
def readContinuous (T : PyText) (line : Chars) : Except Err (Option HP) :=
  match ppContParam line with
  | none => .ok none
  | some (toks, _) =>
    let at' (i : Nat) : Chars := toks.getD i []
    if at' 1 = "integer".toList then
      if toks.length > 10 then .error .valueError
      else match T.readInt (at' 3), T.readInt (at' 5), T.readInt (at' 8) with
        | .ok l, .ok u, .ok d => match mkInt (String.ofList (at' 0)) (l : Rat) (u : Rat) (some (d : Rat)) with
          | .ok h => .ok (some h)
          | .error e => .error e
        | _, _, _ => .error .valueError
    else if at' 1 = "real".toList then
      if toks.length > 10 then .error .valueError
      else match T.readFloat (at' 3), T.readFloat (at' 5), T.readFloat (at' 8) with
        | .ok l, .ok u, .ok d => match mkFlt (String.ofList (at' 0)) l u (some d) with
          | .ok h => .ok (some h)
          | .error e => .error e
        | _, _, _ => .error .valueError
    else .ok none

/-- The second attempt (pcs_new.py:542-569), after the first has given `prev`. -/
def readDiscrete (line : Chars) (prev : Option HP) : Except Err (Option HP) :=
  let build (mk : Name → List Val → Val → Except Err HP) : Except Err (Option HP) :=
    match ppCatParam line with
    | none => .ok prev
    | some (toks, _) =>
      let choices := everyOther ((toks.take (toks.length - 4)).drop 3)
      match mk (String.ofList (toks.getD 0 [])) (choices.map strVal) (strVal (toks.getD (toks.length - 2) [])) with
      | .ok h => .ok (some h)
      | .error e => .error e
  if hasSub "categorical".toList line then build (fun n vs d => mkCat n vs (some d) none)
  else if hasSub "ordinal".toList line then build (fun n vs d => mkOrd n vs (some d))
  else .ok prev

/-- The hyperparameter of a parameter line (pcs_new.py:498-572). -/
def readParam (T : PyText) (line : Chars) : Except Err HP :=
  match readContinuous T line with
  | .error e => .error e
  | .ok prev => match readDiscrete line prev with
    | .error e => .error e
    | .ok none => .error .runtimeError
    | .ok (some h) => .ok h

/-- What the first loop of the reader collects. -/
structure PcsFile where
  space : Space := {}
  conds : List (List Chars) := []
  forbs : List Chars := []

/-- One line (pcs_new.py:470-573). -/
def readLine (T : PyText) (f : PcsFile) (raw : Chars) : Except Err PcsFile :=
  let line := cleanLine raw
  if '|' ∈ line then match ppCondition line with
    | none => .error .runtimeError
    | some (toks, _) => .ok { f with conds := f.conds ++ [toks] }
  else if '}' ∉ line ∧ ']' ∉ line then .ok f
  else if line.head? = some '{' ∧ line.getLast? = some '}' then .ok { f with forbs := f.forbs ++ [line] }
  else if line.isEmpty then .ok f
  else match readParam T line with
    | .error e => .error e
    | .ok h => match f.space.add [h] [] [] with
      | (_, some e) => .error e
      | (s, none) => .ok { f with space := s }

/-- All lines. -/
def readLines (T : PyText) : PcsFile → List Chars → Except Err PcsFile
  | f, [] => .ok f
  | f, l :: ls => match readLine T f l with
    | .error e => .error e
    | .ok f' => readLines T f' ls

/-- The value in a forbidden clause (pcs_new.py:584-622). -/
def forbValue (T : PyText) (h : HP) (t : Chars) : Except Err Val :=
  match h.kind with
  | .int l u => match T.readInt t with
    | .error e => .error e
    | .ok n => if n < l ∨ u < n then .error .valueError else .ok (.int n)
  | .flt l u => match T.readFloat t with
    | .error e => .error e
    | .ok q => if q < l ∨ u < q then .error .valueError else .ok (.flt q)
  | .cat cs => if (strVal t).pyIn cs then .ok (strVal t) else .error .valueError
  | .ord cs => if (strVal t).pyIn cs then .ok (strVal t) else .error .valueError
  | .const _ => .error .valueError

/-- The loop over the tokens of a forbidden clause without the first (pcs_new.py:579-632): three tokens are collected, and the fourth
(a comma or the closing brace) ends them. -/
def forbClauses (T : PyText) (s : Space) : List Chars → Except Err (List Forb)
  | n :: e :: v :: _ :: rest =>
    if e = "=".toList then match s.getHP (String.ofList n) with
      | .error e => .error e
      | .ok h => match forbValue T h v with
        | .error e => .error e
        | .ok w => match mkForbEq h w with
          | .error e => .error e
          | .ok f => match forbClauses T s rest with
            | .error e => .error e
            | .ok fs => .ok (f :: fs)
    else .error .runtimeError
  | _ => .ok []

/-- A forbidden line (pcs_new.py:575-633). -/
def readForbidden (T : PyText) (s : Space) (line : Chars) : Except Err Forb :=
  match ppForbidden line with
  | none => .error .runtimeError
  | some (toks, _) => match forbClauses T s (toks.drop 1) with
    | .error e => .error e
    | .ok fs => .ok (.and fs)

/-- A value in a condition on the given parent (pcs_new.py:376-381, 389-393). -/
def condValue (T : PyText) (parent : HP) (t : Chars) : Except Err Val :=
  match parent.kind with
  | .flt _ _ => match T.readFloat t with
    | .ok q => .ok (.flt q)
    | .error e => .error e
  | .int _ _ => match T.readInt t with
    | .ok n => .ok (.int n)
    | .error e => .error e
  | _ => .ok (strVal t)

/-- `condition_specification` (pcs_new.py:364-423), on the words of the test. -/
def condSpec (T : PyText) (s : Space) (childName : Name) (ws : List Chars) : Except Err Cond :=
  match s.getHP childName, ws[0]?, ws[1]? with
  | .error e, _, _ => .error e
  | _, none, _ => .error .indexError
  | .ok child, some p, op => match s.getHP (String.ofList p), op with
    | .error e, _ => .error e
    | _, none => .error .indexError
    | .ok parent, some op =>
      if op = "in".toList then
        match mapExcept (condValue T parent) (everyOther (ws.drop 3).dropLast) with
        | .error e => .error e
        | .ok vs => match vs with
          | [v] => (mkBin .eq child parent v).map Cond.lit
          | vs => (mkIn child parent vs).map Cond.lit
      else match ws[2]? with
        | none => .error .indexError
        | some t => match condValue T parent t with
          | .error e => .error e
          | .ok v =>
            if op = "==".toList then (mkBin .eq child parent v).map Cond.lit
            else if op = "!=".toList then (mkBin .ne child parent v).map Cond.lit
            else match parent.kind with
              | .cat _ => .error .valueError
              | .const _ => .error .valueError
              | _ =>
                if op = "<".toList then (mkBin .lt child parent v).map Cond.lit
                else if op = ">".toList then (mkBin .gt child parent v).map Cond.lit
                else .error .runtimeError

/-- `"cc" in text`. -/
def hasTwice (c : Char) (cs : Chars) : Bool := hasSub [c, c] cs

/-- One part of a condition with both connectives (pcs_new.py:653-682).  For the components of a conjunction the words are
repeated as many times as there are components. -/
def mixedPart (T : PyText) (s : Space) (child : Name) (part : Chars) : Except Err Cond :=
  match splitTwice '&' part with
  | [p] => condSpec T s child (wsSplit p)
  | ps => match mapExcept (fun p => condSpec T s child ((List.replicate ps.length (wsSplit p)).flatten)) ps with
    | .error e => .error e
    | .ok cs => mkAnd cs

/-- A condition line (pcs_new.py:645-722), from its tokens. -/
def readCond (T : PyText) (s : Space) (toks : List Chars) : Except Err Cond :=
  let child := String.ofList (toks.getD 0 [])
  let text := joinWith " ".toList (toks.drop 2)
  if hasTwice '|' text then
    if hasTwice '&' text then match mapExcept (mixedPart T s child) (splitTwice '|' text) with
      | .error e => .error e
      | .ok cs => mkOr cs
    else match mapExcept (fun p => condSpec T s child (wsSplit p)) (splitTwice '|' text) with
      | .error e => .error e
      | .ok cs => mkOr cs
  else if hasTwice '&' text then match mapExcept (fun p => condSpec T s child (wsSplit p)) (splitTwice '&' text) with
    | .error e => .error e
    | .ok cs => mkAnd cs
  else condSpec T s child (wsSplit text)

/-- `conditions_per_child` (pcs_new.py:637-643): the lines of one child together, in the order of the first lines. -/
def groupByChild (cs : List (List Chars)) : List (List Chars) :=
  (uniqueBy String.ofList [] (cs.map (fun c => c.getD 0 []))).flatMap
    (fun n => cs.filter (fun c => c.getD 0 [] == n))

/-- `pcs_new.read` (pcs_new.py:430-726). -/
def pcsRead (T : PyText) (lines : List String) : Except Err Space :=
  match readLines T {} (lines.map String.toList) with
  | .error e => .error e
  | .ok f => match mapExcept (readForbidden T f.space) f.forbs with
    | .error e => .error e
    | .ok fs => match f.space.add [] [] fs with
      | (_, some e) => .error e
      | (s, none) => match mapExcept (readCond T s) (groupByChild f.conds) with
        | .error e => .error e
        | .ok cs => match s.add [] cs [] with
          | (_, some e) => .error e
          | (s', none) => .ok s'

end Verif
