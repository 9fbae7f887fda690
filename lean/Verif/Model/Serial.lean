import Verif.Model.Subst

/-!
# Serialisation (read_and_write/dictionary.py, configuration_space.py:952-1079)

The model stops at the dictionary: writing it into a file is in `Model/Files`.
-/

set_option autoImplicit false

namespace Verif

/-- What the dictionaries are made of: `None`, booleans, values, lists and dictionaries. -/
inductive Json where
  | null
  | bool (b : Bool)
  | val (v : Val)
  | arr (items : List Json)
  | obj (fields : List (String × Json))
deriving Repr

/-- The fields of a dictionary. -/
abbrev Fields := List (String × Json)

/-- `item.pop(key, None)`: the rest of the dictionary. -/
def Fields.pop (fs : Fields) (k : String) : Fields := fs.filter (fun kv => kv.1 != k)

/-- `item["key"]`; `KeyError` when it is missing. -/
def Fields.get (fs : Fields) (k : String) : Except Err Json :=
  match fs.lookup k with
  | some j => .ok j
  | none => .error .keyError

/-! ## Encoding -/

def Json.str (t : String) : Json := .val (.str t)

/-- `_encode_uniform_float`, `_encode_uniform_int`, `_encode_categorical`, `_encode_ordinal`, `_encode_constant`
(dictionary.py:332-359, 424-453), with the `type` that `enc` puts in front (configuration_space.py:990-992).  `w` are the
weights of the categorical hyperparameter, which the model keeps outside of `HP`; `meta` is not modelled and is
`None`, `log` is `False`. -/
def encHP (h : HP) (w : Option (List Rat)) : Json :=
  match h.kind with
  | .flt l u => .obj [("type", .str "uniform_float"), ("name", .str h.name), ("lower", .val (.flt l)),
      ("upper", .val (.flt u)), ("default_value", .val (.flt (h.default.num?.getD 0))), ("log", .bool false),
      ("meta", .null)]
  | .int l u => .obj [("type", .str "uniform_int"), ("name", .str h.name), ("lower", .val (.int l)),
      ("upper", .val (.int u)), ("default_value", .val (.int (trunc (h.default.num?.getD 0)))), ("log", .bool false),
      ("meta", .null)]
  | .cat cs => .obj [("type", .str "categorical"), ("name", .str h.name), ("choices", .arr (cs.map Json.val)),
      ("weights", match w with
        | some (x :: xs) => .arr ((x :: xs).map (fun q => Json.val (.flt q)))
        | _ => .null),
      ("default_value", .val h.default), ("meta", .null)]
  | .ord cs => .obj [("type", .str "ordinal"), ("name", .str h.name), ("sequence", .arr (cs.map Json.val)),
      ("default_value", .val h.default), ("meta", .null)]
  | .const v => .obj [("type", .str "constant"), ("name", .str h.name), ("value", .val v), ("meta", .null)]

/-- The `type` of a literal condition (dictionary.py:577-583). -/
def BOp.tag : BOp → String
  | .eq => "EQ"
  | .ne => "NEQ"
  | .lt => "LT"
  | .gt => "GT"

/-- The encoding of a literal condition (dictionary.py:456-500). -/
def encLit (l : Lit) : Json :=
  match l.test with
  | .bin op v _ => .obj [("type", .str op.tag), ("child", .str l.child.name), ("parent", .str l.parent.name), ("value", .val v)]
  | .isIn vs _ => .obj [("type", .str "IN"), ("child", .str l.child.name), ("parent", .str l.parent.name),
      ("values", .arr (vs.map Json.val))]

/-- The name of the child of a condition that was built by the constructors. -/
def Cond.childStr (c : Cond) : String := (c.child?.map HP.name).getD ""

mutual
/-- The encoding of a condition (dictionary.py:456-520). -/
def encCond : Cond → Json
  | .lit l => encLit l
  | .and cs => .obj [("type", .str "AND"), ("child", .str (Cond.and cs).childStr), ("conditions", .arr (encConds cs))]
  | .or cs => .obj [("type", .str "OR"), ("child", .str (Cond.or cs).childStr), ("conditions", .arr (encConds cs))]
def encConds : List Cond → List Json
  | [] => []
  | c :: cs => encCond c :: encConds cs
end

/-- The `type` of a relation (dictionary.py:591-597). -/
def RelOp.tag : RelOp → String
  | .lt => "RELATION_LT"
  | .eq => "RELATION_EQ"
  | .gt => "RELATION_GT"

mutual
/-- The encoding of a forbidden clause (dictionary.py:523-562). -/
def encForb : Forb → Json
  | .eq h v _ => .obj [("type", .str "EQUALS"), ("name", .str h.name), ("value", .val v)]
  | .isIn h vs _ => .obj [("type", .str "IN"), ("name", .str h.name), ("values", .arr (vs.map Json.val))]
  | .rel op l r => .obj [("type", .str op.tag), ("left", .str l.name), ("right", .str r.name)]
  | .and fs => .obj [("type", .str "AND"), ("clauses", .arr (encForbs fs))]
def encForbs : List Forb → List Json
  | [] => []
  | f :: fs => encForb f :: encForbs fs
end

/-- `to_serialized_dict` (configuration_space.py:952-1001).  `w` gives the weights of the categorical
hyperparameters; `ver` is the version of the package; the name of the space is not modelled and is `None`. -/
def Space.toDict (s : Space) (w : Name → Option (List Rat)) (ver : String) : Json :=
  .obj [("name", .null),
    ("hyperparameters", .arr (s.com.map (fun x => encHP x.hp (w x.name)))),
    ("conditions", .arr (encConds s.conditions)),
    ("forbiddens", .arr (encForbs s.forbs)),
    ("python_module_version", .str ver), ("format_version", .val (.flt (2 / 5)))]

/-! ## Decoding -/

/-- `dec` up to the choice of the decoder (configuration_space.py:1034-1041): the type, and the item without it. -/
def popType (fs : Fields) : Except Err (String × Fields) :=
  match fs.lookup "type" with
  | some (.val (.str t)) => .ok (t, fs.pop "type")
  | some (.val _) => .error .valueError
  | some (.bool _) => .error .valueError
  | some (.arr _) => .error .typeError
  | some (.obj _) => .error .typeError
  | some .null => .error .keyError
  | none => .error .keyError

/-- `_backwards_compat` (dictionary.py:50-64). -/
def compat (fs : Fields) : Fields :=
  let gs := fs.pop "q"
  match gs.lookup "default" with
  | some .null => gs.pop "default"
  | none => gs.pop "default"
  | some d => ((gs.pop "default").pop "default_value") ++ [("default_value", d)]

/-- Calling a constructor with `**item`: an unexpected keyword raises `TypeError`, a missing one too. -/
def kwargs (fs : Fields) (required optional : List String) : Bool :=
  fs.all (fun kv => decide (kv.1 ∈ required ++ optional)) && required.all (fun k => (fs.lookup k).isSome)

/-- A string argument. Simplification: other types are rejected with `TypeError`. -/
def asStr : Option Json → Except Err String
  | some (.val (.str t)) => .ok t
  | _ => .error .typeError

/-- A number argument. Simplification: other types are rejected with `TypeError`. -/
def asNum : Option Json → Except Err Rat
  | some (.val v) => match v.num? with
    | some q => .ok q
    | none => .error .typeError
  | _ => .error .typeError

/-- An optional number: missing or `None` is `None`. -/
def asNum? : Option Json → Except Err (Option Rat)
  | none => .ok none
  | some .null => .ok none
  | j => match asNum j with
    | .ok q => .ok (some q)
    | .error e => .error e

/-- A list element. Only values are modelled. -/
def asVal : Json → Except Err Val
  | .val v => .ok v
  | _ => .error .typeError

/-- A list of values. -/
def asVals : Option Json → Except Err (List Val)
  | some (.arr js) => mapExcept asVal js
  | _ => .error .typeError

/-- An optional value: missing is `NotSet`; `None` is a value, which is not modelled and rejected like an illegal one. -/
def asVal? : Option Json → Except Err (Option Val)
  | none => .ok none
  | some (.val v) => .ok (some v)
  | some _ => .error .valueError

/-- The weights: missing or `None`, or a list of numbers. -/
def asWeights : Option Json → Except Err (Option (List Rat))
  | none => .ok none
  | some .null => .ok none
  | some (.arr js) => match mapExcept (fun j => asNum (some j)) js with
    | .ok ws => .ok (some ws)
    | .error e => .error e
  | some _ => .error .typeError

/-- `log` must be `False` in the model. -/
def noLog (fs : Fields) : Bool :=
  match fs.lookup "log" with
  | none => true
  | some (.bool b) => !b
  | some _ => false

/-- The decoders of the hyperparameters (dictionary.py:67-152), on the item without its type, with the weights of a categorical
one.  Simplification: `log=True`, and the normal and beta distributions, are outside of the model and raise. -/
def decHPFields (t : String) (item : Fields) : Except Err (HP × Option (List Rat)) := do
  let fs := compat item
  if t = "uniform_float" then
    if !(kwargs fs ["name", "lower", "upper"] ["default_value", "log", "meta"]) then .error .typeError
    else if !(noLog fs) then .error .valueError
    else
      let n ← asStr (fs.lookup "name")
      let l ← asNum (fs.lookup "lower")
      let u ← asNum (fs.lookup "upper")
      let d ← asNum? (fs.lookup "default_value")
      let h ← mkFlt n l u d
      .ok (h, none)
  else if t = "uniform_int" then
    if !(kwargs fs ["name", "lower", "upper"] ["default_value", "log", "meta"]) then .error .typeError
    else if !(noLog fs) then .error .valueError
    else
      let n ← asStr (fs.lookup "name")
      let l ← asNum (fs.lookup "lower")
      let u ← asNum (fs.lookup "upper")
      let d ← asNum? (fs.lookup "default_value")
      let h ← mkInt n l u d
      .ok (h, none)
  else if t = "categorical" then
    let gs := fs.pop "probabilities"
    if !(kwargs gs ["name", "choices"] ["default_value", "meta", "weights"]) then .error .typeError
    else
      let n ← asStr (gs.lookup "name")
      let cs ← asVals (gs.lookup "choices")
      let d ← asVal? (gs.lookup "default_value")
      let w ← asWeights (gs.lookup "weights")
      let h ← mkCat n cs d w
      .ok (h, w)
  else if t = "ordinal" then
    if !(kwargs fs ["name", "sequence"] ["default_value", "meta"]) then .error .typeError
    else
      let n ← asStr (fs.lookup "name")
      let cs ← asVals (fs.lookup "sequence")
      let d ← asVal? (fs.lookup "default_value")
      let h ← mkOrd n cs d
      .ok (h, none)
  else if t = "constant" then
    if !(kwargs fs ["name", "value"] ["meta"]) then .error .typeError
    else
      let n ← asStr (fs.lookup "name")
      let v ← (match fs.lookup "value" with
        | some j => asVal j
        | none => .error .typeError)
      let h ← mkConst n v
      .ok (h, none)
  else .error .valueError

/-- `hp_decoder` (configuration_space.py:1034-1050). -/
def decHP : Json → Except Err (HP × Option (List Rat))
  | .obj fs => match popType fs with
    | .error e => .error e
    | .ok (t, item) => decHPFields t item
  | _ => .error .typeError

/-- `cs[item[key]]`. -/
def Space.getField (s : Space) (fs : Fields) (k : String) : Except Err HP :=
  match fs.get k with
  | .error e => .error e
  | .ok (.val (.str n)) => s.getHP n
  | .ok _ => .error .keyError

/-- `_decode_equals_condition` and its likes (dictionary.py:155-200). -/
def decBin (s : Space) (op : BOp) (fs : Fields) : Except Err Cond := do
  let c ← s.getField fs "child"
  let p ← s.getField fs "parent"
  let j ← fs.get "value"
  let v ← asVal j
  let l ← mkBin op c p v
  .ok (.lit l)

/-- `_decode_in_condition_condition` (dictionary.py:203-212). -/
def decIn (s : Space) (fs : Fields) : Except Err Cond := do
  let c ← s.getField fs "child"
  let p ← s.getField fs "parent"
  let j ← fs.get "values"
  let vs ← asVals (some j)
  let l ← mkIn c p vs
  .ok (.lit l)

mutual
/-- `cond_decoder` (configuration_space.py:1034-1050; dictionary.py:155-229, 311-319). -/
def decCond (s : Space) : Json → Except Err Cond
  | .obj fs => match popType fs with
    | .error e => .error e
    | .ok (t, item) =>
      if t = "EQ" then decBin s .eq item
      else if t = "NEQ" then decBin s .ne item
      else if t = "LT" then decBin s .lt item
      else if t = "GT" then decBin s .gt item
      else if t = "IN" then decIn s item
      else if t = "AND" then match decCondField s fs with
        | .error e => .error e
        | .ok cs => mkAnd cs
      else if t = "OR" then match decCondField s fs with
        | .error e => .error e
        | .ok cs => mkOr cs
      else .error .valueError
  | _ => .error .typeError
/-- `[decode(cond, cs, decode) for cond in item["conditions"]]` (dictionary.py:215-229). -/
def decCondField (s : Space) : List (String × Json) → Except Err (List Cond)
  | [] => .error .keyError
  | (k, j) :: fs => if k = "conditions" then decCondArr s j else decCondField s fs
def decCondArr (s : Space) : Json → Except Err (List Cond)
  | .arr js => decConds s js
  | _ => .error .typeError
def decConds (s : Space) : List Json → Except Err (List Cond)
  | [] => .ok []
  | j :: js => match decCond s j with
    | .error e => .error e
    | .ok c => match decConds s js with
      | .error e => .error e
      | .ok cs => .ok (c :: cs)
end

/-- `_decode_forbidden_equal` (dictionary.py:241-246). -/
def decForbEq (s : Space) (fs : Fields) : Except Err Forb := do
  let h ← s.getField fs "name"
  let j ← fs.get "value"
  let v ← asVal j
  mkForbEq h v

/-- `_decode_forbidden_in` (dictionary.py:233-238). -/
def decForbIn (s : Space) (fs : Fields) : Except Err Forb := do
  let h ← s.getField fs "name"
  let j ← fs.get "values"
  let vs ← asVals (some j)
  mkForbIn h vs

/-- `_decode_forbidden_equals_relation` and its likes (dictionary.py:276-297). -/
def decRel (s : Space) (op : RelOp) (fs : Fields) : Except Err Forb := do
  let l ← s.getField fs "left"
  let r ← s.getField fs "right"
  .ok (.rel op l r)

/-- `_decode_relation_legacy` (dictionary.py:257-273). -/
def decRelLegacy (s : Space) (fs : Fields) : Except Err Forb :=
  match fs.get "lambda" with
  | .error e => .error e
  | .ok (.val (.str t)) =>
    if t = "LT" then decRel s .lt fs
    else if t = "EQ" then decRel s .eq fs
    else if t = "GT" then decRel s .gt fs
    else .error .valueError
  | .ok _ => .error .valueError

mutual
/-- `forb_decoder` (configuration_space.py:1034-1050; dictionary.py:233-297, 321-329). -/
def decForb (s : Space) : Json → Except Err Forb
  | .obj fs => match popType fs with
    | .error e => .error e
    | .ok (t, item) =>
      if t = "EQUALS" then decForbEq s item
      else if t = "IN" then decForbIn s item
      else if t = "AND" then match decForbField s fs with
        | .error e => .error e
        | .ok gs => .ok (.and gs)
      else if t = "RELATION_LT" then decRel s .lt item
      else if t = "RELATION_EQ" then decRel s .eq item
      else if t = "RELATION_GT" then decRel s .gt item
      else if t = "RELATION" then decRelLegacy s item
      else .error .valueError
  | _ => .error .typeError
/-- `[decode(cl, cs, decode) for cl in item["clauses"]]` (dictionary.py:249-254). -/
def decForbField (s : Space) : List (String × Json) → Except Err (List Forb)
  | [] => .error .keyError
  | (k, j) :: fs => if k = "clauses" then decForbArr s j else decForbField s fs
def decForbArr (s : Space) : Json → Except Err (List Forb)
  | .arr js => decForbs s js
  | _ => .error .typeError
def decForbs (s : Space) : List Json → Except Err (List Forb)
  | [] => .ok []
  | j :: js => match decForb s j with
    | .error e => .error e
    | .ok c => match decForbs s js with
      | .error e => .error e
      | .ok cs => .ok (c :: cs)
end

/-- `d.get(key, [])`, as a list. -/
def listField (fs : Fields) (k : String) : Except Err (List Json) :=
  match fs.lookup k with
  | none => .ok []
  | some (.arr js) => .ok js
  | some _ => .error .typeError

/-- `from_serialized_dict` (configuration_space.py:1003-1079), with the weights of the hyperparameters in the order of the list. -/
def fromDict : Json → Except Err (Space × List (Name × Option (List Rat)))
  | .obj fs =>
    match listField fs "hyperparameters" with
    | .error e => .error e
    | .ok hs => match listField fs "conditions" with
      | .error e => .error e
      | .ok cs => match listField fs "forbiddens" with
        | .error e => .error e
        | .ok gs => match mapExcept decHP hs with
          | .error e => .error e
          | .ok hps => match ({} : Space).add (hps.map Prod.fst) [] [] with
            | (_, some e) => .error e
            | (s1, none) => match decConds s1 cs with
              | .error e => .error e
              | .ok conds => match decForbs s1 gs with
                | .error e => .error e
                | .ok forbs => match s1.add [] conds forbs with
                  | (_, some e) => .error e
                  | (s2, none) => .ok (s2, hps.map (fun p => (p.1.name, p.2)))
  | _ => .error .typeError

/-! ## The argument after decoding -/

/-- The item of a hyperparameter after it has been decoded: `type`, `q`, `default` and, for a categorical one,
`probabilities` are popped from the dictionary of the caller (configuration_space.py:1034; dictionary.py:50-64, 127). -/
def usedHP : Json → Json
  | .obj fs => match popType fs with
    | .ok (t, item) => .obj (if t = "categorical" then Fields.pop (compat item) "probabilities" else compat item)
    | .error _ => .obj fs
  | j => j

mutual
/-- The item of a condition after it has been decoded: `type` is popped, also in the nested conditions. -/
def usedCond : Json → Json
  | .obj fs => .obj (usedFields fs)
  | j => j
def usedFields : List (String × Json) → List (String × Json)
  | [] => []
  | (k, j) :: fs => if k = "type" then usedFields fs
      else if k = "conditions" ∨ k = "clauses" then (k, usedArr j) :: usedFields fs
      else (k, j) :: usedFields fs
def usedArr : Json → Json
  | .arr js => .arr (usedList js)
  | j => j
def usedList : List Json → List Json
  | [] => []
  | j :: js => usedCond j :: usedList js
end

/-- One key of the argument of `from_serialized_dict` after a call that succeeded
(`configuration_space.py:1039-1077`): the items of the three lists are changed in place. -/
def usedField : String × Json → String × Json
  | (k, .arr js) => if k = "hyperparameters" then (k, .arr (js.map usedHP))
      else if k = "conditions" ∨ k = "forbiddens" then (k, .arr (usedList js)) else (k, .arr js)
  | kv => kv

/-- The argument of `from_serialized_dict` (`configuration_space.py:1003-1079`) after a call that succeeded. -/
def usedDict : Json → Json
  | .obj fs => .obj (fs.map usedField)
  | j => j

end Verif
