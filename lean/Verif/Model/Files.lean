import Verif.Model.Serial

/-!
# Files (`to_json`, `from_json`, `to_yaml`, `from_yaml`; configuration_space.py:1081-1210)

`Model/Serial` does not tell lists from tuples.  Files do: JSON has only lists, and YAML writes a tuple with a tag that the
safe loader does not know.  Here the dictionary of a space is made again with that difference, and written and read back.

The text of JSON files is in `Model/JsonText`; here is only what the loader makes of the text that the dumper wrote (`json` of the standard
library, PyYAML).  Both give back `None`, booleans, numbers and texts as they were.
-/

set_option autoImplicit false

namespace Verif.Files

/-- The two kinds of collections of values that occur in serialised dictionaries. -/
inductive SeqKind where
  | list
  | tuple
deriving DecidableEq, Repr

/-- What serialised dictionaries are made of, with lists and tuples told apart. -/
inductive Doc where
  | none
  | bool (b : Bool)
  | val (v : Val)
  | seq (k : SeqKind) (items : List Doc)
  | dict (fields : List (String × Doc))
deriving Repr

mutual
/-- A dictionary as the decoders see it: they take lists and tuples alike (dictionary.py:121-145, 203-212, 233-238). -/
def Doc.data : Doc → Json
  | .none => .null
  | .bool b => .bool b
  | .val v => .val v
  | .seq _ ds => .arr (Doc.dataL ds)
  | .dict fs => .obj (Doc.dataF fs)
def Doc.dataL : List Doc → List Json
  | [] => []
  | d :: ds => d.data :: Doc.dataL ds
def Doc.dataF : List (String × Doc) → List (String × Json)
  | [] => []
  | (k, d) :: fs => (k, d.data) :: Doc.dataF fs
end

mutual
/-- A dictionary all of whose collections are lists. -/
def Doc.ofJson : Json → Doc
  | .null => .none
  | .bool b => .bool b
  | .val v => .val v
  | .arr js => .seq .list (Doc.ofJsonL js)
  | .obj fs => .dict (Doc.ofJsonF fs)
def Doc.ofJsonL : List Json → List Doc
  | [] => []
  | j :: js => Doc.ofJson j :: Doc.ofJsonL js
def Doc.ofJsonF : List (String × Json) → List (String × Doc)
  | [] => []
  | (k, j) :: fs => (k, Doc.ofJson j) :: Doc.ofJsonF fs
end

/-! ## Encoding -/

/-- The encoding of a hyperparameter (dictionary.py:332-453): choices, sequences and weights are turned into lists. -/
def docHP (h : HP) (w : Option (List Rat)) : Doc := .ofJson (encHP h w)

/-- The encoding of a literal condition (dictionary.py:456-500).  An `InCondition` keeps the collection that it was given
(conditions.py:337) and that collection is written (dictionary.py:499); `k` says what it is.  Simplification: lists and tuples
only, and two conditions that do not differ otherwise have collections of one kind. -/
def docLit (k : Lit → SeqKind) (l : Lit) : Doc :=
  match l.test with
  | .bin _ _ _ => .ofJson (encLit l)
  | .isIn vs _ => .dict [("type", .val (.str "IN")), ("child", .val (.str l.child.name)), ("parent", .val (.str l.parent.name)),
      ("values", .seq (k l) (vs.map Doc.val))]

mutual
/-- The encoding of a condition (dictionary.py:456-520). -/
def docCond (k : Lit → SeqKind) : Cond → Doc
  | .lit l => docLit k l
  | .and cs => .dict [("type", .val (.str "AND")), ("child", .val (.str (Cond.and cs).childStr)),
      ("conditions", .seq .list (docConds k cs))]
  | .or cs => .dict [("type", .val (.str "OR")), ("child", .val (.str (Cond.or cs).childStr)),
      ("conditions", .seq .list (docConds k cs))]
def docConds (k : Lit → SeqKind) : List Cond → List Doc
  | [] => []
  | c :: cs => docCond k c :: docConds k cs
end

mutual
/-- The encoding of a clause (dictionary.py:523-563).  A `ForbiddenInClause` makes its values a tuple (forbidden.py:425), which
is written as it is (dictionary.py:534). -/
def docForb : Forb → Doc
  | .eq h v x => .ofJson (encForb (.eq h v x))
  | .isIn h vs _ => .dict [("type", .val (.str "IN")), ("name", .val (.str h.name)), ("values", .seq .tuple (vs.map Doc.val))]
  | .rel op l r => .ofJson (encForb (.rel op l r))
  | .and fs => .dict [("type", .val (.str "AND")), ("clauses", .seq .list (docForbs fs))]
def docForbs : List Forb → List Doc
  | [] => []
  | f :: fs => docForb f :: docForbs fs
end

/-- `to_serialized_dict` (configuration_space.py:952-1001), as in `Space.toDict`. -/
def toDoc (s : Space) (k : Lit → SeqKind) (w : Name → Option (List Rat)) (ver : String) : Doc :=
  .dict [("name", .none),
    ("hyperparameters", .seq .list (s.com.map (fun x => docHP x.hp (w x.name)))),
    ("conditions", .seq .list (docConds k s.conditions)),
    ("forbiddens", .seq .list (docForbs s.forbs)),
    ("python_module_version", .val (.str ver)), ("format_version", .val (.flt (2 / 5)))]

/-! ## Files -/

mutual
/-- What `json.load` makes of what `json.dump` wrote (configuration_space.py:1081-1143): every collection is a list. -/
def Doc.viaJson : Doc → Doc
  | .none => .none
  | .bool b => .bool b
  | .val v => .val v
  | .seq _ ds => .seq .list (Doc.viaJsonL ds)
  | .dict fs => .dict (Doc.viaJsonF fs)
def Doc.viaJsonL : List Doc → List Doc
  | [] => []
  | d :: ds => d.viaJson :: Doc.viaJsonL ds
def Doc.viaJsonF : List (String × Doc) → List (String × Doc)
  | [] => []
  | (k, d) :: fs => (k, d.viaJson) :: Doc.viaJsonF fs
end

mutual
/-- A tuple occurs somewhere. -/
def Doc.hasTuple : Doc → Bool
  | .seq k ds => decide (k = .tuple) || Doc.hasTupleL ds
  | .dict fs => Doc.hasTupleF fs
  | _ => false
def Doc.hasTupleL : List Doc → Bool
  | [] => false
  | d :: ds => d.hasTuple || Doc.hasTupleL ds
def Doc.hasTupleF : List (String × Doc) → Bool
  | [] => false
  | (_, d) :: fs => d.hasTuple || Doc.hasTupleF fs
end

mutual
/-- Every dictionary with its keys in order, as `yaml.dump` writes them unless it is called with `sort_keys=False`. -/
def Doc.sorted : Doc → Doc
  | .none => .none
  | .bool b => .bool b
  | .val v => .val v
  | .seq k ds => .seq k (Doc.sortedL ds)
  | .dict fs => .dict (sortBy (fun a b => decide (a.1 ≤ b.1)) (Doc.sortedF fs))
def Doc.sortedL : List Doc → List Doc
  | [] => []
  | d :: ds => d.sorted :: Doc.sortedL ds
def Doc.sortedF : List (String × Doc) → List (String × Doc)
  | [] => []
  | (k, d) :: fs => (k, d.sorted) :: Doc.sortedF fs
end

/-- How loading a file can fail: the YAML loader meets a tag that it does not know, or the dictionary cannot be decoded. -/
inductive LoadErr where
  | constructorError
  | decode (e : Err)
deriving DecidableEq, Repr

/-- What `yaml.safe_load` makes of what `yaml.dump` wrote (configuration_space.py:1145-1210).  The dumper writes a tuple with
the tag `!!python/tuple`; the safe loader raises `ConstructorError` when it meets that tag. -/
def Doc.viaYaml (d : Doc) : Except LoadErr Doc :=
  if d.hasTuple then .error .constructorError else .ok d.sorted

/-- `from_serialized_dict` (configuration_space.py:1003-1079). -/
def fromDoc (d : Doc) : Except Err (Space × List (Name × Option (List Rat))) := fromDict d.data

/-- `to_json` into a file and `from_json` from that file. -/
def throughJson (s : Space) (k : Lit → SeqKind) (w : Name → Option (List Rat)) (ver : String) :
    Except LoadErr (Space × List (Name × Option (List Rat))) :=
  match fromDoc (toDoc s k w ver).viaJson with
  | .ok r => .ok r
  | .error e => .error (.decode e)

/-- `to_yaml` into a file and `from_yaml` from that file. -/
def throughYaml (s : Space) (k : Lit → SeqKind) (w : Name → Option (List Rat)) (ver : String) :
    Except LoadErr (Space × List (Name × Option (List Rat))) :=
  match (toDoc s k w ver).viaYaml with
  | .error e => .error e
  | .ok d => match fromDoc d with
    | .ok r => .ok r
    | .error e => .error (.decode e)

/-! ## Conditions with their collection -/

/-- An `InCondition` together with the kind of its collection. -/
structure InCond where
  lit : Lit
  kind : SeqKind

/-- `Condition.__eq__` (conditions.py:76-83): `self.value == other.value` is `False` for a list and a tuple. -/
def InCond.pyEq (a b : InCond) : Bool := a.lit.pyEq b.lit && decide (a.kind = b.kind)

/-- `_decode_in_condition_condition` (dictionary.py:203-212), with the collection that the condition keeps. -/
def decInCond (s : Space) (d : Doc) : Except Err InCond :=
  match d with
  | .dict fs => match decCond s (Doc.dict fs).data with
    | .error e => .error e
    | .ok (.lit l) => match fs.lookup "values" with
      | some (.seq k _) => .ok ⟨l, k⟩
      | _ => .error .typeError
    | .ok _ => .error .typeError
  | _ => .error .typeError

end Verif.Files
