import Verif.Model.Serial

/-!
# Serialisation with encoders and decoders of the user (configuration_space.py:952-1079)

`Model/Serial` has the default encoders and decoders built in.  Here they are tables that the user can extend and override, and encoding
and decoding look into the tables.  Encoders and decoders are any functions that get the recursive call as an argument.
-/

set_option autoImplicit false

namespace Verif

/-- `_Encoder` (dictionary.py:46-47): the item and the function for items inside of it. -/
abbrev Encoder (Item : Type) := Item → (Item → Except Err Json) → Except Err Fields

/-- `_Decoder` (dictionary.py:40-44): the space with the hyperparameters, the item without its type, the function for items inside. -/
abbrev Decoder (Item : Type) := Space → Fields → (Json → Except Err Item) → Except Err Item

/-- A dictionary: the last entry of a key counts. -/
def dictGet {K V : Type} [DecidableEq K] (d : List (K × V)) (k : K) : Option V :=
  (d.reverse.find? (fun kv => decide (kv.1 = k))).map Prod.snd

/-- `{**base, **user}` (configuration_space.py:971-976, 1061-1069). -/
def dictMerge {K V : Type} (base user : List (K × V)) : List (K × V) := base ++ user

/-- `{"type": type_name, **encoding}` (configuration_space.py:990): a key `type` of the encoding replaces the name. -/
def tagged (tag : String) (fs : Fields) : Fields := ("type", (fs.lookup "type").getD (.str tag)) :: fs.pop "type"

/-- `enc` (configuration_space.py:978-990), with the number of nested calls that Python allows. -/
def encWith {Ty Item : Type} [DecidableEq Ty] (typeOf : Item → Ty) (t : List (Ty × String × Encoder Item)) :
    Nat → Item → Except Err Json
  | 0, _ => .error .runtimeError
  | n + 1, x => match dictGet t (typeOf x) with
    | none => .error .valueError
    | some (tag, e) => match e x (encWith typeOf t n) with
      | .error e => .error e
      | .ok fs => .ok (.obj (tagged tag fs))

/-- `dec` (configuration_space.py:1031-1054), with the number of nested calls that Python allows. -/
def decWith {Item : Type} (t : List (String × Decoder Item)) (s : Space) : Nat → Json → Except Err Item
  | 0, _ => .error .runtimeError
  | n + 1, .obj fs => match popType fs with
    | .error e => .error e
    | .ok (tag, item) => match dictGet t tag with
      | none => .error .valueError
      | some d => d s item (decWith t s n)
  | _ + 1, _ => .error .typeError

/-- The fields that an encoder gives for an item, from the dictionary with its type. -/
def Json.untyped : Json → Fields
  | .obj fs => Fields.pop fs "type"
  | _ => []

/-! ## Hyperparameters -/

/-- The classes of hyperparameters in the model. -/
inductive HPTy where
  | flt | int | cat | ord | const
deriving DecidableEq, Repr

/-- `type(hp)`. -/
def hpTy (x : HP × Option (List Rat)) : HPTy :=
  match x.1.kind with
  | .flt _ _ => .flt
  | .int _ _ => .int
  | .cat _ => .cat
  | .ord _ => .ord
  | .const _ => .const

/-- A default encoder (dictionary.py:332-453). -/
def hpEncoder : Encoder (HP × Option (List Rat)) := fun x _ => .ok (encHP x.1 x.2).untyped

/-- `HYPERPARAMETER_ENCODERS` (dictionary.py:565-575), without distributions. -/
def hpEncoders : List (HPTy × String × Encoder (HP × Option (List Rat))) :=
  [(.flt, "uniform_float", hpEncoder), (.int, "uniform_int", hpEncoder), (.cat, "categorical", hpEncoder),
   (.ord, "ordinal", hpEncoder), (.const, "constant", hpEncoder)]

/-- `HYPERPARAMETER_DECODERS` (dictionary.py:300-309), without distributions. -/
def hpDecoders : List (String × Decoder (HP × Option (List Rat))) :=
  ["uniform_float", "uniform_int", "categorical", "ordinal", "constant"].map (fun t => (t, fun _ item _ => decHPFields t item))

/-! ## Conditions -/

/-- The classes of conditions. -/
inductive CondTy where
  | bin (op : BOp) | isIn | and | or
deriving DecidableEq, Repr

/-- `type(condition)`. -/
def condTy : Cond → CondTy
  | .lit ⟨_, _, .bin op _ _⟩ => .bin op
  | .lit ⟨_, _, .isIn _ _⟩ => .isIn
  | .and _ => .and
  | .or _ => .or

/-- The encoders of literal conditions (dictionary.py:456-500). -/
def litEncoder : Encoder Cond := fun c _ =>
  match c with
  | .lit l => .ok (encLit l).untyped
  | _ => .error .typeError

/-- `_encode_and_conjuction`, `_encode_or_conjuction` (dictionary.py:503-520). -/
def conjEncoder : Encoder Cond := fun c encode =>
  match c with
  | .lit _ => .error .typeError
  | .and cs => match mapExcept encode cs with
    | .error e => .error e
    | .ok js => .ok [("child", .str (Cond.and cs).childStr), ("conditions", .arr js)]
  | .or cs => match mapExcept encode cs with
    | .error e => .error e
    | .ok js => .ok [("child", .str (Cond.or cs).childStr), ("conditions", .arr js)]

/-- `CONDITION_ENCODERS` (dictionary.py:577-585). -/
def condEncoders : List (CondTy × String × Encoder Cond) :=
  [(.bin .eq, "EQ", litEncoder), (.bin .ne, "NEQ", litEncoder), (.bin .lt, "LT", litEncoder), (.bin .gt, "GT", litEncoder),
   (.isIn, "IN", litEncoder), (.and, "AND", conjEncoder), (.or, "OR", conjEncoder)]

/-- `_decode_and_conjunction`, `_decode_or_conjunction` (dictionary.py:215-230). -/
def conjDecoder (mk : List Cond → Except Err Cond) : Decoder Cond := fun _ item decode =>
  match item.get "conditions" with
  | .error e => .error e
  | .ok (.arr js) => match mapExcept decode js with
    | .error e => .error e
    | .ok cs => mk cs
  | .ok _ => .error .typeError

/-- `CONDITION_DECODERS` (dictionary.py:311-319). -/
def condDecoders : List (String × Decoder Cond) :=
  [("EQ", fun s item _ => decBin s .eq item), ("NEQ", fun s item _ => decBin s .ne item), ("LT", fun s item _ => decBin s .lt item),
   ("GT", fun s item _ => decBin s .gt item), ("IN", fun s item _ => decIn s item), ("AND", conjDecoder mkAnd),
   ("OR", conjDecoder mkOr)]

/-! ## Forbidden clauses -/

/-- The classes of clauses. -/
inductive ForbTy where
  | eq | isIn | and | rel (op : RelOp)
deriving DecidableEq, Repr

/-- `type(clause)`. -/
def forbTy : Forb → ForbTy
  | .eq _ _ _ => .eq
  | .isIn _ _ _ => .isIn
  | .rel op _ _ => .rel op
  | .and _ => .and

/-- The encoders of clauses (dictionary.py:523-562). -/
def forbEncoder : Encoder Forb := fun f encode =>
  match f with
  | .and fs => match mapExcept encode fs with
    | .error e => .error e
    | .ok js => .ok [("clauses", .arr js)]
  | f => .ok (encForb f).untyped

/-- `FORBIDDEN_ENCODERS` (dictionary.py:587-597). -/
def forbEncoders : List (ForbTy × String × Encoder Forb) :=
  [(.eq, "EQUALS", forbEncoder), (.isIn, "IN", forbEncoder), (.and, "AND", forbEncoder), (.rel .lt, "RELATION_LT", forbEncoder),
   (.rel .eq, "RELATION_EQ", forbEncoder), (.rel .gt, "RELATION_GT", forbEncoder)]

/-- `_decode_forbidden_and` (dictionary.py:249-254). -/
def forbAndDecoder : Decoder Forb := fun _ item decode =>
  match item.get "clauses" with
  | .error e => .error e
  | .ok (.arr js) => match mapExcept decode js with
    | .error e => .error e
    | .ok fs => .ok (.and fs)
  | .ok _ => .error .typeError

/-- `FORBIDDEN_DECODERS` (dictionary.py:321-329). -/
def forbDecoders : List (String × Decoder Forb) :=
  [("EQUALS", fun s item _ => decForbEq s item), ("IN", fun s item _ => decForbIn s item), ("AND", forbAndDecoder),
   ("RELATION_LT", fun s item _ => decRel s .lt item), ("RELATION_EQ", fun s item _ => decRel s .eq item),
   ("RELATION_GT", fun s item _ => decRel s .gt item), ("RELATION", fun s item _ => decRelLegacy s item)]

/-! ## Spaces -/

/-- What the user passes as `encoders=` and `decoders=` (configuration_space.py:954, 1007-1013).  The encoders are one dictionary in the
code; its keys are classes, so that it is the same as three. -/
structure Codecs where
  hpE : List (HPTy × String × Encoder (HP × Option (List Rat))) := []
  condE : List (CondTy × String × Encoder Cond) := []
  forbE : List (ForbTy × String × Encoder Forb) := []
  hpD : List (String × Decoder (HP × Option (List Rat))) := []
  condD : List (String × Decoder Cond) := []
  forbD : List (String × Decoder Forb) := []

/-- `to_serialized_dict(encoders=...)` (configuration_space.py:952-1001). -/
def Space.toDictWith (u : Codecs) (n : Nat) (s : Space) (w : Name → Option (List Rat)) (ver : String) : Except Err Json :=
  match mapExcept (encWith hpTy (dictMerge hpEncoders u.hpE) n) (s.com.map (fun x => (x.hp, w x.name))) with
  | .error e => .error e
  | .ok hs => match mapExcept (encWith condTy (dictMerge condEncoders u.condE) n) s.conditions with
    | .error e => .error e
    | .ok cs => match mapExcept (encWith forbTy (dictMerge forbEncoders u.forbE) n) s.forbs with
      | .error e => .error e
      | .ok gs => .ok (.obj [("name", .null), ("hyperparameters", .arr hs), ("conditions", .arr cs), ("forbiddens", .arr gs),
          ("python_module_version", .str ver), ("format_version", .val (.flt (2 / 5)))])

/-- `from_serialized_dict(d, decoders=...)` (configuration_space.py:1003-1079). -/
def fromDictWith (u : Codecs) (n : Nat) : Json → Except Err (Space × List (Name × Option (List Rat)))
  | .obj fs =>
    match listField fs "hyperparameters" with
    | .error e => .error e
    | .ok hs => match listField fs "conditions" with
      | .error e => .error e
      | .ok cs => match listField fs "forbiddens" with
        | .error e => .error e
        | .ok gs => match mapExcept (decWith (dictMerge hpDecoders u.hpD) {} n) hs with
          | .error e => .error e
          | .ok hps => match ({} : Space).add (hps.map Prod.fst) [] [] with
            | (_, some e) => .error e
            | (s1, none) => match mapExcept (decWith (dictMerge condDecoders u.condD) s1 n) cs with
              | .error e => .error e
              | .ok conds => match mapExcept (decWith (dictMerge forbDecoders u.forbD) s1 n) gs with
                | .error e => .error e
                | .ok forbs => match s1.add [] conds forbs with
                  | (_, some e) => .error e
                  | (s2, none) => .ok (s2, hps.map (fun p => (p.1.name, p.2)))
  | _ => .error .typeError

end Verif
