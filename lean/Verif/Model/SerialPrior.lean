import Verif.Model.Prior
import Verif.Model.Serial

/-!
# Dictionaries of numerical hyperparameters with their distributions, scales and meta data; `Hyperparameter.copy`

`read_and_write/dictionary.py` for the six numerical classes, and `hyperparameters/hyperparameter.py` (`copy`).
-/

set_option autoImplicit false

namespace Verif

/-- The `type` of a numerical hyperparameter (dictionary.py:565-571). -/
def numTag (k : Kind) (p : Prior) : String :=
  match k, p with
  | .int _ _, .uniform => "uniform_int"
  | .int _ _, .normal _ _ => "normal_int"
  | .int _ _, .beta _ _ => "beta_int"
  | _, .uniform => "uniform_float"
  | _, .normal _ _ => "normal_float"
  | _, .beta _ _ => "beta_float"

/-- The parameters of the distribution: `"mu"`, `"sigma"`, `"alpha"`, `"beta"` (dictionary.py:366-367, 382-383, 398-399, 414-415). -/
def encPrior : Prior → Fields
  | .uniform => []
  | .normal mu sigma => [("mu", .val (.flt mu)), ("sigma", .val (.flt sigma))]
  | .beta alpha beta => [("alpha", .val (.flt alpha)), ("beta", .val (.flt beta))]

/-- Bounds and default: `float(...)` or `int(...)` of the attributes. -/
def encBounds (h : HP) : Fields :=
  match h.kind with
  | .int l u => [("lower", .val (.int l)), ("upper", .val (.int u)), ("default_value", .val (.int (trunc (h.default.num?.getD 0))))]
  | .flt l u => [("lower", .val (.flt l)), ("upper", .val (.flt u)), ("default_value", .val (.flt (h.default.num?.getD 0)))]
  | _ => []

/-- `_encode_uniform_float`, `_encode_uniform_int`, `_encode_normal_int`, `_encode_normal_float`, `_encode_beta_int`,
`_encode_beta_float` (dictionary.py:330-420), with the `type` that `enc` puts in front (configuration_space.py:990-992).  `md` is
the meta data of the hyperparameter. -/
def encNum (r : NumHP) (md : Json) : Json :=
  .obj ([("type", .str (numTag r.hp.kind r.prior)), ("name", .str r.hp.name)] ++ encPrior r.prior ++ encBounds r.hp ++
    [("log", .bool r.log), ("meta", md)])

/-- `log=...`: missing is `False`.  Simplification: everything that is not a boolean is rejected. -/
def asBool (d : Bool) : Option Json → Except Err Bool
  | none => .ok d
  | some (.bool b) => .ok b
  | some _ => .error .typeError

/-- `_decode_uniform_float` and its likes (dictionary.py:66-117): the item without its type goes to the constructor as keyword
arguments.  The meta data are kept as they are. -/
noncomputable def decNumFields (t : String) (item : Fields) : Except Err (NumHP × Json) := do
  let fs := compat item
  let params := if t = "normal_int" ∨ t = "normal_float" then ["mu", "sigma"]
    else if t = "beta_int" ∨ t = "beta_float" then ["alpha", "beta"] else []
  if t ∉ ["uniform_float", "uniform_int", "normal_int", "normal_float", "beta_int", "beta_float"] then .error .valueError
  else if !(kwargs fs (["name"] ++ params ++ ["lower", "upper"]) ["default_value", "log", "meta"]) then .error .typeError
  else
    let n ← asStr (fs.lookup "name")
    let l ← asNum (fs.lookup "lower")
    let u ← asNum (fs.lookup "upper")
    let d ← asNum? (fs.lookup "default_value")
    let log ← asBool false (fs.lookup "log")
    let md := (fs.lookup "meta").getD .null
    let ps ← mapExcept (fun k => asNum (fs.lookup k)) params
    let r ← (match t, ps with
      | "uniform_int", [] => mkUniformInt n l u d log
      | "uniform_float", [] => mkUniformFlt n l u d log
      | "normal_int", [mu, sigma] => mkNormalInt n mu sigma l u d log
      | "normal_float", [mu, sigma] => mkNormalFlt n mu sigma l u d log
      | "beta_int", [a, b] => mkBetaInt n a b l u d log
      | "beta_float", [a, b] => mkBetaFlt n a b l u d log
      | _, _ => .error .typeError)
    .ok (r, md)

/-- `hp_decoder` (configuration_space.py:1034-1050) for the numerical classes. -/
noncomputable def decNum : Json → Except Err (NumHP × Json)
  | .obj fs => match popType fs with
    | .error e => .error e
    | .ok (t, item) => decNumFields t item
  | _ => .error .typeError

/-! ## `Hyperparameter.copy` -/

/-- The classes of hyperparameters. -/
inductive HPClass where
  | uniformFloat | uniformInteger | normalFloat | normalInteger | betaFloat | betaInteger | categorical | ordinal | constant
deriving DecidableEq

/-- The keyword arguments of the constructors. -/
def HPClass.initArgs : HPClass → List String
  -- hyperparameters/uniform_float.py:64-72, uniform_integer.py:67-75
  | .uniformFloat | .uniformInteger => ["name", "lower", "upper", "default_value", "log", "meta"]
  -- hyperparameters/normal_float.py:68-78, normal_integer.py:70-80
  | .normalFloat | .normalInteger => ["name", "mu", "sigma", "lower", "upper", "default_value", "log", "meta"]
  -- hyperparameters/beta_float.py:68-78, beta_integer.py:70-80
  | .betaFloat | .betaInteger => ["name", "alpha", "beta", "lower", "upper", "default_value", "log", "meta"]
  -- hyperparameters/categorical.py:133-140
  | .categorical => ["name", "choices", "default_value", "meta", "weights"]
  -- hyperparameters/ordinal.py:56-62
  | .ordinal => ["name", "sequence", "default_value", "meta"]
  -- hyperparameters/constant.py:50-55
  | .constant => ["name", "value", "meta"]

/-- The dataclass fields with `init=True`: those of `Hyperparameter` (hyperparameters/hyperparameter.py:47-73), of
`NumericalHyperparameter` (hyperparameter.py:714-719) and of the class.  `init=True` is the default of `field`. -/
def HPClass.initFields (c : HPClass) : List String :=
  let base := ["name", "default_value", "meta", "_vector_dist", "_normalized_default_value", "_transformer", "_neighborhood",
    "_value_cast", "_neighborhood_size"]
  base ++ match c with
  | .uniformFloat | .uniformInteger => ["lower", "upper", "log"]
  | .normalFloat | .normalInteger => ["lower", "upper", "log", "mu", "sigma"]
  | .betaFloat => ["lower", "upper", "log", "alpha", "beta"]
  | .betaInteger => ["lower", "upper", "log", "alpha", "beta", "size"]
  | .categorical => ["size", "choices", "weights", "probabilities", "_contains_sequence_as_value"]
  | .ordinal => ["sequence", "_contains_sequence_as_value"]
  | .constant => ["size", "value", "_contains_sequence_as_value"]

/-- The dataclass fields with `init=False`: `size` of most classes (hyperparameters/uniform_float.py:61, ordinal.py:50, ...). -/
def HPClass.otherFields : HPClass → List String
  | .betaInteger | .categorical | .constant => []
  | _ => ["size"]

/-- `Hyperparameter.copy(**kwargs)` (hyperparameters/hyperparameter.py:527-540): `dataclasses.replace` raises `ValueError` for fields
with `init=False`, adds all other fields to the keyword arguments, and calls the class with them; a keyword that the constructor
does not know raises `TypeError`.  The result is the keywords of a call that the constructor accepts. -/
def HPClass.copy (c : HPClass) (changes : List String) : Except Err (List String) :=
  if changes.any (fun k => decide (k ∈ c.otherFields)) then .error .valueError
  else
    let passed := changes ++ c.initFields.filter (fun k => decide (k ∉ changes))
    if passed.all (fun k => decide (k ∈ c.initArgs)) then .ok passed else .error .typeError

end Verif
