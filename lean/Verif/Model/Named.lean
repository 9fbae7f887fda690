import Verif.Model.Serial
import Verif.Model.SpaceEq

/-!
# Name and meta data of a space

The rest of the model leaves out the name of a space and the meta data that the user gives for it.  Here they are kept beside the
space.  `M` is the type of the meta data.
-/

set_option autoImplicit false

namespace Verif

/-- `ConfigurationSpace` with `name` and `meta` (configuration_space.py:189-200).  Simplification: the name is a text or `None`; a
mapping or a sequence in its place is taken for the argument `space` by the code (configuration_space.py:190-192). -/
structure NSpace (M : Type) where
  name : Option String
  info : Option M
  space : FSpace

/-- `ConfigurationSpace(name=..., meta=...)` without hyperparameters (configuration_space.py:189-200). -/
def NSpace.empty {M : Type} (name : Option String) (info : Option M) : NSpace M := ⟨name, info, {}⟩

/-- `add` changes neither name nor meta data (configuration_space.py:288-350). -/
def NSpace.add {M : Type} (n : NSpace M) (k : Call) : NSpace M × Option Err :=
  let r := n.space.add k
  (⟨n.name, n.info, r.1⟩, r.2)

/-- `__eq__` (configuration_space.py:820-835): all attributes but the random state. -/
def NSpace.eq {M : Type} [DecidableEq M] (a b : NSpace M) : Bool :=
  decide (a.name = b.name) && decide (a.info = b.info) && a.space.eq b.space

/-- The entry `name` of the dictionary (configuration_space.py:995). -/
def nameJson : Option String → Json
  | none => .null
  | some t => .str t

/-- `to_serialized_dict` (configuration_space.py:994-1001): the name is written, the meta data are not. -/
def NSpace.toDict {M : Type} (n : NSpace M) (w : Name → Option (List Rat)) (ver : String) : Json :=
  .obj [("name", nameJson n.name),
    ("hyperparameters", .arr (n.space.space.com.map (fun x => encHP x.hp (w x.name)))),
    ("conditions", .arr (encConds n.space.space.conditions)),
    ("forbiddens", .arr (encForbs n.space.space.forbs)),
    ("python_module_version", .str ver), ("format_version", .val (.flt (2 / 5)))]

/-- `d.get("name")` (configuration_space.py:1056). -/
def readName (fs : Fields) : Except Err (Option String) :=
  match fs.lookup "name" with
  | none => .ok none
  | some .null => .ok none
  | some (.val (.str t)) => .ok (some t)
  | some _ => .error .typeError

/-- `from_serialized_dict` (configuration_space.py:1056-1079): name and meta data, and the space. -/
def readNamed (M : Type) : Json → Except Err (Option String × Option M × Space)
  | .obj fs => match readName fs with
    | .error e => .error e
    | .ok n => match fromDict (.obj fs) with
      | .error e => .error e
      | .ok r => .ok (n, none, r.1)
  | _ => .error .typeError

/-- `remove_hyperparameter_priors` (configuration_space.py:656-674): the new space is made without name and meta data. -/
def NSpace.removePriors {M : Type} (n : NSpace M) : Except Err (Option String × Option M × Space) :=
  match n.space.space.removePriors with
  | .error e => .error e
  | .ok s => .ok (none, none, s)

end Verif
