import Verif.Model.Subst

/-!
# Adding a configuration space to another one (configuration_space.py:353-447)
-/

set_option autoImplicit false

namespace Verif

/-- `_new_name` (configuration_space.py:382-391). -/
def newName (pfx delim : String) (n : Name) : Name :=
  if n = "" ∨ n = pfx then pfx
  else if (pfx ++ delim).toList.isPrefixOf n.toList then n
  else pfx ++ delim ++ n

/-- `new_hp = copy.copy(hp); new_hp.name = ...` (configuration_space.py:394-397). -/
def HP.rename (f : Name → Name) (h : HP) : HP := { h with name := f h.name }

/-- Child and parent of a copied literal are renamed (configuration_space.py:407-410). -/
def Lit.rename (f : Name → Name) (l : Lit) : Lit := { l with child := l.child.rename f, parent := l.parent.rename f }

mutual
/-- A copied condition with renamed hyperparameters (configuration_space.py:399-412; conditions.py:152-157, 347-352,
422-423).  Copying calls the constructors again, with arguments they have accepted before. -/
def Cond.rename (f : Name → Name) : Cond → Cond
  | .lit l => .lit (l.rename f)
  | .and cs => .and (Cond.renameL f cs)
  | .or cs => .or (Cond.renameL f cs)
def Cond.renameL (f : Name → Name) : List Cond → List Cond
  | [] => []
  | c :: cs => c.rename f :: Cond.renameL f cs
end

mutual
/-- A copied clause with renamed hyperparameters (configuration_space.py:414-428; forbidden.py:171-172, 253-254,
362-363, 454-455).  Simplification: the copy of an equals or in clause shares the hyperparameter object with the
original clause, so that the renaming also changes the added space; see Model/Alias.lean. -/
def Forb.rename (f : Name → Name) : Forb → Forb
  | .eq h v x => .eq (h.rename f) v x
  | .isIn h vs xs => .isIn (h.rename f) vs xs
  | .rel op l r => .rel op (l.rename f) (r.rename f)
  | .and cs => .and (Forb.renameL f cs)
def Forb.renameL (f : Name → Name) : List Forb → List Forb
  | [] => []
  | c :: cs => c.rename f :: Forb.renameL f cs
end

/-- What is passed to `self.add` (configuration_space.py:393-430). -/
def Space.renamedCall (sub : Space) (f : Name → Name) : Call where
  hps := (sub.com.map Node.hp).map (HP.rename f)
  conds := sub.conditions.map (Cond.rename f)
  forbs := sub.forbs.map (Forb.rename f)

/-- `len(self.parents_of[name]) == 0` (configuration_space.py:440). -/
def Space.isRoot (s : Space) (n : Name) : Bool :=
  match findNode s.com n with
  | some x => x.parents.isEmpty
  | none => false

/-- The conditions on the parent hyperparameter (configuration_space.py:432-443). -/
def guards (s : Space) (hps : List HP) (parent : HP) (value : Val) : Except Err (List Cond) :=
  mapExcept (fun h => match mkBin .eq h parent value with
    | .error e => .error e
    | .ok l => .ok (Cond.lit l)) (hps.filter (fun h => s.isRoot h.name))

/-- `add_configuration_space` (configuration_space.py:353-447). -/
def Space.addSpace (s : Space) (pfx : String) (sub : Space) (delim : String := ":")
    (parent : Option (HP × Val) := none) : Space × Option Err :=
  let k := sub.renamedCall (newName pfx delim)
  match s.add k.hps k.conds k.forbs with
  | (s1, some e) => (s1, some e)
  | (s1, none) => match parent with
    | none => (s1, none)
    | some (p, v) => match guards s1 k.hps p v with
      | .error e => (s1, some e)
      | .ok cs => if cs.isEmpty then (s1, none) else s1.add [] cs []

end Verif
