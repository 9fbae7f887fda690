import Verif.Model.Space
import Verif.Model.Construct

/-!
# Substitution of hyperparameters, and removal of priors (configuration_space.py:647-674, 701-818)
-/

set_option autoImplicit false

namespace Verif

/-- `BinaryOpCondition._OP_STR` (conditions.py:210, 237, 266, 295). -/
def BOp.render : BOp → String
  | .eq => "=="
  | .ne => "!="
  | .lt => "<"
  | .gt => ">"

/-- `str` of a literal condition (conditions.py:149-150, 340-345).  The rendering of float values differs from
Python's; no theorem depends on it. -/
def Lit.render (l : Lit) : String :=
  l.child.name ++ " | " ++ l.parent.name ++ (match l.test with
    | .bin op v _ => " " ++ op.render ++ " " ++ v.render
    | .isIn vs _ => " in {" ++ ", ".intercalate (vs.map Val.render) ++ "}")

mutual
/-- `str(condition)` (conditions.py:149-150, 340-345, 525-533, 591-599). -/
def Cond.render : Cond → String
  | .lit l => l.render
  | .and cs => "(" ++ Cond.renderL " && " cs ++ ")"
  | .or cs => "(" ++ Cond.renderL " || " cs ++ ")"
def Cond.renderL (sep : String) : List Cond → String
  | [] => ""
  | [c] => c.render
  | c :: cs => c.render ++ (sep ++ Cond.renderL sep cs)
end

/-- `unique_everseen(items, key=key)`: the first item of each key. -/
def uniqueBy {α : Type} (key : α → String) : List String → List α → List α
  | _, [] => []
  | seen, x :: xs => if key x ∈ seen then uniqueBy key seen xs else x :: uniqueBy key (key x :: seen) xs

/-- `space.conditions` (configuration_space.py:221-223; _condition_tree.py:557-563): the conditions of the nodes in
order, without those that print like an earlier one. -/
def Space.conditions (s : Space) : List Cond := uniqueBy Cond.render [] (s.com.filterMap Node.cond)

/-- `new_configspace[name]` (configuration_space.py:873-874): `KeyError` for an unknown name. -/
def Space.getHP (s : Space) (n : Name) : Except Err HP :=
  match s.hp? n with
  | some h => .ok h
  | none => .error .keyError

/-- A literal condition in `substitute_hyperparameters_in_conditions` (configuration_space.py:739-748): parent and
child are looked up in this order, the constructor is called with the old value. -/
def substLit (s : Space) (l : Lit) : Except Err Lit :=
  match s.getHP l.parent.name with
  | .error e => .error e
  | .ok p => match s.getHP l.child.name with
    | .error e => .error e
    | .ok c => match l.test with
      | .bin op v _ => mkBin op c p v
      | .isIn vs _ => mkIn c p vs

/-- The literals in a list of conditions, as conditions. -/
def substLits (s : Space) (ls : List Lit) : Except Err (List Cond) :=
  mapExcept (fun l => match substLit s l with
    | .error e => .error e
    | .ok m => .ok (Cond.lit m)) ls

/-- `substitute_hyperparameters_in_conditions` on one condition (configuration_space.py:725-753): a conjunction is
rebuilt, with its outermost type, from all its *descendant* literals.  Repeated literal objects are removed by the
code (`dlcs`), not by the model. -/
def substCond (s : Space) : Cond → Except Err Cond
  | .lit l => match substLit s l with
    | .error e => .error e
    | .ok m => .ok (.lit m)
  | .and cs => match substLits s (Cond.dlcsL cs) with
    | .error e => .error e
    | .ok ds => mkAnd ds
  | .or cs => match substLits s (Cond.dlcsL cs) with
    | .error e => .error e
    | .ok ds => mkOr ds

/-- `substitute_hyperparameters_in_conditions` (configuration_space.py:701-755). -/
def substConds (s : Space) (cs : List Cond) : Except Err (List Cond) := mapExcept (substCond s) cs

mutual
/-- `substitute_hyperparameters_in_forbiddens` on one clause (configuration_space.py:778-815). -/
def substForb (s : Space) : Forb → Except Err Forb
  | .eq h v _ => match s.getHP h.name with
    | .error e => .error e
    | .ok g => mkForbEq g v
  | .isIn h vs _ => match s.getHP h.name with
    | .error e => .error e
    | .ok g => mkForbIn g vs
  | .rel op l r => match s.getHP l.name with
    | .error e => .error e
    | .ok l' => match s.getHP r.name with
      | .error e => .error e
      | .ok r' => .ok (.rel op l' r')
  | .and cs => match substForbs s cs with
    | .error e => .error e
    | .ok ds => .ok (.and ds)
/-- `substitute_hyperparameters_in_forbiddens` (configuration_space.py:757-817). -/
def substForbs (s : Space) : List Forb → Except Err (List Forb)
  | [] => .ok []
  | f :: fs => match substForb s f with
    | .error e => .error e
    | .ok g => match substForbs s fs with
      | .error e => .error e
      | .ok gs => .ok (g :: gs)
end

/-- `to_uniform` of numerical and categorical hyperparameters (hyperparameters/hyperparameter.py:741-780,
categorical.py:293-301), a copy of the others: the constructor is called with the name, the range or choices, and the
default, without weights.  In the model only uniform hyperparameters are members of spaces; distributions with priors
have the same range, legality and transformation (C49), so this is the data they keep. -/
def HP.toUniform (h : HP) : Except Err HP :=
  match h.kind with
  | .cat cs => mkCat h.name cs (some h.default) none
  | .int l u => mkInt h.name (l : Rat) (u : Rat) h.default.num?
  | .flt l u => mkFlt h.name l u h.default.num?
  | _ => .ok h

/-- `remove_hyperparameter_priors` (configuration_space.py:647-674). -/
def Space.removePriors (s : Space) : Except Err Space :=
  match mapExcept HP.toUniform (s.com.map Node.hp) with
  | .error e => .error e
  | .ok hps => match ({} : Space).add hps [] [] with
    | (_, some e) => .error e
    | (s1, none) => match substConds s1 s.conditions with
      | .error e => .error e
      | .ok cs => match substForbs s1 s.forbs with
        | .error e => .error e
        | .ok fs => match s1.add [] cs fs with
          | (_, some e) => .error e
          | (s2, none) => .ok s2

end Verif
