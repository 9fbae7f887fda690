import Verif.Model.Space
import Verif.Model.F64

/-!
# Spaces in double precision

`Model/Space.lean` computes vectors with exact numbers.  Here the functions that touch vectors are written once more
with the arithmetic of `Model/F64.lean`, in which every operation is rounded.

A number `q` of the model (a bound, a value, a choice of a condition) stands for a literal of the program.  Python turns
it into the double `rd q`; numbers that are doubles already stay as they are.  What does not depend on vectors (names,
layout, depths, groups of conditions, classes of clauses) is read off the space of `Model/Space.lean`: `DAG` never looks
at the vector values that conditions store.  The one place that does, the merging of clauses, is written once more.

Simplified: only linear ranges, as in `Model/Hyper.lean`; choices and constants are compared as they are.
-/

set_option autoImplicit false

namespace Verif.F64
open Verif

instance (a : Rat) : Decidable (F64.closeToInt a) := inferInstanceAs (Decidable (_ ≤ _))

instance (l u : Int) (a : Rat) : Decidable (F64.legalInt l u a) := inferInstanceAs (Decidable (_ ∧ _ ∧ _))

instance (l u : Int) (a : Rat) : Decidable (F64.legalVecSingle l u a) := inferInstanceAs (Decidable (_ ∧ _ ∧ _))

/-! ## Hyperparameters -/

/-- `Hyperparameter.legal_value` on a single value (hyperparameters/hp_components.py:223-226, 391-403, 534-535). -/
def legalValue64 : Kind → Val → Bool
  | .int l u, v => match v.num? with
    | none => false
    | some q => decide (F64.legalInt l u (rd q))
  | .flt l u, v => match v.num? with
    | none => false
    | some q => decide (rd l ≤ rd q) && decide (rd q ≤ rd u)
  | k, v => k.legalValue v

/-- `Hyperparameter.to_vector` on a single value (hyperparameters/hyperparameter.py:374-393,
hp_components.py:195-202, 337-344, 509-513). -/
def toVec64 : Kind → Val → Option Rat
  | .int l u, v => v.num?.map (fun q => normalize (rd q) (rd (l : Rat)) (rd (u : Rat)))
  | .flt l u, v => v.num?.map (fun q => toVecFlt (rd l) (rd u) (rd q))
  | k, v => k.toVec v

/-- `Hyperparameter.to_value` on a single entry (hyperparameters/hyperparameter.py:342-362,
hp_components.py:172-192, 300-311, 516-523). -/
def toVal64 : Kind → Rat → Option Val
  | .int l u, x => some (.int (toValInt l u x))
  | .flt l u, x => some (.flt (toValFlt (rd l) (rd u) x))
  | k, x => k.toVal x

/-- `legal_vector_single` (hyperparameters/hp_components.py:229-234, 406-416, 538-539). -/
def legalVec64 : Kind → Rat → Bool
  | .int l u, x => decide (legalVecSingle l u x)
  | k, x => k.legalVec x

/-- `_normalized_default_value` (hyperparameters/hyperparameter.py:138). -/
def defVec64 (h : HP) : Rat := (toVec64 h.kind h.default).getD 0

/-! ## Conditions -/

/-- The vector values that a condition stores (conditions.py:139, 338): those of its values, in double precision. -/
def test64 (k : Kind) : Test → Test
  | .bin op v _ => .bin op v ((toVec64 k v).getD 0)
  | .isIn vs _ => .isIn vs (vs.filterMap (toVec64 k))

mutual
/-- The condition as it is built in double precision (conditions.py:139, 338). -/
def cond64 : Cond → Cond
  | .lit l => .lit { l with test := test64 l.parent.kind l.test }
  | .and cs => .and (cond64L cs)
  | .or cs => .or (cond64L cs)
def cond64L : List Cond → List Cond
  | [] => []
  | c :: cs => cond64 c :: cond64L cs
end

/-! ## Clauses -/

mutual
/-- The clause as it is built in double precision (forbidden.py:351, 434). -/
def forb64 : Forb → Forb
  | .eq h v _ => .eq h v ((toVec64 h.kind v).getD 0)
  | .isIn h vs _ => .isIn h vs (vs.filterMap (toVec64 h.kind))
  | .rel op l r => .rel op l r
  | .and cs => .and (forb64L cs)
def forb64L : List Forb → List Forb
  | [] => []
  | c :: cs => forb64 c :: forb64L cs
end

/-- A relation on two vector entries (forbidden.py:613-619, 684-690, 755-761). -/
def rel64 (op : RelOp) (left right : HP) (a b : NV) : Bool :=
  match a, b with
  | some x, some y => match toVal64 left.kind x, toVal64 right.kind y with
    | some u, some w => op.onVals u w
    | _, _ => false
  | _, _ => false

mutual
/-- `is_forbidden_vector` (forbidden.py:372-373, 462-463, 538-541, 613-619, 684-690, 755-761). -/
def onVec64 (idx : Name → Nat) (v : Vec) : Forb → Bool
  | .eq h _ x => match v.at (idx h.name) with | some q => decide (q = x) | none => false
  | .isIn h _ xs => match v.at (idx h.name) with | some q => decide (q ∈ xs) | none => false
  | .rel op l r => rel64 op l r (v.at (idx l.name)) (v.at (idx r.name))
  | .and cs => onVecAll64 idx v cs
def onVecAll64 (idx : Name → Nat) (v : Vec) : List Forb → Bool
  | [] => true
  | c :: cs => onVec64 idx v c && onVecAll64 idx v cs
end

/-- `ForbiddenInClause(hp, values)` (forbidden.py:417-434). -/
def mkForbIn64 (hp : HP) (values : List Val) : Except Err Forb :=
  if values.all (legalValue64 hp.kind) then .ok (.isIn hp values (values.filterMap (toVec64 hp.kind)))
  else .error .valueError

/-- The clause built for a group (_condition_tree.py:860-874). -/
def optEmit64 (g : OptGroup) : Except Err Forb :=
  let firsts := g.firsts.map (fun p => Forb.eq p.hp p.value p.vval)
  match g.lasts with
  | [l] => .ok (.and (firsts ++ [.eq l.hp l.value l.vval]))
  | [] => .error .indexError
  | l :: ls => do
    let c ← mkForbIn64 l.hp ((l :: ls).map (fun p => p.value))
    .ok (.and (firsts ++ [c]))

/-- `_optimized_forbiddens` (_condition_tree.py:821-876). -/
def optimizedForbs64 (idx : Name → Nat) (fs : List Forb) : Except Err (List Forb) :=
  let rest := fs.filter (fun f => f.eqConj?.isNone)
  let parts := (fs.filterMap Forb.eqConj?).map
    (sortBy (fun a b => decide (idx a.hp.name ≤ idx b.hp.name)))
  match optGroups parts [] with
  | .error e => .error e
  | .ok gs => match mapExcept (fun g => optEmit64 g.2) gs with
    | .error e => .error e
    | .ok cs => .ok (rest ++ cs)

/-- The merged clauses of a committed space (_condition_tree.py:533).  The error is for spaces that no commit makes. -/
def fast64 (s : Space) : List Forb :=
  match optimizedForbs64 s.idx (s.forbs.map forb64) with
  | .ok fs => fs
  | .error _ => []

/-! ## Checking vectors -/

/-- `legal_vector_single` of a child's transformer (util.py:594-599). -/
def legalAt64 (s : Space) (v : Vec) (n : Name) : Bool :=
  match s.hp? n, v.at (s.idx n) with
  | some h, some q => legalVec64 h.kind q
  | _, _ => false

/-- The loop over `minimum_conditions` in `check_configuration` (util.py:583-607). -/
def checkConds64 (s : Space) (v : Vec) (allow : Bool) : List CNode → Option Err
  | [] => none
  | c :: cs =>
    if (cond64 c.cond).satVec s.idx v then
      match firstWith (fun e => !isSet e) s v c.kids with
      | some n => some (.activeNotSet n)
      | none => match c.kids.find? (fun n => !legalAt64 s v n) with
        | some n => some (.illegalVector n)
        | none => checkConds64 s v allow cs
    else if allow then checkConds64 s v allow cs
    else match firstWith isSet s v c.kids with
      | some n => match s.hp? n, v.at (s.idx n) with
        | some h, some q => match toVal64 h.kind q with
          | some _ => some (.inactiveSet n)
          | none => some .valueError
        | _, _ => some (.inactiveSet n)
      | none => checkConds64 s v allow cs

/-- `check_configuration` (util.py:570-614). -/
def check64 (s : Space) (v : Vec) (allow : Bool := false) : Option Err :=
  match firstWith (fun e => !isSet e) s v s.dag.roots with
  | some n => some (.activeNotSet n)
  | none => match checkConds64 s v allow s.minConds with
    | some e => some e
    | none => if (fast64 s).any (fun f => onVec64 s.idx v f) then some .forbidden else none

/-- `get_active_hyperparameters` (configuration_space.py:492-533) for one node. -/
def isActive64 (s : Space) (v : Vec) (x : Node) : Bool :=
  match x.cond with
  | none => true
  | some c =>
    if c.parents.any (fun p => !isSet (v.at (s.idx p))) then false else (cond64 c).satVec s.idx v

/-- `get_active_hyperparameters` (configuration_space.py:492-533). -/
def activeNames64 (s : Space) (v : Vec) : List Name := (s.com.filter (isActive64 s v)).map Node.name

/-- The loop of `_check_configuration_rigorous` (configuration_space.py:925-941). -/
def rigorousLoop64 (s : Space) (v : Vec) (allow : Bool) : List Node → Option Err
  | [] => none
  | x :: xs =>
    let e := v.at (s.idx x.name)
    let act := decide (x.name ∈ activeNames64 s v)
    if isSet e && !(match e with | some q => legalVec64 x.hp.kind q | none => false) then
      some (.illegalVector x.name)
    else if act && !isSet e then some (.activeNotSet x.name)
    else if !allow && !act && isSet e then some (.inactiveSet x.name)
    else rigorousLoop64 s v allow xs

/-- `_check_configuration_rigorous` (configuration_space.py:917-951). -/
def checkRigorous64 (s : Space) (v : Vec) (allow : Bool := false) : Option Err :=
  match rigorousLoop64 s v allow s.dag.nodes with
  | some e => some e
  | none => if s.forbs.any (fun f => onVec64 s.idx v (forb64 f)) then some .forbidden else none

/-! ## Configurations -/

/-- Rounding of float values (configuration.py:120-121, 233-234). -/
def roundVal64 (k : Kind) (v : Val) : Val :=
  if k.isFloat then match v.num? with
    | some q => .flt (round13 (rd q))
    | none => v
  else v

/-- The loop over the hyperparameters in `Configuration(values=...)` (configuration.py:108-124). -/
def fillValues64 (s : Space) (d : Dict) : List Node → Vec → List (Name × Val) →
    Except Err (Vec × List (Name × Val))
  | [], v, vals => .ok (v, vals)
  | x :: xs, v, vals =>
    match d.lookup x.name with
    | none => fillValues64 s d xs (v.set (s.idx x.name) none) vals
    | some none => fillValues64 s d xs (v.set (s.idx x.name) none) vals
    | some (some w) =>
      if !legalValue64 x.hp.kind w then .error (.illegalValue x.name)
      else
        let w' := roundVal64 x.hp.kind w
        match toVec64 x.hp.kind w' with
        | none => .error .keyError
        | some q => fillValues64 s d xs (v.set (s.idx x.name) (some q)) (vals ++ [(x.name, w')])

/-- `Configuration(space, values=d)` (configuration.py:97-126). -/
def ofValues64 (s : Space) (d : Dict) (allow : Bool := false) : Except Err Config :=
  if d.any (fun kv => decide (kv.1 ∉ s.dag.nodes.map Node.name) && kv.1 != "") then .error .valueError
  else match fillValues64 s d s.dag.nodes (List.replicate s.len none) [] with
    | .error e => .error e
    | .ok (v, vals) => match check64 s v allow with
      | some e => .error e
      | none => .ok { vec := v, vals := some vals, allow := allow }

/-- Set the children of a condition node to NaN, or the NaN children to their defaults (util.py:631-642). -/
def applyCNode64 (s : Space) (v : Vec) (c : CNode) : Vec :=
  if (cond64 c.cond).satVec s.idx v then
    c.kids.foldl (fun acc n => if isSet (v.at (s.idx n)) then acc
      else acc.set (s.idx n) (some ((s.com.map (fun x => defVec64 x.hp)).getD (s.idx n) 0))) v
  else c.kids.foldl (fun acc n => acc.set (s.idx n) none) v

/-- `change_hp_value` (util.py:617-644). -/
def changeHp64 (s : Space) (v : Vec) (n : Name) (x : Rat) (i : Nat) : Vec :=
  ((s.lookup.lookup n).getD []).foldl
    (fun acc j => match s.minConds[j]? with
      | some c => applyCNode64 s acc c
      | none => acc) (v.set i (some x))

/-- `Configuration.__setitem__` (configuration.py:186-210). -/
def setItem64 (s : Space) (c : Config) (n : Name) (w : Val) : Config × Option Err :=
  match findNode s.dag.nodes n with
  | none => (c, some .keyError)
  | some x =>
    if !legalValue64 x.hp.kind w then (c, some (.illegalValue n))
    else match toVec64 x.hp.kind w with
      | none => (c, some .keyError)
      | some q =>
        let v := changeHp64 s c.vec n q (s.idx n)
        match check64 s v false with
        | some e => (c, some e)
        | none => ({ c with vec := v, vals := none }, none)

/-- `Configuration.__getitem__` (configuration.py:212-240). -/
def getItem64 (s : Space) (c : Config) (n : Name) : Except Err Val × Config :=
  match (c.vals.getD []).lookup n with
  | some w => (.ok w, c)
  | none => match findNode s.dag.nodes n with
    | none => (.error .keyError, c)
    | some x => match c.vec.at (s.idx n) with
      | none => (.error .keyError, c)
      | some q => match toVal64 x.hp.kind q with
        | none => (.error .valueError, c)
        | some w =>
          let w' := roundVal64 x.hp.kind w
          (.ok w', { c with vals := some (dictSet (c.vals.getD []) n w') })

end Verif.F64
