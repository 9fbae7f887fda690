import Verif.Model.Cond

/-!
# Forbidden clauses (forbidden.py)
-/

set_option autoImplicit false

namespace Verif

/-- `ForbiddenLessThanRelation` (forbidden.py:559), `ForbiddenEqualsRelation` (631),
`ForbiddenGreaterThanRelation` (703). -/
inductive RelOp where
  | lt | eq | gt
deriving DecidableEq, Repr

/-- `ForbiddenLike`: equals clause (forbidden.py:305), in clause (388), relation (126),
and-conjunction (478). `vval`/`vvals` are the precomputed vector values (forbidden.py:351, 434). -/
inductive Forb where
  | eq (hp : HP) (value : Val) (vval : Rat)
  | isIn (hp : HP) (values : List Val) (vvals : List Rat)
  | rel (op : RelOp) (left right : HP)
  | and (cs : List Forb)
deriving Repr

/-- `ForbiddenEqualsClause(hp, value)` (forbidden.py:333-351). -/
def mkForbEq (hp : HP) (value : Val) : Except Err Forb :=
  if !hp.kind.legalValue value then .error .valueError
  else match hp.kind.toVec value with
    | some x => .ok (.eq hp value x)
    | none => .error .keyError

/-- `ForbiddenInClause(hp, values)` (forbidden.py:417-434). -/
def mkForbIn (hp : HP) (values : List Val) : Except Err Forb :=
  if values.all hp.kind.legalValue then .ok (.isIn hp values (values.filterMap hp.kind.toVec))
  else .error .valueError

mutual
/-- Descendant literal clauses (forbidden.py:242-251; removal of repeated objects elided). -/
def Forb.dlcs : Forb → List Forb
  | .and cs => Forb.dlcsL cs
  | f => [f]
def Forb.dlcsL : List Forb → List Forb
  | [] => []
  | c :: cs => c.dlcs ++ Forb.dlcsL cs
end

mutual
/-- Names of the hyperparameters that the clause mentions. -/
def Forb.names : Forb → List Name
  | .eq h _ _ => [h.name]
  | .isIn h _ _ => [h.name]
  | .rel _ l r => [l.name, r.name]
  | .and cs => Forb.namesL cs
def Forb.namesL : List Forb → List Name
  | [] => []
  | c :: cs => c.names ++ Forb.namesL cs
end

/-- Comparison of two decoded values in a relation (forbidden.py:619, 690, 761).  The `TypeError`
for values that cannot be ordered is modelled as "not forbidden" (simplification: the model only
speaks about relations between comparable hyperparameters). -/
def RelOp.onVals : RelOp → Val → Val → Bool
  | .lt, a, b => a.lt? b == some true
  | .eq, a, b => a.pyEq b
  | .gt, a, b => b.lt? a == some true

/-- A relation on two vector entries: NaN on either side makes it false, otherwise the decoded
values are compared (forbidden.py:613-619, 684-690, 755-761). -/
def relOnEntries (op : RelOp) (left right : HP) (a b : NV) : Bool :=
  match a, b with
  | some x, some y => match left.kind.toVal x, right.kind.toVal y with
    | some u, some w => op.onVals u w
    | _, _ => false
  | _, _ => false

mutual
/-- `is_forbidden_vector` (forbidden.py:372-373, 462-463, 538-541, 613-619, 684-690, 755-761). -/
def Forb.onVec (idx : Name → Nat) (v : Vec) : Forb → Bool
  | .eq h _ x => match v.at (idx h.name) with | some q => decide (q = x) | none => false
  | .isIn h _ xs => match v.at (idx h.name) with | some q => decide (q ∈ xs) | none => false
  | .rel op l r => relOnEntries op l r (v.at (idx l.name)) (v.at (idx r.name))
  | .and cs => Forb.onVecAll idx v cs
def Forb.onVecAll (idx : Name → Nat) (v : Vec) : List Forb → Bool
  | [] => true
  | c :: cs => c.onVec idx v && Forb.onVecAll idx v cs
end

mutual
/-- `is_forbidden_vector_array` on a matrix with `w` columns (forbidden.py:376-377, 466-467,
544-549, 622-628, 693-700, 764-770). -/
def Forb.onArr (idx : Name → Nat) (w : Nat) (m : Mat) : Forb → List Bool
  | .eq h _ x => (m.row (idx h.name)).map
      (fun e => match e with | some q => decide (q = x) | none => false)
  | .isIn h _ xs => (m.row (idx h.name)).map
      (fun e => match e with | some q => decide (q ∈ xs) | none => false)
  | .rel op l r => List.zipWith (relOnEntries op l r) (m.row (idx l.name)) (m.row (idx r.name))
  | .and cs => Forb.onArrAll idx w m (List.replicate w true) cs
def Forb.onArrAll (idx : Name → Nat) (w : Nat) (m : Mat) (acc : List Bool) :
    List Forb → List Bool
  | [] => acc
  | c :: cs => Forb.onArrAll idx w m (List.zipWith (· && ·) acc (c.onArr idx w m)) cs
end

/-- `values.get(name, _SENTINEL)` (forbidden.py:45, 368): `none` when the key is missing. -/
def Dict.get? (d : List (Name × Val)) (n : Name) : Option Val := d.lookup n

mutual
/-- `is_forbidden_value` (forbidden.py:366-369, 458-459, 530-535, 600-610, 672-681, 743-752) on a
dictionary of set values. -/
def Forb.onVal (d : List (Name × Val)) : Forb → Bool
  | .eq h v _ => match Dict.get? d h.name with | some w => w.pyEq v | none => false
  | .isIn h vs _ => match Dict.get? d h.name with | some w => w.pyIn vs | none => false
  | .rel op l r => match Dict.get? d l.name, Dict.get? d r.name with
    | some a, some b => op.onVals a b
    | _, _ => false
  | .and cs => Forb.onValAll d cs
def Forb.onValAll (d : List (Name × Val)) : List Forb → Bool
  | [] => true
  | c :: cs => c.onVal d && Forb.onValAll d cs
end

mutual
/-- Built by the constructors: legal values with their vector values. -/
def Forb.wf : Forb → Bool
  | .eq h v x => h.wf && h.kind.legalValue v && decide (h.kind.toVec v = some x)
  | .isIn h vs xs => h.wf && vs.all h.kind.legalValue && decide (xs = vs.filterMap h.kind.toVec)
  | .rel _ l r => l.wf && r.wf
  | .and cs => Forb.wfL cs
def Forb.wfL : List Forb → Bool
  | [] => true
  | c :: cs => c.wf && Forb.wfL cs
end

end Verif
