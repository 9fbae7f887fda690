import Verif.Model.Hyper

/-!
# Conditions (conditions.py)

Vector indices (`parent_vector_id`), which the code stores in the condition objects at every commit
(`set_vector_idx`, conditions.py:67-74, 429-436), are passed as the index map `idx`.
-/

set_option autoImplicit false

namespace Verif

/-- The operators of `BinaryOpCondition`: Equals (conditions.py:187), NotEquals (214),
LessThan (243), GreaterThan (272). -/
inductive BOp where
  | eq | ne | lt | gt
deriving DecidableEq, Repr

/-- What a literal condition tests: `BinaryOpCondition` with `value` and precomputed `vector_value`
(conditions.py:139), or `InCondition` with `values` and `vector_values` (conditions.py:337-338). -/
inductive Test where
  | bin (op : BOp) (value : Val) (vval : Rat)
  | isIn (values : List Val) (vvals : List Rat)
deriving DecidableEq, Repr

/-- A literal `Condition` (conditions.py:48-65). -/
structure Lit where
  child : HP
  parent : HP
  test : Test
deriving DecidableEq, Repr

/-- `ConditionLike`: a literal condition, an `AndConjunction` or an `OrConjunction`. -/
inductive Cond where
  | lit (l : Lit)
  | and (cs : List Cond)
  | or (cs : List Cond)
deriving Repr

/-! ## Construction -/

/-- Construction of a literal condition: child and parent must differ (conditions.py:53-57), the parent must be
orderable for `<`/`>` (conditions.py:126-131) and the value legal (conditions.py:132-137). -/
def mkBin (op : BOp) (child parent : HP) (value : Val) : Except Err Lit :=
  if child.pyEq parent then .error .valueError
  else if (op == .lt || op == .gt) && !parent.kind.orderable then .error .valueError
  else if !parent.kind.legalValue value then .error .valueError
  else match parent.kind.toVec value with
    | none => .error .keyError
    | some x => .ok { child, parent, test := .bin op value x }

/-- Construction of an `InCondition` (conditions.py:322-338). -/
def mkIn (child parent : HP) (values : List Val) : Except Err Lit :=
  if child.pyEq parent then .error .valueError
  else if values.all parent.kind.legalValue then
    .ok { child, parent, test := .isIn values (values.filterMap parent.kind.toVec) }
  else .error .valueError

mutual
/-- Descendant literal conditions (conditions.py:388-397).  Simplification: the removal of repeated
*objects* (`unique_everseen` by `id`) is elided; everything done per element is idempotent. -/
def Cond.dlcs : Cond → List Lit
  | .lit l => [l]
  | .and cs => Cond.dlcsL cs
  | .or cs => Cond.dlcsL cs
/-- `dlcs` of a list of components. -/
def Cond.dlcsL : List Cond → List Lit
  | [] => []
  | c :: cs => c.dlcs ++ Cond.dlcsL cs
end

/-- `condition.child` (conditions.py:404: child of the first descendant literal). -/
def Cond.child? (c : Cond) : Option HP := c.dlcs.head?.map Lit.child

/-- Names of the parents, in order (`_condition_tree.py:109-113, 690-694`). -/
def Cond.parents (c : Cond) : List Name := c.dlcs.map (fun l => l.parent.name)

/-- `all_equal(children)` (conditions.py:400-402). -/
def sameChild (ls : List Lit) : Bool :=
  match ls with
  | [] => true
  | l :: ls => ls.all (fun m => m.child.pyEq l.child)

/-- `AndConjunction(*args)` (conditions.py:521-523, 376-407). -/
def mkAnd (cs : List Cond) : Except Err Cond :=
  if cs.length < 2 then .error .valueError
  else if sameChild (Cond.dlcsL cs) then .ok (.and cs) else .error .valueError

/-- `OrConjunction(*args)` (conditions.py:587-589, 376-407). -/
def mkOr (cs : List Cond) : Except Err Cond :=
  if cs.length < 2 then .error .valueError
  else if sameChild (Cond.dlcsL cs) then .ok (.or cs) else .error .valueError

/-! ## Evaluation on one vector -/

/-- The test of a literal on one vector entry: IEEE comparison, so NaN makes `==`, `<`, `>`, `in`
false and `!=` true (conditions.py:159-161, 354-355). -/
def Test.onEntry : Test → NV → Bool
  | .bin .eq _ x, e => match e with | some q => decide (q = x) | none => false
  | .bin .ne _ x, e => match e with | some q => decide (q ≠ x) | none => true
  | .bin .lt _ x, e => match e with | some q => decide (q < x) | none => false
  | .bin .gt _ x, e => match e with | some q => decide (x < q) | none => false
  | .isIn _ xs, e => match e with | some q => decide (q ∈ xs) | none => false

/-- `vector[i]` of a one dimensional array; indices are in range in every committed space. -/
def Vec.at (v : Vec) (i : Nat) : NV := v.getD i none

mutual
/-- `satisfied_by_vector` (conditions.py:159-161, 354-355, 538-543, 604-605). -/
def Cond.satVec (idx : Name → Nat) (v : Vec) : Cond → Bool
  | .lit l => l.test.onEntry (v.at (idx l.parent.name))
  | .and cs => Cond.satVecAll idx v cs
  | .or cs => Cond.satVecAny idx v cs
def Cond.satVecAll (idx : Name → Nat) (v : Vec) : List Cond → Bool
  | [] => true
  | c :: cs => c.satVec idx v && Cond.satVecAll idx v cs
def Cond.satVecAny (idx : Name → Nat) (v : Vec) : List Cond → Bool
  | [] => false
  | c :: cs => c.satVec idx v || Cond.satVecAny idx v cs
end

/-! ## Evaluation on a matrix (rows = hyperparameters, columns = samples) -/

/-- A matrix as the list of its rows. -/
abbrev Mat := List (List NV)

/-- `arr[i]`: one row. -/
def Mat.row (m : Mat) (i : Nat) : List NV := m.getD i []

mutual
/-- `satisfied_by_vector_array` on a matrix with `w` columns (conditions.py:163-165, 357-359, 545-550,
607-612): vectorised comparison of a row, and `&=` / `|=` folds starting from ones / zeros. -/
def Cond.satArr (idx : Name → Nat) (w : Nat) (m : Mat) : Cond → List Bool
  | .lit l => (m.row (idx l.parent.name)).map l.test.onEntry
  | .and cs => Cond.satArrAll idx w m (List.replicate w true) cs
  | .or cs => Cond.satArrAny idx w m (List.replicate w false) cs
def Cond.satArrAll (idx : Name → Nat) (w : Nat) (m : Mat) (acc : List Bool) : List Cond → List Bool
  | [] => acc
  | c :: cs => Cond.satArrAll idx w m (List.zipWith (· && ·) acc (c.satArr idx w m)) cs
def Cond.satArrAny (idx : Name → Nat) (w : Nat) (m : Mat) (acc : List Bool) : List Cond → List Bool
  | [] => acc
  | c :: cs => Cond.satArrAny idx w m (List.zipWith (· || ·) acc (c.satArr idx w m)) cs
end

/-! ## Evaluation on values -/

/-- A dictionary of values; `none` as an entry is the sentinel `NotSet` (types.py). -/
abbrev Dict := List (Name × Option Val)

/-- `values[name]`; a missing key raises `KeyError`. -/
def Dict.get (d : Dict) (n : Name) : Except Err (Option Val) :=
  match d.lookup n with
  | some v => .ok v
  | none => .error .keyError

/-- `_OP` / `_VECTOR_OP` on numbers. -/
def BOp.onRat : BOp → Rat → Rat → Bool
  | .eq, a, b => decide (a = b)
  | .ne, a, b => decide (a ≠ b)
  | .lt, a, b => decide (a < b)
  | .gt, a, b => decide (b < a)

/-- `_OP` on values: Python comparison, `TypeError` for an order comparison of a string with a
number (conditions.py:173). -/
def BOp.onVal : BOp → Val → Val → Except Err Bool
  | .eq, a, b => .ok (a.pyEq b)
  | .ne, a, b => .ok (!(a.pyEq b))
  | .lt, a, b => match a.lt? b with | some r => .ok r | none => .error .typeError
  | .gt, a, b => match b.lt? a with | some r => .ok r | none => .error .typeError

/-- `satisfied_by_value` of a literal (conditions.py:167-176, 361-365). -/
def Lit.satVal (l : Lit) (d : Dict) : Except Err Bool := do
  match ← d.get l.parent.name with
  | none => .ok false
  | some v =>
    match l.test with
    | .bin op value vval =>
      if l.parent.kind.isOrdinal then
        match l.parent.kind.toVec v with
        | some x => .ok (op.onRat x vval)
        | none => .error .keyError
      else op.onVal v value
    | .isIn values _ => .ok (v.pyIn values)

mutual
/-- `satisfied_by_value` (conditions.py:167-176, 361-365, 535-536, 601-602); `all` and `any` stop at
the first deciding component, so later components are not evaluated and cannot raise. -/
def Cond.satVal (d : Dict) : Cond → Except Err Bool
  | .lit l => l.satVal d
  | .and cs => Cond.satValAll d cs
  | .or cs => Cond.satValAny d cs
def Cond.satValAll (d : Dict) : List Cond → Except Err Bool
  | [] => .ok true
  | c :: cs => do if ← c.satVal d then Cond.satValAll d cs else .ok false
def Cond.satValAny (d : Dict) : List Cond → Except Err Bool
  | [] => .ok false
  | c :: cs => do if ← c.satVal d then .ok true else Cond.satValAny d cs
end

/-! ## Equality and equivalence -/

/-- Same class and `self.value == other.value` (conditions.py:76-89; for `InCondition` the value is
the list of values, conditions.py:328). -/
def Test.pyEq : Test → Test → Bool
  | .bin o v _, .bin o' v' _ => decide (o = o') && v.pyEq v'
  | .isIn vs _, .isIn vs' _ => valsEq vs vs'
  | _, _ => false

/-- `Condition.__eq__` (conditions.py:76-83). -/
def Lit.pyEq (a b : Lit) : Bool :=
  a.child.pyEq b.child && a.parent.pyEq b.parent && a.test.pyEq b.test

/-- `Condition.equivalent_condition_on_parent` (conditions.py:85-89). -/
def Lit.equivOnParent (a b : Lit) : Bool :=
  a.parent.pyEq b.parent && a.test.pyEq b.test

mutual
/-- `Condition.__eq__` / `Conjunction.__eq__` (conditions.py:76-83, 409-420). -/
def Cond.pyEq : Cond → Cond → Bool
  | .lit a, .lit b => a.pyEq b
  | .and cs, .and ds => decide (cs.length = ds.length) && Cond.allIn cs ds
      && ds.all (fun d => Cond.anyEq cs d)
  | .or cs, .or ds => decide (cs.length = ds.length) && Cond.allIn cs ds
      && ds.all (fun d => Cond.anyEq cs d)
  | _, _ => false
/-- `all(c in ds for c in cs)` -/
def Cond.allIn : List Cond → List Cond → Bool
  | [], _ => true
  | c :: cs, ds => ds.any (fun d => c.pyEq d) && Cond.allIn cs ds
/-- `d in cs` -/
def Cond.anyEq : List Cond → Cond → Bool
  | [], _ => false
  | c :: cs, d => c.pyEq d || Cond.anyEq cs d
end

mutual
/-- `equivalent_condition_on_parent` (conditions.py:85-89, 460-473).  Note that for conjunctions only
"is a Conjunction with as many components" is compared, not And against Or. -/
def Cond.equivOnParent : Cond → Cond → Bool
  | .lit a, .lit b => a.equivOnParent b
  | .and cs, .and ds => decide (cs.length = ds.length) && Cond.allEquiv cs ds
  | .and cs, .or ds => decide (cs.length = ds.length) && Cond.allEquiv cs ds
  | .or cs, .and ds => decide (cs.length = ds.length) && Cond.allEquiv cs ds
  | .or cs, .or ds => decide (cs.length = ds.length) && Cond.allEquiv cs ds
  | _, _ => false
def Cond.allEquiv : List Cond → List Cond → Bool
  | [], _ => true
  | c :: cs, ds => ds.any (fun d => c.equivOnParent d) && Cond.allEquiv cs ds
end

/-! ## Well-formed conditions: what the constructors guarantee -/

/-- The precomputed vector values are those of the (legal) values; child and parent differ. -/
def Lit.wf (l : Lit) : Bool :=
  !(l.child.pyEq l.parent) && l.child.wf && l.parent.wf &&
  match l.test with
  | .bin op v x => l.parent.kind.legalValue v && decide (l.parent.kind.toVec v = some x)
      && (!(op == .lt || op == .gt) || l.parent.kind.orderable)
  | .isIn vs xs => vs.all l.parent.kind.legalValue && decide (xs = vs.filterMap l.parent.kind.toVec)

mutual
/-- Built by the constructors: literals are well formed, conjunctions have at least two
components. -/
def Cond.wf0 : Cond → Bool
  | .lit l => l.wf
  | .and cs => decide (2 ≤ cs.length) && Cond.wf0L cs
  | .or cs => decide (2 ≤ cs.length) && Cond.wf0L cs
def Cond.wf0L : List Cond → Bool
  | [] => true
  | c :: cs => c.wf0 && Cond.wf0L cs
end

/-- Well-formed condition: built by the constructors, all literals about the same child. -/
def Cond.wf (c : Cond) : Bool := c.wf0 && sameChild c.dlcs

end Verif
