import Verif.Model.Sample

/-!
# Forbidden clauses that raise

`Model/Forb.lean` says that a relation between values that cannot be compared does not forbid anything.  In the code such a relation
raises `TypeError`, and an entry that cannot be decoded raises `ValueError` or `IndexError`.  Here the functions that evaluate clauses
are written once more with these exceptions: `check_configuration`, `Configuration(values=...)`, `add` and sampling.
-/

set_option autoImplicit false

namespace Verif

/-- `TransformerSeq.to_value` on one entry that is close to an integer (hyperparameters/hp_components.py:172-192). -/
def choiceAt (cs : List Val) (x : Rat) : Except Err Val :=
  match Kind.pyIndex cs (rint x) with
  | some v => .ok v
  | none => .error .indexError

/-- `Hyperparameter.to_value` on a single entry with its exceptions (hyperparameters/hyperparameter.py:342-362,
hp_components.py:172-192, 300-311, 516-523). -/
def Kind.toValE : Kind → Rat → Except Err Val
  | .cat cs, x => if closeToInt x then choiceAt cs x else .error .valueError
  | .ord cs, x => if closeToInt x then choiceAt cs x else .error .valueError
  | .const c, _ => .ok c
  | .int l u, x => .ok (.int (rint (scaleQ x l u)))
  | .flt l u, x => .ok (.flt (clipQ (scaleQ x l u) l u))

/-- `Hyperparameter.to_value` on an array: all entries are tested before one is looked up (hp_components.py:172-192). -/
def Kind.toValArrE (k : Kind) (xs : List Rat) : Except Err (List Val) :=
  match k with
  | .cat cs => if xs.all closeToInt then xs.mapM (choiceAt cs) else .error .valueError
  | .ord cs => if xs.all closeToInt then xs.mapM (choiceAt cs) else .error .valueError
  | k => xs.mapM k.toValE

/-- `left < right`, `left == right`, `left > right` (forbidden.py:610, 619, 681, 690, 752, 761). -/
def RelOp.onValsE : RelOp → Val → Val → Except Err Bool
  | .lt, a, b => match a.lt? b with | some r => .ok r | none => .error .typeError
  | .eq, a, b => .ok (a.pyEq b)
  | .gt, a, b => match b.lt? a with | some r => .ok r | none => .error .typeError

/-- A relation on two vector entries (forbidden.py:613-619, 684-690, 755-761). -/
def relOnEntriesE (op : RelOp) (left right : HP) (a b : NV) : Except Err Bool :=
  match a, b with
  | some x, some y => do
    let u ← left.kind.toValE x
    let w ← right.kind.toValE y
    op.onValsE u w
  | _, _ => .ok false

mutual
/-- `is_forbidden_vector` (forbidden.py:372-373, 462-463, 538-541, 613-619, 684-690, 755-761); `all` stops at the first component that
does not hold. -/
def Forb.onVecE (idx : Name → Nat) (v : Vec) : Forb → Except Err Bool
  | .eq h _ x => .ok (match v.at (idx h.name) with | some q => decide (q = x) | none => false)
  | .isIn h _ xs => .ok (match v.at (idx h.name) with | some q => decide (q ∈ xs) | none => false)
  | .rel op l r => relOnEntriesE op l r (v.at (idx l.name)) (v.at (idx r.name))
  | .and cs => Forb.onVecAllE idx v cs
def Forb.onVecAllE (idx : Name → Nat) (v : Vec) : List Forb → Except Err Bool
  | [] => .ok true
  | c :: cs => do if ← c.onVecE idx v then Forb.onVecAllE idx v cs else .ok false
end

/-- The element type of the arrays that `to_value` returns: numbers, texts, or objects.  An array of choices has texts if all choices
are texts, numbers if all are numbers, objects otherwise (hyperparameters/categorical.py:250-267, ordinal.py:92-109); the array of a
constant has objects (hp_components.py:516-523). -/
inductive ElemType where
  | number
  | text
  | object
deriving DecidableEq, Repr

@[inherit_doc ElemType]
def choicesType (cs : List Val) : ElemType :=
  if cs.all (fun v => v.num?.isNone) then .text else if cs.all (fun v => v.num?.isSome) then .number else .object

@[inherit_doc ElemType]
def Kind.elemType : Kind → ElemType
  | .cat cs => choicesType cs
  | .ord cs => choicesType cs
  | .const _ => .object
  | .int _ _ => .number
  | .flt _ _ => .number

/-- Comparison of two arrays (forbidden.py:627, 699, 769): numpy has no order between an array of numbers and one of texts, not even for
empty arrays; arrays of objects are compared element by element. -/
def cmpArrays (op : RelOp) (left right : ElemType) (us ws : List Val) : Except Err (List Bool) :=
  if op ≠ .eq ∧ (left = .number ∧ right = .text ∨ left = .text ∧ right = .number) then .error .typeError
  else (us.zip ws).mapM (fun p => op.onValsE p.1 p.2)

/-- `out[valid] = result` for an array `out` of `False` (forbidden.py:625-627). -/
def scatter : List Bool → List Bool → List Bool
  | [], _ => []
  | false :: valid, rs => false :: scatter valid rs
  | true :: valid, r :: rs => r :: scatter valid rs
  | true :: valid, [] => false :: scatter valid []

/-- A relation on two rows (forbidden.py:622-628, 693-700, 764-770). -/
def relOnRowsE (op : RelOp) (left right : HP) (xs ys : List NV) : Except Err (List Bool) := do
  let pairs := xs.zip ys
  let valid := pairs.map (fun p => isSet p.1 && isSet p.2)
  let kept := pairs.filterMap (fun p => match p.1, p.2 with | some x, some y => some (x, y) | _, _ => none)
  let us ← left.kind.toValArrE (kept.map Prod.fst)
  let ws ← right.kind.toValArrE (kept.map Prod.snd)
  let rs ← cmpArrays op left.kind.elemType right.kind.elemType us ws
  .ok (scatter valid rs)

mutual
/-- `is_forbidden_vector_array` on a matrix with `w` columns (forbidden.py:376-377, 466-467, 544-549, 622-628, 693-700, 764-770): every
component of a conjunction is evaluated. -/
def Forb.onArrE (idx : Name → Nat) (w : Nat) (m : Mat) : Forb → Except Err (List Bool)
  | .eq h _ x => .ok ((m.row (idx h.name)).map (fun e => match e with | some q => decide (q = x) | none => false))
  | .isIn h _ xs => .ok ((m.row (idx h.name)).map (fun e => match e with | some q => decide (q ∈ xs) | none => false))
  | .rel op l r => relOnRowsE op l r (m.row (idx l.name)) (m.row (idx r.name))
  | .and cs => Forb.onArrAllE idx w m (List.replicate w true) cs
def Forb.onArrAllE (idx : Name → Nat) (w : Nat) (m : Mat) (acc : List Bool) : List Forb → Except Err (List Bool)
  | [] => .ok acc
  | c :: cs => do
    let r ← c.onArrE idx w m
    Forb.onArrAllE idx w m (List.zipWith (· && ·) acc r) cs
end

/-- The loop over the clauses at the end of `check_configuration` and `_check_configuration_rigorous` (util.py:609-614,
configuration_space.py:945-951). -/
def clausesE (s : Space) (v : Vec) : List Forb → Option Err
  | [] => none
  | f :: fs => match f.onVecE s.idx v with
    | .error e => some e
    | .ok true => some .forbidden
    | .ok false => clausesE s v fs

/-- `check_configuration` (util.py:570-614). -/
def Space.checkE (s : Space) (v : Vec) (allow : Bool := false) : Option Err :=
  match firstWith (fun e => !isSet e) s v s.dag.roots with
  | some n => some (.activeNotSet n)
  | none => match checkConds s v allow s.minConds with
    | some e => some e
    | none => clausesE s v s.fast

/-- `_check_configuration_rigorous` (configuration_space.py:917-951). -/
def Space.checkRigorousE (s : Space) (v : Vec) (allow : Bool := false) : Option Err :=
  match rigorousLoop s v allow s.dag.nodes with
  | some e => some e
  | none => clausesE s v s.forbs

/-- `Configuration(space, values=d)` (configuration.py:97-126). -/
def Config.ofValuesE (s : Space) (d : Dict) (allow : Bool := false) : Except Err Config :=
  if d.any (fun kv => decide (kv.1 ∉ s.dag.nodes.map Node.name) && kv.1 != "") then .error .valueError
  else match fillValues s d s.dag.nodes (List.replicate s.len none) [] with
    | .error e => .error e
    | .ok (v, vals) => match s.checkE v allow with
      | some e => .error e
      | none => .ok { vec := v, vals := some vals, allow := allow }

/-- `_check_default_configuration`, `get_default_configuration` (configuration_space.py:889-915). -/
def Space.defaultConfigE (s : Space) : Except Err Config :=
  match defaultValues s.dag.nodes [] with
  | .error e => .error e
  | .ok d => Config.ofValuesE s d

/-- `ConfigurationSpace.add` (configuration_space.py:289-351). -/
def Space.addE (s : Space) (hps : List HP) (cs : List Cond) (fs : List Forb) : Space × Option Err :=
  match s.dag.addAll hps cs fs with
  | (g, some e) => ({ s with dag := g }, some e)
  | (g, none) => match s.commit g with
    | (s', some e) => (s', some e)
    | (s', none) =>
      let s'' := { s' with len := s'.dag.nodes.length }
      match s''.defaultConfigE with
      | .error e => (s'', some e)
      | .ok _ => (s'', none)

/-- `ReachE calls s`: `s` is the space after a history of successful calls of `add`. -/
inductive ReachE : List Call → Space → Prop where
  | nil : ReachE [] {}
  | snoc {calls : List Call} {s s' : Space} {c : Call} : ReachE calls s → c.wf →
      s.addE c.hps c.conds c.forbs = (s', none) → ReachE (calls ++ [c]) s'

/-- `mask |= clause.is_forbidden_vector_array(matrix)` for every clause (configuration_space.py:614-616, 626-628). -/
def forbMaskE (s : Space) (w : Nat) (m : Mat) (fs : List Forb) : Except Err (List Bool) :=
  fs.foldlM (fun acc f => do
    let r ← f.onArrE s.idx w m
    .ok (List.zipWith (· || ·) acc r)) (List.replicate w false)

/-- One batch of sampling (configuration_space.py:611-634). -/
def Space.sampleBatchE (s : Space) (w : Nat) (m : Mat) : Except Err (List Vec) := do
  let keep1 := (← forbMaskE s w m s.dag.uncond).map not
  let m1 := m.keepCols keep1
  let w1 := numTrue keep1
  let m2 := s.minConds.foldl (fun m c => maskKids s m c (c.cond.satArr s.idx w1 m)) m1
  let keep2 := (← forbMaskE s w1 m2 s.dag.condF).map not
  .ok (Mat.cols (numTrue keep2) (m2.keepCols keep2))

/-- The `while` loop of `sample_configuration` (configuration_space.py:589-635); `none` if it does not end within `fuel` batches. -/
def Space.sampleLoopE (s : Space) (rng : Nat → Nat → Mat) (size : Nat) :
    Nat → Nat → Nat → List Vec → Except Err (Option (List Vec))
  | 0, _, _, acc => .ok (if size ≤ acc.length then some acc else none)
  | fuel + 1, b, need, acc =>
    if size ≤ acc.length then .ok (some acc)
    else do
      let w := s.batchWidth need
      let new ← s.sampleBatchE w (rng b w)
      let acc' := acc ++ new
      s.sampleLoopE rng size fuel (b + 1) (size - acc'.length) acc'

/-- `sample_configuration` (configuration_space.py:545-637); `size` is an `int` or `None`. -/
def Space.sampleConfigurationE (s : Space) (rng : Nat → Nat → Mat) (fuel : Nat) (size : Option Int) :
    Except Err (Option Sampled) :=
  if s.len = 0 then
    match size with
    | none => .ok (some (.one { vec := [] }))
    | some n => .ok (some (.many (List.replicate n.toNat { vec := [] })))
  else
    let n := size.getD 1
    if n < 1 then .ok (some (.many []))
    else do
      match ← s.sampleLoopE rng n.toNat fuel 0 n.toNat [] with
      | none => .ok none
      | some acc =>
        if n ≤ 1 then .ok (acc.head?.map (fun v => .one { vec := v }))
        else .ok (some (.many ((acc.take n.toNat).map (fun v => { vec := v }))))

end Verif
