import Verif.Model.Sample

/-!
# Spaces over any arithmetic

`Model/Space.lean` and `Model/Sample.lean` compute with exact numbers, `Model/F64Space.lean` with doubles on linear scales,
`Model/Scaled.lean` with real numbers on logarithmic scales.  Here the functions that read or write vectors are written for an
arbitrary type of entries and arbitrary conversions between values and entries.  A theorem about them holds whatever `log`, `exp`,
rounding and the scales do, in particular for the doubles of the program on every scale and for every distribution.

What does not depend on vectors (names, layout, depths, groups of conditions, classes of clauses) is read off the space of
`Model/Space.lean`.  Conditions and clauses compute the entries of their values in their constructors; here this is done where the
entries are used.  Simplified: `0.0` and `-0.0` are the same entry, and conversions of legal values do not raise.
-/

set_option autoImplicit false

namespace Verif.AnyNum
open Verif

/-- The conversions of the hyperparameters, for entries `α` and read values `β`. -/
structure Arith (α β : Type) where
  /-- `Hyperparameter.to_vector` on a legal value (hyperparameters/hyperparameter.py:364-393). -/
  toVec : HP → Val → α
  /-- `Hyperparameter.to_value` on an entry (hyperparameters/hyperparameter.py:332-362); `none` if it raises. -/
  toVal : HP → α → Option β
  /-- `legal_vector_single` (hyperparameters/hp_components.py:229-234, 405-416, 538-539). -/
  legalVec : HP → α → Bool
  /-- `Hyperparameter.legal_value` on a value (hyperparameters/hyperparameter.py:257-279). -/
  legalValue : HP → Val → Bool
  /-- `<` of entries (conditions.py:159-161). -/
  lt : α → α → Bool
  /-- Comparison of two values that were read (forbidden.py:619, 690, 761). -/
  onVals : RelOp → β → β → Bool
  /-- `max(int(MULT**2 * sample_size), 5)` (configuration_space.py:586-591). -/
  width : Space → Nat → Nat

/-- `Configuration._vector` (configuration.py:95); `none` is NaN. -/
abbrev AVec (α : Type) := List (Option α)

/-- `vector[i]`. -/
def AVec.at {α : Type} (v : AVec α) (i : Nat) : Option α := v.getD i none

/-- A matrix as the list of its rows. -/
abbrev AMat (α : Type) := List (List (Option α))

section
variable {α β : Type} [DecidableEq α] (A : Arith α β)

/-! ## Conditions -/

/-- The test of a literal on one entry (conditions.py:159-161, 354-355), against the entries of the values of the condition
(conditions.py:139, 338). -/
def onEntry (h : HP) : Test → Option α → Bool
  | .bin .eq v _, e => match e with | some q => decide (q = A.toVec h v) | none => false
  | .bin .ne v _, e => match e with | some q => decide (q ≠ A.toVec h v) | none => true
  | .bin .lt v _, e => match e with | some q => A.lt q (A.toVec h v) | none => false
  | .bin .gt v _, e => match e with | some q => A.lt (A.toVec h v) q | none => false
  | .isIn vs _, e => match e with | some q => decide (q ∈ vs.map (A.toVec h)) | none => false

mutual
/-- `satisfied_by_vector` (conditions.py:159-161, 354-355, 538-543, 604-605). -/
def satVec (idx : Name → Nat) (v : AVec α) : Cond → Bool
  | .lit l => onEntry A l.parent l.test (v.at (idx l.parent.name))
  | .and cs => satVecAll idx v cs
  | .or cs => satVecAny idx v cs
def satVecAll (idx : Name → Nat) (v : AVec α) : List Cond → Bool
  | [] => true
  | c :: cs => satVec idx v c && satVecAll idx v cs
def satVecAny (idx : Name → Nat) (v : AVec α) : List Cond → Bool
  | [] => false
  | c :: cs => satVec idx v c || satVecAny idx v cs
end

mutual
/-- `satisfied_by_vector_array` (conditions.py:163-165, 357-359, 545-550, 607-612). -/
def satArr (idx : Name → Nat) (w : Nat) (m : AMat α) : Cond → List Bool
  | .lit l => (m.getD (idx l.parent.name) []).map (onEntry A l.parent l.test)
  | .and cs => satArrAll idx w m (List.replicate w true) cs
  | .or cs => satArrAny idx w m (List.replicate w false) cs
def satArrAll (idx : Name → Nat) (w : Nat) (m : AMat α) (acc : List Bool) : List Cond → List Bool
  | [] => acc
  | c :: cs => satArrAll idx w m (List.zipWith (· && ·) acc (satArr idx w m c)) cs
def satArrAny (idx : Name → Nat) (w : Nat) (m : AMat α) (acc : List Bool) : List Cond → List Bool
  | [] => acc
  | c :: cs => satArrAny idx w m (List.zipWith (· || ·) acc (satArr idx w m c)) cs
end

/-! ## Clauses -/

/-- `==` with the entry of a value (forbidden.py:351, 372-373). -/
def eqEntry (h : HP) (v : Val) (e : Option α) : Bool :=
  match e with | some q => decide (q = A.toVec h v) | none => false

/-- `in` the entries of values (forbidden.py:434, 462-463). -/
def inEntry (h : HP) (vs : List Val) (e : Option α) : Bool :=
  match e with | some q => decide (q ∈ vs.map (A.toVec h)) | none => false

/-- A relation on two entries (forbidden.py:613-619, 684-690, 755-761). -/
def relEntries (op : RelOp) (left right : HP) (a b : Option α) : Bool :=
  match a, b with
  | some x, some y => match A.toVal left x, A.toVal right y with
    | some u, some w => A.onVals op u w
    | _, _ => false
  | _, _ => false

mutual
/-- `is_forbidden_vector` (forbidden.py:372-373, 462-463, 538-541, 613-619, 684-690, 755-761). -/
def onVec (idx : Name → Nat) (v : AVec α) : Forb → Bool
  | .eq h w _ => eqEntry A h w (v.at (idx h.name))
  | .isIn h ws _ => inEntry A h ws (v.at (idx h.name))
  | .rel op l r => relEntries A op l r (v.at (idx l.name)) (v.at (idx r.name))
  | .and cs => onVecAll idx v cs
def onVecAll (idx : Name → Nat) (v : AVec α) : List Forb → Bool
  | [] => true
  | c :: cs => onVec idx v c && onVecAll idx v cs
end

mutual
/-- `is_forbidden_vector_array` on a matrix with `w` columns (forbidden.py:376-377, 466-467, 544-549, 622-628, 693-700,
764-770). -/
def onArr (idx : Name → Nat) (w : Nat) (m : AMat α) : Forb → List Bool
  | .eq h v _ => (m.getD (idx h.name) []).map (eqEntry A h v)
  | .isIn h vs _ => (m.getD (idx h.name) []).map (inEntry A h vs)
  | .rel op l r => List.zipWith (relEntries A op l r) (m.getD (idx l.name) []) (m.getD (idx r.name) [])
  | .and cs => onArrAll idx w m (List.replicate w true) cs
def onArrAll (idx : Name → Nat) (w : Nat) (m : AMat α) (acc : List Bool) : List Forb → List Bool
  | [] => acc
  | c :: cs => onArrAll idx w m (List.zipWith (· && ·) acc (onArr idx w m c)) cs
end

/-! ## Merging of clauses -/

/-- The key of a group (_condition_tree.py:849-853). -/
def optKey (firsts : List EqPart) (last : EqPart) : Name × List (Name × α) :=
  (last.hp.name, firsts.map (fun x => (x.hp.name, A.toVec x.hp x.value)))

/-- Insertion into the dictionary `to_optimize` (_condition_tree.py:848-858). -/
def optInsert (firsts : List EqPart) (last : EqPart) :
    List ((Name × List (Name × α)) × OptGroup) → List ((Name × List (Name × α)) × OptGroup)
  | [] => [(optKey A firsts last, ⟨firsts, [last]⟩)]
  | (k, g) :: rest =>
    if k = optKey A firsts last then (k, { g with lasts := g.lasts ++ [last] }) :: rest
    else (k, g) :: optInsert firsts last rest

/-- The loop over `and_conjunction_parts` (_condition_tree.py:848-858). -/
def optGroups : List (List EqPart) → List ((Name × List (Name × α)) × OptGroup) →
    Except Err (List ((Name × List (Name × α)) × OptGroup))
  | [], acc => .ok acc
  | p :: ps, acc => match splitLast p with
    | none => .error .valueError
    | some (firsts, last) => optGroups ps (optInsert A firsts last acc)

/-- The clause built for a group (_condition_tree.py:860-874); the constructor of the in clause checks the values
(forbidden.py:417-434). -/
def optEmit (g : OptGroup) : Except Err Forb :=
  let firsts := g.firsts.map (fun p => Forb.eq p.hp p.value p.vval)
  match g.lasts with
  | [l] => .ok (.and (firsts ++ [.eq l.hp l.value l.vval]))
  | [] => .error .indexError
  | l :: ls =>
    if ((l :: ls).map (fun p => p.value)).all (A.legalValue l.hp) then
      .ok (.and (firsts ++ [.isIn l.hp ((l :: ls).map (fun p => p.value)) []]))
    else .error .valueError

/-- `_optimized_forbiddens` (_condition_tree.py:821-876). -/
def optimizedForbs (idx : Name → Nat) (fs : List Forb) : Except Err (List Forb) :=
  let rest := fs.filter (fun f => f.eqConj?.isNone)
  let parts := (fs.filterMap Forb.eqConj?).map (sortBy (fun a b => decide (idx a.hp.name ≤ idx b.hp.name)))
  match optGroups A parts [] with
  | .error e => .error e
  | .ok gs => match mapExcept (fun g => optEmit A g.2) gs with
    | .error e => .error e
    | .ok cs => .ok (rest ++ cs)

/-- The merged clauses of a committed space (_condition_tree.py:533).  The error is for spaces that no commit makes. -/
def fast (s : Space) : List Forb :=
  match optimizedForbs A s.idx s.forbs with
  | .ok fs => fs
  | .error _ => []

/-! ## Checking vectors -/

/-- First name in a list whose entry is (not) set (util.py:575-582). -/
def firstWith (p : Option α → Bool) (s : Space) (v : AVec α) (ns : List Name) : Option Name :=
  ns.find? (fun n => p (v.at (s.idx n)))

/-- `legal_vector_single` of a child's transformer (util.py:594-599). -/
def legalAt (s : Space) (v : AVec α) (n : Name) : Bool :=
  match s.hp? n, v.at (s.idx n) with
  | some h, some q => A.legalVec h q
  | _, _ => false

/-- The loop over `minimum_conditions` in `check_configuration` (util.py:583-607). -/
def checkConds (s : Space) (v : AVec α) (allow : Bool) : List CNode → Option Err
  | [] => none
  | c :: cs =>
    if satVec A s.idx v c.cond then
      match firstWith (fun e => !e.isSome) s v c.kids with
      | some n => some (.activeNotSet n)
      | none => match c.kids.find? (fun n => !legalAt A s v n) with
        | some n => some (.illegalVector n)
        | none => checkConds s v allow cs
    else if allow then checkConds s v allow cs
    else match firstWith (fun e => e.isSome) s v c.kids with
      | some n => match s.hp? n, v.at (s.idx n) with
        | some h, some q => match A.toVal h q with
          | some _ => some (.inactiveSet n)
          | none => some .valueError
        | _, _ => some (.inactiveSet n)
      | none => checkConds s v allow cs

/-- `check_configuration` (util.py:570-614). -/
def check (s : Space) (v : AVec α) (allow : Bool := false) : Option Err :=
  match firstWith (fun e => !e.isSome) s v s.dag.roots with
  | some n => some (.activeNotSet n)
  | none => match checkConds A s v allow s.minConds with
    | some e => some e
    | none => if (fast A s).any (fun f => onVec A s.idx v f) then some .forbidden else none

/-- `get_active_hyperparameters` (configuration_space.py:492-533) for one node. -/
def isActive (s : Space) (v : AVec α) (x : Node) : Bool :=
  match x.cond with
  | none => true
  | some c =>
    if c.parents.any (fun p => !(v.at (s.idx p)).isSome) then false else satVec A s.idx v c

/-- `get_active_hyperparameters` (configuration_space.py:492-533). -/
def activeNames (s : Space) (v : AVec α) : List Name := (s.com.filter (isActive A s v)).map Node.name

/-- The loop of `_check_configuration_rigorous` (configuration_space.py:925-941). -/
def rigorousLoop (s : Space) (v : AVec α) (allow : Bool) : List Node → Option Err
  | [] => none
  | x :: xs =>
    let e := v.at (s.idx x.name)
    let act := decide (x.name ∈ activeNames A s v)
    if e.isSome && !(match e with | some q => A.legalVec x.hp q | none => false) then
      some (.illegalVector x.name)
    else if act && !e.isSome then some (.activeNotSet x.name)
    else if !allow && !act && e.isSome then some (.inactiveSet x.name)
    else rigorousLoop s v allow xs

/-- `_check_configuration_rigorous` (configuration_space.py:917-951). -/
def checkRigorous (s : Space) (v : AVec α) (allow : Bool := false) : Option Err :=
  match rigorousLoop A s v allow s.dag.nodes with
  | some e => some e
  | none => if s.forbs.any (fun f => onVec A s.idx v f) then some .forbidden else none

/-! ## Assignment -/

/-- `_normalized_default_value` (hyperparameters/hyperparameter.py:138), by position (util.py:626-629). -/
def defaultAt (s : Space) (i : Nat) : Option α := ((s.com.map (fun x => A.toVec x.hp x.hp.default))[i]?)

/-- Set the children of a condition node to NaN, or the NaN children to their defaults (util.py:631-642). -/
def applyCNode (s : Space) (v : AVec α) (c : CNode) : AVec α :=
  if satVec A s.idx v c.cond then
    c.kids.foldl (fun acc n => if (v.at (s.idx n)).isSome then acc
      else acc.set (s.idx n) (defaultAt A s (s.idx n))) v
  else c.kids.foldl (fun acc n => acc.set (s.idx n) none) v

/-- `change_hp_value` (util.py:617-644). -/
def changeHp (s : Space) (v : AVec α) (n : Name) (x : α) (i : Nat) : AVec α :=
  ((s.lookup.lookup n).getD []).foldl
    (fun acc j => match s.minConds[j]? with
      | some c => applyCNode A s acc c
      | none => acc) (v.set i (some x))

/-- `Configuration.__setitem__` (configuration.py:186-210), on the vector. -/
def setItem (s : Space) (v : AVec α) (n : Name) (w : Val) : AVec α × Option Err :=
  match findNode s.dag.nodes n with
  | none => (v, some .keyError)
  | some x =>
    if !A.legalValue x.hp w then (v, some (.illegalValue n))
    else
      let v' := changeHp A s v n (A.toVec x.hp w) (s.idx n)
      match check A s v' false with
      | some e => (v, some e)
      | none => (v', none)

/-! ## Sampling -/

/-- A row of `matrix[:, mask]`. -/
def keepRow (mask : List Bool) (row : List (Option α)) : List (Option α) :=
  ((row.zip mask).filter (fun p => p.2)).map (fun p => p.1)

/-- The columns of a matrix with `w` columns: `matrix.T`. -/
def cols (w : Nat) (m : AMat α) : List (AVec α) := (List.range w).map (fun j => m.map (fun row => row.getD j none))

/-- `mask |= clause.is_forbidden_vector_array(matrix)` (configuration_space.py:614-616, 626-628). -/
def forbMask (s : Space) (w : Nat) (m : AMat α) (fs : List Forb) : List Bool :=
  fs.foldl (fun acc f => List.zipWith (· || ·) acc (onArr A s.idx w m f)) (List.replicate w false)

/-- `valid_configs[np.ix_(cnode.children_indices, ~satisfied)] = np.nan` (configuration_space.py:623). -/
def maskKids (s : Space) (m : AMat α) (c : CNode) (sat : List Bool) : AMat α :=
  m.mapIdx (fun i row => if i ∈ c.kids.map s.idx then List.zipWith (fun e b => if b then e else none) row sat else row)

/-- What one batch of random values contributes (configuration_space.py:611-634). -/
def sampleBatch (s : Space) (w : Nat) (m : AMat α) : List (AVec α) :=
  let keep1 := (forbMask A s w m s.dag.uncond).map not
  let m1 := m.map (keepRow keep1)
  let w1 := numTrue keep1
  let m2 := s.minConds.foldl (fun m c => maskKids s m c (satArr A s.idx w1 m c.cond)) m1
  let keep2 := (forbMask A s w1 m2 s.dag.condF).map not
  cols (numTrue keep2) (m2.map (keepRow keep2))

/-- The `while` loop (configuration_space.py:589-635); `none` if it does not end within `fuel` batches. -/
def sampleLoop (s : Space) (rng : Nat → Nat → AMat α) (size : Nat) : Nat → Nat → Nat → List (AVec α) → Option (List (AVec α))
  | 0, _, _, acc => if size ≤ acc.length then some acc else none
  | fuel + 1, b, need, acc =>
    if size ≤ acc.length then some acc
    else
      let w := A.width s need
      let acc' := acc ++ sampleBatch A s w (rng b w)
      sampleLoop s rng size fuel (b + 1) (size - acc'.length) acc'

/-- The vectors of the configurations that `sample_configuration(size)` returns (configuration_space.py:545-637), for a space with
hyperparameters and `size ≥ 1`. -/
def sample (s : Space) (rng : Nat → Nat → AMat α) (fuel size : Nat) : Option (List (AVec α)) :=
  (sampleLoop A s rng size fuel 0 size []).map (fun acc => acc.take size)

end

end Verif.AnyNum
