import Verif.Model.Sample
import Verif.Model.Numeric

/-!
# Spaces with logarithmic scales

`Model/Space.lean` and `Model/Sample.lean` only have linear ranges.  Here the functions that read or write vectors are
written once more with real entries, for spaces in which some ranges are logarithmic (`log=True`; the same transformer,
`UnitScaler`, serves uniform, normal and beta distributed hyperparameters).

What does not depend on vectors (names, layout, depths, groups of conditions, classes of clauses) is read off the space of
`Model/Space.lean`.  Conditions and clauses compute the entries of their values in their constructors; here this is done
where the entries are used, so that the entries that are stored in `Test` and `Forb` are not looked at.

Exact arithmetic over the real numbers, so nothing here is computable.
-/

set_option autoImplicit false

namespace Verif.Scaled
open Verif Verif.Num

noncomputable section

/-- Which hyperparameters were made with `log=True` (uniform_float.py:82, uniform_integer.py:97, normal_float.py,
normal_integer.py, beta_float.py, beta_integer.py).  Only looked at for ranges. -/
abbrev Scales := HP → Bool

/-- `Configuration._vector` (configuration.py:95) with real entries; `none` is NaN. -/
abbrev RVec := List (Option ℝ)

/-- `vector[i]`. -/
def RVec.at (v : RVec) (i : Nat) : Option ℝ := v.getD i none

/-! ## Hyperparameters -/

/-- `_unsafe_to_value` (hyperparameters/hp_components.py:313-332); positions of choices stay as they are. -/
def unsafeVal (lg : Bool) : Kind → ℝ → ℝ
  | .int l u, x => if lg then unsafeLog l u x else scale x l u
  | .flt l u, x => if lg then unsafeLog l u x else scale x l u
  | _, x => x

/-- `Hyperparameter.to_vector` on a single value (hyperparameters/hp_components.py:195-202, 334-344, 509-513). -/
def toVec (lg : Bool) : Kind → Val → Option ℝ
  | .int l u, v => v.num?.map (fun q : Rat => if lg then toVecLog l u (q : ℝ) else normalize (q : ℝ) l u)
  | .flt l u, v => v.num?.map (fun q : Rat => if lg then toVecLog l u (q : ℝ) else normalize (q : ℝ) l u)
  | k, v => (k.toVec v).map (fun q : Rat => (q : ℝ))

/-- `legal_vector_single` (hyperparameters/hp_components.py:229-234, 405-416, 538-539). -/
def legalVec (lg : Bool) : Kind → ℝ → Prop
  | .cat cs, x => 0 ≤ x ∧ x < cs.length ∧ closeToIntK x
  | .ord cs, x => 0 ≤ x ∧ x < cs.length ∧ closeToIntK x
  | .const _, x => x = 1
  | .int l u, x => if lg then legalVecLogInt l u x else legalVecSingle l u x
  | .flt _ _, x => 0 ≤ x ∧ x ≤ 1

/-- A value that was read from an entry: floats are real numbers. -/
inductive RVal where
  | num (x : ℝ)
  | val (v : Val)

open Classical in
/-- `Hyperparameter.to_value` on a single entry (hyperparameters/hp_components.py:172-192, 299-311, 516-523). -/
def toVal (lg : Bool) : Kind → ℝ → Option RVal
  | .cat cs, x => if closeToIntK x then (Kind.pyIndex cs (rintK x)).map .val else none
  | .ord cs, x => if closeToIntK x then (Kind.pyIndex cs (rintK x)).map .val else none
  | .const c, _ => some (.val c)
  | .int l u, x => some (.val (.int (rintK (unsafeVal lg (.int l u) x))))
  | .flt l u, x => some (.num (clip (unsafeVal lg (.flt l u) x) l u))

/-! ## Conditions -/

/-- The test of a literal on one entry (conditions.py:159-161, 354-355), against the entries of the values of the condition
(conditions.py:139, 338). -/
def onEntry (lg : Bool) (k : Kind) : Test → Option ℝ → Prop
  | .bin .eq v _, e => e.isSome ∧ e = some ((toVec lg k v).getD 0)
  | .bin .ne v _, e => e ≠ some ((toVec lg k v).getD 0)
  | .bin .lt v _, e => ∃ x, e = some x ∧ x < (toVec lg k v).getD 0
  | .bin .gt v _, e => ∃ x, e = some x ∧ (toVec lg k v).getD 0 < x
  | .isIn vs _, e => ∃ x, e = some x ∧ x ∈ vs.filterMap (toVec lg k)

open Classical in
/-- The same as a boolean. -/
def onEntryB (lg : Bool) (k : Kind) (t : Test) (e : Option ℝ) : Bool := decide (onEntry lg k t e)

mutual
/-- `satisfied_by_vector` (conditions.py:159-161, 354-355, 538-543, 604-605). -/
def satVec (lg : Scales) (idx : Name → Nat) (v : RVec) : Cond → Bool
  | .lit l => onEntryB (lg l.parent) l.parent.kind l.test (v.at (idx l.parent.name))
  | .and cs => satVecAll lg idx v cs
  | .or cs => satVecAny lg idx v cs
def satVecAll (lg : Scales) (idx : Name → Nat) (v : RVec) : List Cond → Bool
  | [] => true
  | c :: cs => satVec lg idx v c && satVecAll lg idx v cs
def satVecAny (lg : Scales) (idx : Name → Nat) (v : RVec) : List Cond → Bool
  | [] => false
  | c :: cs => satVec lg idx v c || satVecAny lg idx v cs
end

/-- A matrix as the list of its rows. -/
abbrev RMat := List (List (Option ℝ))

mutual
/-- `satisfied_by_vector_array` (conditions.py:163-165, 357-359, 545-550, 607-612). -/
def satArr (lg : Scales) (idx : Name → Nat) (w : Nat) (m : RMat) : Cond → List Bool
  | .lit l => (m.getD (idx l.parent.name) []).map (onEntryB (lg l.parent) l.parent.kind l.test)
  | .and cs => satArrAll lg idx w m (List.replicate w true) cs
  | .or cs => satArrAny lg idx w m (List.replicate w false) cs
def satArrAll (lg : Scales) (idx : Name → Nat) (w : Nat) (m : RMat) (acc : List Bool) : List Cond → List Bool
  | [] => acc
  | c :: cs => satArrAll lg idx w m (List.zipWith (· && ·) acc (satArr lg idx w m c)) cs
def satArrAny (lg : Scales) (idx : Name → Nat) (w : Nat) (m : RMat) (acc : List Bool) : List Cond → List Bool
  | [] => acc
  | c :: cs => satArrAny lg idx w m (List.zipWith (· || ·) acc (satArr lg idx w m c)) cs
end

/-! ## Clauses -/

/-- The number in a value that was read. -/
def RVal.num? : RVal → Option ℝ
  | .num x => some x
  | .val v => v.num?.map (fun q : Rat => (q : ℝ))

/-- The text in a value that was read. -/
def RVal.str? : RVal → Option String
  | .val (.str s) => some s
  | _ => none

open Classical in
/-- Comparison of two values that were read (forbidden.py:619, 690, 761); a `TypeError` is modelled as "not forbidden", as in
`RelOp.onVals`. -/
def onVals : RelOp → RVal → RVal → Bool
  | .lt, a, b => decide ((∃ x y, a.num? = some x ∧ b.num? = some y ∧ x < y) ∨ ∃ s t, a.str? = some s ∧ b.str? = some t ∧ s < t)
  | .eq, a, b => decide ((∃ x y, a.num? = some x ∧ b.num? = some y ∧ x = y) ∨ ∃ s t, a.str? = some s ∧ b.str? = some t ∧ s = t)
  | .gt, a, b => decide ((∃ x y, a.num? = some x ∧ b.num? = some y ∧ y < x) ∨ ∃ s t, a.str? = some s ∧ b.str? = some t ∧ t < s)

/-- A relation on two entries (forbidden.py:613-619, 684-690, 755-761). -/
def relOnEntries (lg : Scales) (op : RelOp) (left right : HP) (a b : Option ℝ) : Bool :=
  match a, b with
  | some x, some y => match toVal (lg left) left.kind x, toVal (lg right) right.kind y with
    | some u, some w => onVals op u w
    | _, _ => false
  | _, _ => false

open Classical in
/-- `==` with the entry of a value (forbidden.py:351, 372-373). -/
def eqEntry (lg : Scales) (h : HP) (v : Val) (e : Option ℝ) : Bool := decide (e = some ((toVec (lg h) h.kind v).getD 0))

open Classical in
/-- `in` the entries of values (forbidden.py:434, 462-463). -/
def inEntry (lg : Scales) (h : HP) (vs : List Val) (e : Option ℝ) : Bool :=
  decide (∃ x, e = some x ∧ x ∈ vs.filterMap (toVec (lg h) h.kind))

mutual
/-- `is_forbidden_vector` (forbidden.py:372-373, 462-463, 538-541, 613-619, 684-690, 755-761). -/
def onVec (lg : Scales) (idx : Name → Nat) (v : RVec) : Forb → Bool
  | .eq h w _ => eqEntry lg h w (v.at (idx h.name))
  | .isIn h ws _ => inEntry lg h ws (v.at (idx h.name))
  | .rel op l r => relOnEntries lg op l r (v.at (idx l.name)) (v.at (idx r.name))
  | .and cs => onVecAll lg idx v cs
def onVecAll (lg : Scales) (idx : Name → Nat) (v : RVec) : List Forb → Bool
  | [] => true
  | c :: cs => onVec lg idx v c && onVecAll lg idx v cs
end

mutual
/-- `is_forbidden_vector_array` on a matrix with `w` columns (forbidden.py:376-377, 466-467, 544-549, 622-628, 693-700,
764-770). -/
def onArr (lg : Scales) (idx : Name → Nat) (w : Nat) (m : RMat) : Forb → List Bool
  | .eq h v _ => (m.getD (idx h.name) []).map (eqEntry lg h v)
  | .isIn h vs _ => (m.getD (idx h.name) []).map (inEntry lg h vs)
  | .rel op l r => List.zipWith (relOnEntries lg op l r) (m.getD (idx l.name) []) (m.getD (idx r.name) [])
  | .and cs => onArrAll lg idx w m (List.replicate w true) cs
def onArrAll (lg : Scales) (idx : Name → Nat) (w : Nat) (m : RMat) (acc : List Bool) : List Forb → List Bool
  | [] => acc
  | c :: cs => onArrAll lg idx w m (List.zipWith (· && ·) acc (onArr lg idx w m c)) cs
end

/-! ## Merging of clauses -/

/-- The key of a group (_condition_tree.py:849-853). -/
def optKey (lg : Scales) (firsts : List EqPart) (last : EqPart) : Name × List (Name × Option ℝ) :=
  (last.hp.name, firsts.map (fun x => (x.hp.name, toVec (lg x.hp) x.hp.kind x.value)))

open Classical in
/-- Insertion into the dictionary `to_optimize` (_condition_tree.py:848-858). -/
def optInsert (lg : Scales) (firsts : List EqPart) (last : EqPart) :
    List ((Name × List (Name × Option ℝ)) × OptGroup) → List ((Name × List (Name × Option ℝ)) × OptGroup)
  | [] => [(optKey lg firsts last, ⟨firsts, [last]⟩)]
  | (k, g) :: rest =>
    if k = optKey lg firsts last then (k, { g with lasts := g.lasts ++ [last] }) :: rest
    else (k, g) :: optInsert lg firsts last rest

/-- The loop over `and_conjunction_parts` (_condition_tree.py:848-858). -/
def optGroups (lg : Scales) : List (List EqPart) → List ((Name × List (Name × Option ℝ)) × OptGroup) →
    Except Err (List ((Name × List (Name × Option ℝ)) × OptGroup))
  | [], acc => .ok acc
  | p :: ps, acc => match splitLast p with
    | none => .error .valueError
    | some (firsts, last) => optGroups lg ps (optInsert lg firsts last acc)

/-- `_optimized_forbiddens` (_condition_tree.py:821-876); the clause of a group only depends on values and legality
(`optEmit`). -/
def optimizedForbs (lg : Scales) (idx : Name → Nat) (fs : List Forb) : Except Err (List Forb) :=
  let rest := fs.filter (fun f => f.eqConj?.isNone)
  let parts := (fs.filterMap Forb.eqConj?).map (sortBy (fun a b => decide (idx a.hp.name ≤ idx b.hp.name)))
  match optGroups lg parts [] with
  | .error e => .error e
  | .ok gs => match mapExcept (fun g => optEmit g.2) gs with
    | .error e => .error e
    | .ok cs => .ok (rest ++ cs)

/-- The merged clauses of a committed space (_condition_tree.py:533).  The error is for spaces that no commit makes. -/
def fast (lg : Scales) (s : Space) : List Forb :=
  match optimizedForbs lg s.idx s.forbs with
  | .ok fs => fs
  | .error _ => []

/-! ## Checking vectors -/

/-- First name in a list whose entry is (not) set (util.py:575-582). -/
def firstWith (p : Option ℝ → Bool) (s : Space) (v : RVec) (ns : List Name) : Option Name :=
  ns.find? (fun n => p (v.at (s.idx n)))

open Classical in
/-- `legal_vector_single` of a child's transformer (util.py:594-599). -/
def legalAt (lg : Scales) (s : Space) (v : RVec) (n : Name) : Bool :=
  match s.hp? n, v.at (s.idx n) with
  | some h, some q => decide (legalVec (lg h) h.kind q)
  | _, _ => false

/-- The loop over `minimum_conditions` in `check_configuration` (util.py:583-607). -/
def checkConds (lg : Scales) (s : Space) (v : RVec) (allow : Bool) : List CNode → Option Err
  | [] => none
  | c :: cs =>
    if satVec lg s.idx v c.cond then
      match firstWith (fun e => !e.isSome) s v c.kids with
      | some n => some (.activeNotSet n)
      | none => match c.kids.find? (fun n => !legalAt lg s v n) with
        | some n => some (.illegalVector n)
        | none => checkConds lg s v allow cs
    else if allow then checkConds lg s v allow cs
    else match firstWith (fun e => e.isSome) s v c.kids with
      | some n => match s.hp? n, v.at (s.idx n) with
        | some h, some q => match toVal (lg h) h.kind q with
          | some _ => some (.inactiveSet n)
          | none => some .valueError
        | _, _ => some (.inactiveSet n)
      | none => checkConds lg s v allow cs

/-- `check_configuration` (util.py:570-614). -/
def check (lg : Scales) (s : Space) (v : RVec) (allow : Bool := false) : Option Err :=
  match firstWith (fun e => !e.isSome) s v s.dag.roots with
  | some n => some (.activeNotSet n)
  | none => match checkConds lg s v allow s.minConds with
    | some e => some e
    | none => if (fast lg s).any (fun f => onVec lg s.idx v f) then some .forbidden else none

/-- `get_active_hyperparameters` (configuration_space.py:492-533) for one node. -/
def isActive (lg : Scales) (s : Space) (v : RVec) (x : Node) : Bool :=
  match x.cond with
  | none => true
  | some c =>
    if c.parents.any (fun p => !(v.at (s.idx p)).isSome) then false else satVec lg s.idx v c

/-- `get_active_hyperparameters` (configuration_space.py:492-533). -/
def activeNames (lg : Scales) (s : Space) (v : RVec) : List Name := (s.com.filter (isActive lg s v)).map Node.name

open Classical in
/-- The loop of `_check_configuration_rigorous` (configuration_space.py:925-941). -/
def rigorousLoop (lg : Scales) (s : Space) (v : RVec) (allow : Bool) : List Node → Option Err
  | [] => none
  | x :: xs =>
    let e := v.at (s.idx x.name)
    let act := decide (x.name ∈ activeNames lg s v)
    if e.isSome && !(match e with | some q => decide (legalVec (lg x.hp) x.hp.kind q) | none => false) then
      some (.illegalVector x.name)
    else if act && !e.isSome then some (.activeNotSet x.name)
    else if !allow && !act && e.isSome then some (.inactiveSet x.name)
    else rigorousLoop lg s v allow xs

/-- `_check_configuration_rigorous` (configuration_space.py:917-951). -/
def checkRigorous (lg : Scales) (s : Space) (v : RVec) (allow : Bool := false) : Option Err :=
  match rigorousLoop lg s v allow s.dag.nodes with
  | some e => some e
  | none => if s.forbs.any (fun f => onVec lg s.idx v f) then some .forbidden else none

/-! ## Configurations -/

/-- A `Configuration` (configuration.py:44-102). -/
structure RConfig where
  vec : RVec
  vals : Option (List (Name × Val)) := none
  allow : Bool := false

/-- `np.round(value, ROUND_PLACES)` of a float that was read, and `int` or choice otherwise (configuration.py:233-234). -/
def roundRead : RVal → Val
  | .num x => .flt ((rintK (x * 10000000000000) : Rat) / 10000000000000)
  | .val v => v

/-- The loop over the hyperparameters in `Configuration(values=...)` (configuration.py:108-124).  Legality and rounding of values do not
depend on the scale (hyperparameters/hp_components.py:391-403). -/
def fillValues (lg : Scales) (s : Space) (d : Dict) : List Node → RVec → List (Name × Val) →
    Except Err (RVec × List (Name × Val))
  | [], v, vals => .ok (v, vals)
  | x :: xs, v, vals =>
    match d.lookup x.name with
    | none => fillValues lg s d xs (v.set (s.idx x.name) none) vals
    | some none => fillValues lg s d xs (v.set (s.idx x.name) none) vals
    | some (some w) =>
      if !x.hp.kind.legalValue w then .error (.illegalValue x.name)
      else
        let w' := roundVal x.hp.kind w
        match toVec (lg x.hp) x.hp.kind w' with
        | none => .error .keyError
        | some q => fillValues lg s d xs (v.set (s.idx x.name) (some q)) (vals ++ [(x.name, w')])

/-- `Configuration(space, values=d)` (configuration.py:97-126). -/
def ofValues (lg : Scales) (s : Space) (d : Dict) (allow : Bool := false) : Except Err RConfig :=
  if d.any (fun kv => decide (kv.1 ∉ s.dag.nodes.map Node.name) && kv.1 != "") then .error .valueError
  else match fillValues lg s d s.dag.nodes (List.replicate s.len none) [] with
    | .error e => .error e
    | .ok (v, vals) => match check lg s v allow with
      | some e => .error e
      | none => .ok { vec := v, vals := some vals, allow := allow }

/-- `get_default_configuration` (configuration_space.py:889-915); the default values do not depend on vectors. -/
def defaultConfig (lg : Scales) (s : Space) : Except Err RConfig :=
  match defaultValues s.dag.nodes [] with
  | .error e => .error e
  | .ok d => ofValues lg s d

/-- `_normalized_default_value` (hyperparameters/hyperparameter.py:138). -/
def defVec (lg : Scales) (h : HP) : ℝ := (toVec (lg h) h.kind h.default).getD 0

/-- Set the children of a condition node to NaN, or the NaN children to their defaults (util.py:631-642). -/
def applyCNode (lg : Scales) (s : Space) (v : RVec) (c : CNode) : RVec :=
  if satVec lg s.idx v c.cond then
    c.kids.foldl (fun acc n => if (v.at (s.idx n)).isSome then acc
      else acc.set (s.idx n) (some ((s.com.map (fun x => defVec lg x.hp)).getD (s.idx n) 0))) v
  else c.kids.foldl (fun acc n => acc.set (s.idx n) none) v

/-- `change_hp_value` (util.py:617-644). -/
def changeHp (lg : Scales) (s : Space) (v : RVec) (n : Name) (x : ℝ) (i : Nat) : RVec :=
  ((s.lookup.lookup n).getD []).foldl
    (fun acc j => match s.minConds[j]? with
      | some c => applyCNode lg s acc c
      | none => acc) (v.set i (some x))

/-- `Configuration.__setitem__` (configuration.py:186-210). -/
def setItem (lg : Scales) (s : Space) (c : RConfig) (n : Name) (w : Val) : RConfig × Option Err :=
  match findNode s.dag.nodes n with
  | none => (c, some .keyError)
  | some x =>
    if !x.hp.kind.legalValue w then (c, some (.illegalValue n))
    else match toVec (lg x.hp) x.hp.kind w with
      | none => (c, some .keyError)
      | some q =>
        let v := changeHp lg s c.vec n q (s.idx n)
        match check lg s v false with
        | some e => (c, some e)
        | none => ({ c with vec := v, vals := none }, none)

/-- `Configuration.__getitem__` (configuration.py:212-240). -/
def getItem (lg : Scales) (s : Space) (c : RConfig) (n : Name) : Except Err Val × RConfig :=
  match (c.vals.getD []).lookup n with
  | some w => (.ok w, c)
  | none => match findNode s.dag.nodes n with
    | none => (.error .keyError, c)
    | some x => match c.vec.at (s.idx n) with
      | none => (.error .keyError, c)
      | some q => match toVal (lg x.hp) x.hp.kind q with
        | none => (.error .valueError, c)
        | some w =>
          let w' := roundRead w
          (.ok w', { c with vals := some (dictSet (c.vals.getD []) n w') })

/-! ## Sampling -/

/-- A row of `matrix[:, mask]`. -/
def keepRow (mask : List Bool) (row : List (Option ℝ)) : List (Option ℝ) :=
  ((row.zip mask).filter (fun p => p.2)).map (fun p => p.1)

/-- The columns of a matrix with `w` columns: `matrix.T`. -/
def cols (w : Nat) (m : RMat) : List RVec := (List.range w).map (fun j => m.map (fun row => row.getD j none))

/-- `mask |= clause.is_forbidden_vector_array(matrix)` (configuration_space.py:614-616, 626-628). -/
def forbMask (lg : Scales) (s : Space) (w : Nat) (m : RMat) (fs : List Forb) : List Bool :=
  fs.foldl (fun acc f => List.zipWith (· || ·) acc (onArr lg s.idx w m f)) (List.replicate w false)

/-- `valid_configs[np.ix_(cnode.children_indices, ~satisfied)] = np.nan` (configuration_space.py:623). -/
def maskKids (s : Space) (m : RMat) (c : CNode) (sat : List Bool) : RMat :=
  m.mapIdx (fun i row => if i ∈ c.kids.map s.idx then List.zipWith (fun e b => if b then e else none) row sat else row)

/-- What one batch of random values contributes (configuration_space.py:611-634). -/
def sampleBatch (lg : Scales) (s : Space) (w : Nat) (m : RMat) : List RVec :=
  let keep1 := (forbMask lg s w m s.dag.uncond).map not
  let m1 := m.map (keepRow keep1)
  let w1 := numTrue keep1
  let m2 := s.minConds.foldl (fun m c => maskKids s m c (satArr lg s.idx w1 m c.cond)) m1
  let keep2 := (forbMask lg s w1 m2 s.dag.condF).map not
  cols (numTrue keep2) (m2.map (keepRow keep2))

/-- The `while` loop (configuration_space.py:589-635); `none` if it does not end within `fuel` batches. -/
def sampleLoop (lg : Scales) (s : Space) (rng : Nat → Nat → RMat) (size : Nat) : Nat → Nat → Nat → List RVec → Option (List RVec)
  | 0, _, _, acc => if size ≤ acc.length then some acc else none
  | fuel + 1, b, need, acc =>
    if size ≤ acc.length then some acc
    else
      let w := s.batchWidth need
      let acc' := acc ++ sampleBatch lg s w (rng b w)
      sampleLoop lg s rng size fuel (b + 1) (size - acc'.length) acc'

/-- The vectors of the configurations that `sample_configuration(size)` returns (configuration_space.py:545-637), for a space with
hyperparameters and `size ≥ 1`. -/
def sample (lg : Scales) (s : Space) (rng : Nat → Nat → RMat) (fuel size : Nat) : Option (List RVec) :=
  (sampleLoop lg s rng size fuel 0 size []).map (fun acc => acc.take size)

end

end Verif.Scaled
