import Verif.Model.Config

/-!
# Utilities on whole configurations: `impute_inactive_values`, `deactivate_inactive_hyperparameters`,
`generate_grid` (util.py)
-/

set_option autoImplicit false

namespace Verif

/-! ## Imputation -/

/-- The argument `strategy` of `impute_inactive_values` (util.py:62, 87-94). -/
inductive Strategy where
  | default
  | number (q : Rat)
  | other
deriving Repr, DecidableEq

/-- The loop of `impute_inactive_values` (util.py:84-98).  `configuration.get(name, NotSet)` catches only
`KeyError`.  Simplification: reading also extends the cache of the given configuration, for the name that was
read; later reads are of other names, so this has no effect here. -/
def imputeValues (s : Space) (c : Config) (st : Strategy) : List Node → Except Err Dict
  | [] => .ok []
  | x :: xs =>
    match (c.getItem s x.name).1, st with
    | .ok w, _ => match imputeValues s c st xs with
      | .ok d => .ok ((x.name, some w) :: d)
      | .error e => .error e
    | .error .keyError, .default => match imputeValues s c st xs with
      | .ok d => .ok ((x.name, some x.hp.default) :: d)
      | .error e => .error e
    | .error .keyError, .number q => match imputeValues s c st xs with
      | .ok d => .ok ((x.name, some (.flt q)) :: d)
      | .error e => .error e
    | .error .keyError, .other => .error .valueError
    | .error e, _ => .error e

/-- `impute_inactive_values` (util.py:60-105). -/
def impute (s : Space) (c : Config) (st : Strategy) : Except Err Config :=
  match imputeValues s c st s.dag.nodes with
  | .error e => .error e
  | .ok d => Config.ofValues s d true

/-! ## Deactivation -/

/-- `dict(config)` (configuration.py:263-267 and 212-240): the keys with their values.  The cache that reading
fills is left out as above. -/
def Config.items (s : Space) (c : Config) : List Name → Except Err Dict
  | [] => .ok []
  | n :: ns => match (c.getItem s n).1 with
    | .error e => .error e
    | .ok w => match c.items s ns with
      | .error e => .error e
      | .ok d => .ok ((n, some w) :: d)

/-- `dict(config)`. -/
def Config.toDict (s : Space) (c : Config) : Except Err Dict := c.items s (c.keys s)

/-- `del dic[name]` for a name that is present. -/
def dictDel (d : Dict) (n : Name) : Dict := d.filter (fun kv => kv.1 ≠ n)

/-- `dic = dict(config); del dic[name]; Configuration(space, values=dic, allow_inactive_with_values=True)`
(util.py:483-494, 500-508); `none` stands for the `KeyError` of `del`. -/
def Config.without (s : Space) (c : Config) (n : Name) : Except Err (Option Config) :=
  match c.toDict s with
  | .error e => .error e
  | .ok d =>
    if (d.lookup n).isNone then .ok none
    else match Config.ofValues s (dictDel d n) true with
      | .error e => .error e
      | .ok c' => .ok (some c')

/-- State of the traversal: `config`, `hps`, `inactive` (util.py:459-476). -/
structure DeState where
  cfg : Config
  queue : List Name
  inactive : List Name := []
deriving Repr

/-- The conditions of one child (util.py:481-495). -/
def deChild (s : Space) (n : Name) : List Cond → DeState → Except Err DeState
  | [], st => .ok st
  | c :: cs, st =>
    if c.satVec s.idx st.cfg.vec then deChild s n cs { st with queue := st.queue ++ [n] }
    else match st.cfg.without s n with
      | .error e => .error e
      | .ok none => deChild s n cs st
      | .ok (some c') =>
        deChild s n cs { cfg := c', queue := st.queue ++ [n], inactive := st.inactive ++ [n] }

/-- `space.parent_conditions_of[name]` (_condition_tree.py:248-254, 582): at most one condition. -/
def Space.parentConds (s : Space) (n : Name) : List Cond :=
  match findNode s.com n with
  | some x => x.cond.toList
  | none => []

/-- `space.children_of[name]` (_condition_tree.py:579), by name. -/
def Space.childrenOf (s : Space) (n : Name) : List Name := childNames s.com n

/-- The loop over the children (util.py:480-495). -/
def deChildren (s : Space) : List Name → DeState → Except Err DeState
  | [], st => .ok st
  | n :: ns, st => match deChild s n (s.parentConds n) st with
    | .error e => .error e
    | .ok st' => deChildren s ns st'

/-- The `while` loop (util.py:478-495).  `extendleft`/`appendleft` with `pop` make the deque a first-in
first-out queue; `none` if the loop does not end within `fuel` rounds. -/
def deLoop (s : Space) : Nat → DeState → Option (Except Err DeState)
  | 0, st => if st.queue.isEmpty then some (.ok st) else none
  | k + 1, st => match st.queue with
    | [] => some (.ok st)
    | n :: q => match deChildren s (s.childrenOf n) { st with queue := q } with
      | .error e => some (.error e)
      | .ok st' => deLoop s k st'

/-- The last loop, which deletes the inactive hyperparameters once more (util.py:497-508). -/
def deFinal (s : Space) (inactive : List Name) : List Node → Config → Except Err Config
  | [], c => .ok c
  | x :: xs, c =>
    if x.name ∈ inactive then
      match c.without s x.name with
      | .error e => .error e
      | .ok none => deFinal s inactive xs c
      | .ok (some c') => deFinal s inactive xs c'
    else deFinal s inactive xs c

/-- `deactivate_inactive_hyperparameters` (util.py:433-510) after the first configuration has been built. -/
def deactivateFrom (s : Space) (fuel : Nat) (c : Config) : Option (Except Err Config) :=
  match deLoop s fuel { cfg := c, queue := s.dag.roots.filter (fun n => !(s.childrenOf n).isEmpty) } with
  | none => none
  | some (.error e) => some (.error e)
  | some (.ok st) => match deFinal s st.inactive s.dag.nodes st.cfg with
    | .error e => some (.error e)
    | .ok c' => match c'.toDict s with
      | .error e => some (.error e)
      | .ok d => some (Config.ofValues s d)

/-- `deactivate_inactive_hyperparameters(configuration, space)` (util.py:433-510), for a dictionary. -/
def deactivate (s : Space) (fuel : Nat) (d : Dict) : Option (Except Err Config) :=
  match Config.ofValues s d true with
  | .error e => some (.error e)
  | .ok c => deactivateFrom s fuel c

/-- `deactivate_inactive_hyperparameters(None, space, vector)` (util.py:433-510), for a vector. -/
def deactivateVec (s : Space) (fuel : Nat) (v : Vec) : Option (Except Err Config) :=
  match Config.ofVector s v true with
  | .error e => some (.error e)
  | .ok c => deactivateFrom s fuel c

/-! ## Grids -/

/-- `np.linspace(lower, upper, num)` (util.py:689, 718). -/
def linspace (l u : Rat) (n : Nat) : List Rat :=
  (List.range n).map (fun i : Nat => l + (i : Rat) * ((u - l) / ((n : Rat) - 1)))

/-- `_get_value_set` (util.py:673-739).  Numerical hyperparameters are the uniform ones without logarithmic scale
(the code raises `TypeError` for other distributions).  `grid_points[0]` raises `IndexError` for zero steps; the
corrections of the two end points (util.py:701-705, 733-737) have no effect in exact arithmetic. -/
def valueSet (steps : List (Name × Nat)) (x : HP) : Except Err (List Val) :=
  match x.kind with
  | .cat cs => .ok cs
  | .ord cs => .ok cs
  | .const c => .ok [c]
  | .flt l u => match steps.lookup x.name with
    | none => .error .valueError
    | some 0 => .error .indexError
    | some n => .ok ((linspace l u n).map Val.flt)
  | .int l u => match steps.lookup x.name with
    | none => .error .valueError
    | some 0 => .error .indexError
    | some n => .ok ((linspace l u n).map (fun q => Val.int (rint q)))

/-- The value sets of some hyperparameters, in order (util.py:765-767, 819-821). -/
def valueSets (s : Space) (steps : List (Name × Nat)) : List Name → Except Err (List (Name × List Val))
  | [] => .ok []
  | n :: ns => match s.hp? n with
    | none => .error .keyError
    | some x => match valueSet steps x with
      | .error e => .error e
      | .ok vs => match valueSets s steps ns with
        | .error e => .error e
        | .ok r => .ok ((n, vs) :: r)

/-- `itertools.product` of the value sets, zipped with the names (util.py:751-754): the last one varies fastest. -/
def cartesian : List (Name × List Val) → List Dict
  | [] => [[]]
  | (n, vs) :: r => vs.flatMap (fun w => (cartesian r).map (fun d => (n, some w) :: d))

/-- `_get_cartesian_product` (util.py:741-756). -/
def gridProduct (sets : List (Name × List Val)) : List Dict :=
  if sets.isEmpty then [] else cartesian sets

/-- All conditions are evaluated, an exception of `satisfied_by_value` is not caught (util.py:807-812). -/
def allCond (pt : Dict) : List Cond → Except Err Bool
  | [] => .ok true
  | c :: cs => match c.satVal pt with
    | .error e => .error e
    | .ok b => match allCond pt cs with
      | .error e => .error e
      | .ok b' => .ok (b && b')

/-- The loop over the children of one name of the point (util.py:802-814). -/
def newKids (s : Space) (pt : Dict) : List Name → List Name → Except Err (List Name)
  | [], acc => .ok acc
  | n :: ns, acc =>
    if n ∈ acc ∨ (pt.lookup n).isSome then newKids s pt ns acc
    else match allCond pt (s.parentConds n) with
      | .error e => .error e
      | .ok true => newKids s pt ns (acc ++ [n])
      | .ok false => newKids s pt ns acc

/-- `new_active_hp_names` (util.py:796-814). -/
def newActive (s : Space) (pt : Dict) : List Name → List Name → Except Err (List Name)
  | [], acc => .ok acc
  | p :: ps, acc => match newKids s pt (s.childrenOf p) acc with
    | .error e => .error e
    | .ok acc' => newActive s pt ps acc'

/-- The branch for `ActiveHyperparameterNotSetError` (util.py:790-832): the new points. -/
def expandPoint (s : Space) (steps : List (Name × Nat)) (pt : Dict) : Except Err (List Dict) :=
  match newActive s pt (pt.map Prod.fst) [] with
  | .error e => .error e
  | .ok new => match valueSets s steps new with
    | .error e => .error e
    | .ok sets =>
      if new.isEmpty then .error .runtimeError
      else .ok (gridProduct (pt.map (fun kv => (kv.1, kv.2.toList)) ++ sets))

/-- The `while` loop (util.py:777-834); `none` if it does not end within `fuel` rounds. -/
def gridLoop (s : Space) (steps : List (Name × Nat)) : Nat → List Dict → List Config →
    Option (Except Err (List Config))
  | _, [], acc => some (.ok acc)
  | 0, _ :: _, _ => none
  | k + 1, pt :: q, acc =>
    match Config.ofValues s pt with
    | .ok c => gridLoop s steps k q (acc ++ [c])
    | .error .forbidden => gridLoop s steps k q acc
    | .error (.activeNotSet _) => match expandPoint s steps pt with
      | .error e => some (.error e)
      | .ok new => gridLoop s steps k (q ++ new) acc
    | .error e => some (.error e)

/-- `generate_grid` (util.py:647-834). -/
def generateGrid (s : Space) (steps : List (Name × Nat)) (fuel : Nat) : Option (Except Err (List Config)) :=
  match valueSets s steps s.dag.roots with
  | .error e => some (.error e)
  | .ok sets => gridLoop s steps fuel (gridProduct sets) []

end Verif
