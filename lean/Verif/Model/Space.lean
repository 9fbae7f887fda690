import Verif.Model.Dag

/-!
# The configuration space: commit of a transaction, caches, `ConfigurationSpace.add`
-/

set_option autoImplicit false

namespace Verif

/-! ## Order of the hyperparameters -/

/-- `sorted(self.nodes.values())` (_condition_tree.py:469; node order 203-237). -/
def sortNodes (ns : Nodes) : Nodes :=
  sortBy (fun a b => keyLe (a.depth, a.name) (b.depth, b.name)) ns

/-- `index_of` (_condition_tree.py:470-480): position of a name in the node order. -/
def idxOf (ns : Nodes) (n : Name) : Nat := (ns.map Node.name).idxOf n

/-- `normalized_defaults` (_condition_tree.py:489-492). -/
def defaultVecs (ns : Nodes) : List Rat := ns.map (fun x => x.hp.defVec)

/-- Names of the roots: nodes with `maximum_depth == 1` (_condition_tree.py:471-474). -/
def rootNames (ns : Nodes) : List Name := (ns.filter (fun x => decide (x.depth = 1))).map Node.name

/-! ## Forbidden clauses -/

/-- A rendering of values, used only as a sort key. -/
def Val.render : Val → String
  | .int n => toString n
  | .flt q => toString q
  | .str s => "'" ++ s ++ "'"

mutual
/-- Sort key of the clauses, `str(clause)` (_condition_tree.py:521; forbidden.py `__repr__`).
Simplification: the rendering of floats differs from Python's.  Theorems about the order of the clauses (C69, C124) hold for any
key; those with `ClausesApart` use that clauses that differ print differently. -/
def Forb.render : Forb → String
  | .eq h v _ => "Forbidden: " ++ h.name ++ " == " ++ v.render
  | .isIn h vs _ => "Forbidden: " ++ h.name ++ " in {" ++ ", ".intercalate (vs.map Val.render) ++ "}"
  | .rel .lt l r => "Forbidden: " ++ l.name ++ " < " ++ r.name
  | .rel .eq l r => "Forbidden: " ++ l.name ++ " == " ++ r.name
  | .rel .gt l r => "Forbidden: " ++ l.name ++ " > " ++ r.name
  | .and cs => "(" ++ " && ".intercalate (Forb.renderL cs) ++ ")"
def Forb.renderL : List Forb → List String
  | [] => []
  | c :: cs => c.render :: Forb.renderL cs
end

/-- `sorted(self.forbiddens, key=str)` (_condition_tree.py:521). -/
def sortForbs (fs : List Forb) : List Forb :=
  sortBy (fun a b => decide (a.render ≤ b.render)) fs

/-- A `ForbiddenEqualsClause` as data. -/
structure EqPart where
  hp : HP
  value : Val
  vval : Rat
deriving Repr, DecidableEq

/-- `isinstance(c, ForbiddenEqualsClause)` with its contents. -/
def Forb.eqPart? : Forb → Option EqPart
  | .eq h v x => some ⟨h, v, x⟩
  | _ => none

/-- All of the given clauses as equals clauses, if they all are. -/
def eqParts : List Forb → Option (List EqPart)
  | [] => some []
  | c :: cs => match c.eqPart?, eqParts cs with
    | some p, some ps => some (p :: ps)
    | _, _ => none

/-- `isinstance(f, ForbiddenAndConjunction) and all(isinstance(c, ForbiddenEqualsClause) ...)`
(_condition_tree.py:836-838). -/
def Forb.eqConj? : Forb → Option (List EqPart)
  | .and cs => eqParts cs
  | _ => none

/-- `*firsts, last = xs`; `none` is the `ValueError` of an empty sequence. -/
def splitLast {α : Type} : List α → Option (List α × α)
  | [] => none
  | [x] => some ([], x)
  | x :: xs => match splitLast xs with
    | some (fs, l) => some (x :: fs, l)
    | none => none

/-- One group of `to_optimize` (_condition_tree.py:826-831). -/
structure OptGroup where
  firsts : List EqPart
  lasts : List EqPart
deriving Repr, DecidableEq

/-- The key of a group: parent name and (name, vector value) of the firsts
(_condition_tree.py:849-853). -/
def optKey (firsts : List EqPart) (last : EqPart) : Name × List (Name × Rat) :=
  (last.hp.name, firsts.map (fun x => (x.hp.name, x.vval)))

/-- Insertion into the dictionary `to_optimize` (_condition_tree.py:848-858). -/
def optInsert (firsts : List EqPart) (last : EqPart) :
    List ((Name × List (Name × Rat)) × OptGroup) → List ((Name × List (Name × Rat)) × OptGroup)
  | [] => [(optKey firsts last, ⟨firsts, [last]⟩)]
  | (k, g) :: rest =>
    if k = optKey firsts last then (k, { g with lasts := g.lasts ++ [last] }) :: rest
    else (k, g) :: optInsert firsts last rest

/-- The loop over `and_conjunction_parts` (_condition_tree.py:848-858). -/
def optGroups : List (List EqPart) → List ((Name × List (Name × Rat)) × OptGroup) →
    Except Err (List ((Name × List (Name × Rat)) × OptGroup))
  | [], acc => .ok acc
  | p :: ps, acc => match splitLast p with
    | none => .error .valueError
    | some (firsts, last) => optGroups ps (optInsert firsts last acc)

/-- The clause built for a group (_condition_tree.py:860-874). -/
def optEmit (g : OptGroup) : Except Err Forb :=
  let firsts := g.firsts.map (fun p => Forb.eq p.hp p.value p.vval)
  match g.lasts with
  | [l] => .ok (.and (firsts ++ [.eq l.hp l.value l.vval]))
  | [] => .error .indexError
  | l :: ls => do
    let c ← mkForbIn l.hp ((l :: ls).map (fun p => p.value))
    .ok (.and (firsts ++ [c]))

/-- `mapM` for `Except`, spelled out. -/
def mapExcept {α β : Type} (f : α → Except Err β) : List α → Except Err (List β)
  | [] => .ok []
  | x :: xs => match f x with
    | .error e => .error e
    | .ok y => match mapExcept f xs with
      | .error e => .error e
      | .ok ys => .ok (y :: ys)

/-- `_optimized_forbiddens` (_condition_tree.py:821-876). -/
def optimizedForbs (idx : Name → Nat) (fs : List Forb) : Except Err (List Forb) :=
  let rest := fs.filter (fun f => f.eqConj?.isNone)
  let parts := (fs.filterMap Forb.eqConj?).map
    (sortBy (fun a b => decide (idx a.hp.name ≤ idx b.hp.name)))
  match optGroups parts [] with
  | .error e => .error e
  | .ok gs => match mapExcept (fun g => optEmit g.2) gs with
    | .error e => .error e
    | .ok cs => .ok (rest ++ cs)

/-- `forbidden_lookup[name]` (_condition_tree.py:551-559): the optimised clauses that mention the
hyperparameter, in order. (`set` removes repeated names, so each clause is listed once.) -/
def forbLookup (fast : List Forb) (n : Name) : List Forb :=
  fast.filter (fun f => decide (n ∈ f.names))

/-! ## Minimum conditions and their dependants -/

/-- `ConditionNode` (_condition_tree.py:69-106): the condition and the names of `unique_children`
(`children_indices` are their indices, in the same order). `dependants` are kept separately. -/
structure CNode where
  cond : Cond
  kids : List Name
deriving Repr

/-- `ConditionNode.node_parents` (_condition_tree.py:109-113). -/
def CNode.parents (c : CNode) : List Name := c.cond.parents

/-- Add a conditional node to the first group with an equivalent condition
(_condition_tree.py:791-801). -/
def addToGroups (gs : List CNode) (n : Name) (c : Cond) : List CNode :=
  match gs with
  | [] => [⟨c, [n]⟩]
  | g :: gs => if g.cond.equivOnParent c then { g with kids := g.kids ++ [n] } :: gs
    else g :: addToGroups gs n c

/-- `_minimum_conditions` (_condition_tree.py:780-819). -/
def minConditions (ns : Nodes) : List CNode :=
  ns.foldl (fun gs x => match x.cond with
    | none => gs
    | some c => addToGroups gs x.name c) []

/-- Minimum of a list (of at least one element). -/
def minList : List Nat → Nat
  | [] => 0
  | [x] => x
  | x :: xs => min x (minList xs)

/-- `shallowest_parent` (_condition_tree.py:592-593). -/
def shallowest (ns : Nodes) (c : CNode) : Nat := minList (c.parents.map (depthOf ns))

/-- `self.minimum_conditions = sorted(minimum_conditions, key=shallowest_parent)`
(_condition_tree.py:595). -/
def minCondsSorted (ns : Nodes) : List CNode :=
  sortBy (fun a b => decide (shallowest ns a ≤ shallowest ns b)) (minConditions ns)

/-- Dependants of every condition node, by position in `minimum_conditions`. -/
abbrev Deps := List (List Nat)

/-- `ConditionNode.dependant_names` (_condition_tree.py:119-124); the fuel bounds the recursion depth. -/
def depNames (cs : List CNode) (ds : Deps) : Nat → Nat → List Name
  | 0, _ => []
  | k + 1, i => ((cs[i]?).map CNode.kids).getD [] ++ (ds.getD i []).flatMap (depNames cs ds k)

/-- `b.depends_on(a)` (_condition_tree.py:115-117). -/
def dependsOn (cs : List CNode) (ds : Deps) (b a : Nat) : Bool :=
  (((cs[b]?).map CNode.parents).getD []).any
    (fun p => decide (p ∈ depNames cs ds (cs.length + 1) a))

/-- The sort of condition nodes by `shallowest_parent`, on positions. -/
def sortIdx (key : Nat → Nat) (xs : List Nat) : List Nat :=
  sortBy (fun a b => decide (key a ≤ key b)) xs

/-- State of the loop that computes the dependants (_condition_tree.py:601-615). -/
structure DepState where
  deps : Deps
  alive : List Nat
  updated : Bool
deriving Repr

/-- Body of the loop for one pair `(a, b)` (_condition_tree.py:606-615). -/
def depStep (cs : List CNode) (key : Nat → Nat) (s : DepState) (ab : Nat × Nat) : DepState :=
  if ab.1 = ab.2 then s
  else if dependsOn cs s.deps ab.2 ab.1 then
    { deps := s.deps.set ab.1 (sortIdx key (s.deps.getD ab.1 [] ++ [ab.2])),
      alive := s.alive.filter (fun x => x ≠ ab.2),
      updated := true }
  else s

/-- `itertools.product(xs, xs)`. -/
def pairs (xs : List Nat) : List (Nat × Nat) := xs.flatMap (fun a => xs.map (fun b => (a, b)))

/-- The `while updated` loop (_condition_tree.py:601-615). Every pass but the last removes an element
from `alive`, so one more pass than there are condition nodes suffices. -/
def depLoop (cs : List CNode) (key : Nat → Nat) : Nat → Deps → List Nat → Deps × List Nat
  | 0, ds, alive => (ds, alive)
  | k + 1, ds, alive =>
    let s := (pairs alive).foldl (depStep cs key) { deps := ds, alive := alive, updated := false }
    if s.updated then depLoop cs key k s.deps s.alive else (s.deps, s.alive)

/-- The breadth first traversal, level by level (_condition_tree.py:624-637: `popleft` and
`extend` on a queue visit the trees in this order). -/
def bfsOrder (ds : Deps) : Nat → List Nat → List Nat
  | 0, _ => []
  | _ + 1, [] => []
  | k + 1, level => level ++ bfsOrder ds k (level.flatMap (fun i => ds.getD i []))

/-- `change_hp_lookup` while it is built: name ↦ positions of condition nodes. -/
abbrev Lookup := List (Name × List Nat)

/-- Update of the lookup for one parent of one tree (_condition_tree.py:627-635). -/
def lookupStep (key : Nat → Nat) (entry : List Nat) (m : Lookup) (p : Name) : Lookup :=
  match m.lookup p with
  | none => m ++ [(p, entry)]
  | some xs => dictSet m p (sortIdx key (xs ++ entry))

/-- The traversal that fills the lookup (_condition_tree.py:623-637). -/
def buildLookup (cs : List CNode) (ds : Deps) (key : Nat → Nat) (order : List Nat) : Lookup :=
  order.foldl (fun m i =>
    (((cs[i]?).map CNode.parents).getD []).foldl (lookupStep key (i :: ds.getD i [])) m) []

/-- `change_hp_lookup` (_condition_tree.py:601-637), from the sorted minimum conditions. -/
def changeLookup (ns : Nodes) (cs : List CNode) : Lookup :=
  let key := fun i => ((cs[i]?).map (shallowest ns)).getD 0
  let n := cs.length
  let r := depLoop cs key (n + 1) (List.replicate n []) (List.range n)
  buildLookup cs r.1 key (bfsOrder r.1 (n + 1) (sortIdx key r.2))

/-! ## The configuration space -/

/-- `ConfigurationSpace` (configuration_space.py:115-287): the DAG, `_len` and the caches of the last
successful commit.  `com` is the snapshot of the nodes at that commit: `at`, `index_of`,
`hyperparameters`, `children_of`, `parents_of`, `conditions` are all read off it.  Name, meta data and
the random state are not modelled. -/
structure Space where
  dag : Dag := {}
  len : Nat := 0
  com : Nodes := []
  fast : List Forb := []
  minConds : List CNode := []
  lookup : Lookup := []
deriving Repr

/-- `space.index_of[name]`. -/
def Space.idx (s : Space) (n : Name) : Nat := idxOf s.com n

/-- Names in index order: `space.at`, `list(space.keys())`. -/
def Space.names (s : Space) : List Name := s.com.map Node.name

/-- `space.conditional_hyperparameters`: names of the nodes with `maximum_depth > 1`
(_condition_tree.py:471-474 `non_roots`; configuration_space.py:230-238). -/
def Space.condNames (s : Space) : List Name :=
  (s.com.filter (fun x => !decide (x.depth = 1))).map Node.name

/-- `space.forbidden_clauses` = `DAG.forbiddens` (_condition_tree.py:635-638). -/
def Space.forbs (s : Space) : List Forb := s.dag.uncond ++ s.dag.condF

/-- Commit of a transaction: the second half of `DAG.update` (_condition_tree.py:461-633). -/
def Space.commit (s : Space) (g : Dag) : Space × Option Err :=
  let ns := sortNodes g.nodes
  let roots := rootNames ns
  let fs := sortForbs (g.uncond ++ g.condF)
  let uncond := fs.filter (isUncondForb roots)
  let condF := fs.filter (fun f => !isUncondForb roots f)
  let g' : Dag := { nodes := ns, roots := roots, uncond := uncond, condF := condF }
  match optimizedForbs (idxOf ns) (uncond ++ condF) with
  | .error e => ({ s with dag := g', com := ns }, some e)
  | .ok fast =>
    let cs := minCondsSorted ns
    ({ s with dag := g', com := ns, fast := fast, minConds := cs, lookup := changeLookup ns cs }, none)

/-! ## Checking vectors -/

/-- Whether some entry is set: `activated = np.isfinite(vector)` (util.py:575). -/
def isSet (e : NV) : Bool := e.isSome

/-- The hyperparameter of a node name. -/
def Space.hp? (s : Space) (n : Name) : Option HP := (findNode s.com n).map Node.hp

/-- First name in a list whose entry is (not) set. -/
def firstWith (p : NV → Bool) (s : Space) (v : Vec) (ns : List Name) : Option Name :=
  ns.find? (fun n => p (v.at (s.idx n)))

/-- `legal_vector_single` of a child's transformer (util.py:594-599). -/
def Space.legalAt (s : Space) (v : Vec) (n : Name) : Bool :=
  match s.hp? n, v.at (s.idx n) with
  | some h, some q => h.kind.legalVec q
  | _, _ => false

/-- The loop over `minimum_conditions` in `check_configuration` (util.py:583-607), stopping at the
first exception. -/
def checkConds (s : Space) (v : Vec) (allow : Bool) : List CNode → Option Err
  | [] => none
  | c :: cs =>
    if c.cond.satVec s.idx v then
      match firstWith (fun e => !isSet e) s v c.kids with
      | some n => some (.activeNotSet n)
      | none => match c.kids.find? (fun n => !s.legalAt v n) with
        | some n => some (.illegalVector n)
        | none => checkConds s v allow cs
    else if allow then checkConds s v allow cs
    else match firstWith isSet s v c.kids with
      | some n => match s.hp? n, v.at (s.idx n) with
        | some h, some q => match h.kind.toVal q with
          | some _ => some (.inactiveSet n)
          | none => some .valueError
        | _, _ => some (.inactiveSet n)
      | none => checkConds s v allow cs

/-- `check_configuration` (util.py:570-614). -/
def Space.check (s : Space) (v : Vec) (allow : Bool := false) : Option Err :=
  match firstWith (fun e => !isSet e) s v s.dag.roots with
  | some n => some (.activeNotSet n)
  | none => match checkConds s v allow s.minConds with
    | some e => some e
    | none => if s.fast.any (fun f => f.onVec s.idx v) then some .forbidden else none

/-! ## Configurations -/

/-- A `Configuration` (configuration.py:44-102): vector, cached values (`none`: not computed yet), and
the flag; `origin` and `config_id` are not modelled. The space is passed separately. -/
structure Config where
  vec : Vec
  vals : Option (List (Name × Val)) := none
  allow : Bool := false
deriving Repr

/-- Rounding of float values (configuration.py:120-121, 233-234). -/
def roundVal (k : Kind) (v : Val) : Val :=
  if k.isFloat then match v.num? with
    | some q => .flt (roundPlaces q)
    | none => v
  else v

/-- The loop over the hyperparameters in `Configuration(values=...)` (configuration.py:108-124). -/
def fillValues (s : Space) (d : Dict) : List Node → Vec → List (Name × Val) →
    Except Err (Vec × List (Name × Val))
  | [], v, vals => .ok (v, vals)
  | x :: xs, v, vals =>
    match d.lookup x.name with
    | none => fillValues s d xs (v.set (s.idx x.name) none) vals
    | some none => fillValues s d xs (v.set (s.idx x.name) none) vals
    | some (some w) =>
      if !x.hp.kind.legalValue w then .error (.illegalValue x.name)
      else
        let w' := roundVal x.hp.kind w
        match x.hp.kind.toVec w' with
        | none => .error .keyError
        | some q => fillValues s d xs (v.set (s.idx x.name) (some q)) (vals ++ [(x.name, w')])

/-- `Configuration(space, values=d)` (configuration.py:97-126).  `any(unknown_keys)` is true when
some unknown key is a non-empty string. -/
def Config.ofValues (s : Space) (d : Dict) (allow : Bool := false) : Except Err Config :=
  if d.any (fun kv => decide (kv.1 ∉ s.dag.nodes.map Node.name) && kv.1 != "") then .error .valueError
  else match fillValues s d s.dag.nodes (List.replicate s.len none) [] with
    | .error e => .error e
    | .ok (v, vals) => match s.check v allow with
      | some e => .error e
      | none => .ok { vec := v, vals := some vals, allow := allow }

/-- `Configuration(space, vector=v)` (configuration.py:128-150): only the length is checked. -/
def Config.ofVector (s : Space) (v : Vec) (allow : Bool := false) : Except Err Config :=
  if v.length ≠ s.len then .error .valueError else .ok { vec := v, allow := allow }

/-- The values of the default configuration (configuration_space.py:889-912).  `satisfied_by_value` gets
the dictionary restricted to the parents, which are looked up first. -/
def defaultValues : List Node → Dict → Except Err Dict
  | [], d => .ok d
  | x :: xs, d =>
    match x.cond with
    | none => defaultValues xs (d ++ [(x.name, some x.hp.default)])
    | some c =>
      if c.parents.any (fun p => (d.lookup p).isNone) then .error .keyError
      else match c.satVal d with
        | .error e => .error e
        | .ok true => defaultValues xs (d ++ [(x.name, some x.hp.default)])
        | .ok false => defaultValues xs (d ++ [(x.name, none)])

/-- `_check_default_configuration`, `get_default_configuration` (configuration_space.py:889-915). -/
def Space.defaultConfig (s : Space) : Except Err Config :=
  match defaultValues s.dag.nodes [] with
  | .error e => .error e
  | .ok d => Config.ofValues s d

/-! ## `ConfigurationSpace.add` -/

/-- The body of the transaction in `ConfigurationSpace.add` (configuration_space.py:339-348). -/
def Dag.addAll (g : Dag) (hps : List HP) (cs : List Cond) (fs : List Forb) : Dag × Option Err :=
  match runAll Dag.add g hps with
  | (g, some e) => (g, some e)
  | (g, none) => match runAll Dag.addCondition g cs with
    | (g, some e) => (g, some e)
    | (g, none) => runAll Dag.addForbidden g fs

/-- `ConfigurationSpace.add` (configuration_space.py:289-351) on the arguments sorted by kind.  The state
is returned together with the exception, because the code does not roll back. -/
def Space.add (s : Space) (hps : List HP) (cs : List Cond) (fs : List Forb) : Space × Option Err :=
  match s.dag.addAll hps cs fs with
  | (g, some e) => ({ s with dag := g }, some e)
  | (g, none) => match s.commit g with
    | (s', some e) => (s', some e)
    | (s', none) =>
      let s'' := { s' with len := s'.dag.nodes.length }
      match s''.defaultConfig with
      | .error e => (s'', some e)
      | .ok _ => (s'', none)

/-- The arguments of one call of `add`, sorted by kind (configuration_space.py:311-337). -/
structure Call where
  hps : List HP := []
  conds : List Cond := []
  forbs : List Forb := []
deriving Repr

/-- The arguments were made by the constructors. -/
def Call.wf (c : Call) : Prop :=
  (∀ h ∈ c.hps, h.wf = true) ∧ (∀ x ∈ c.conds, x.wf = true) ∧ (∀ f ∈ c.forbs, f.wf = true)

/-- `Reach calls s`: `s` is the space after a history of successful calls of `add`. -/
inductive Reach : List Call → Space → Prop where
  | nil : Reach [] {}
  | snoc {calls : List Call} {s s' : Space} {c : Call} : Reach calls s → c.wf →
      s.add c.hps c.conds c.forbs = (s', none) → Reach (calls ++ [c]) s'

/-- Spaces built by successful calls of `add`. -/
def Built (s : Space) : Prop := ∃ calls, Reach calls s

/-- All hyperparameters that a history adds. -/
def allHps (calls : List Call) : List HP := calls.flatMap Call.hps
/-- All conditions that a history adds. -/
def allConds (calls : List Call) : List Cond := calls.flatMap Call.conds
/-- All clauses that a history adds. -/
def allForbs (calls : List Call) : List Forb := calls.flatMap Call.forbs

/-! ## Activity, rigorous check, changing a value -/

/-- `get_active_hyperparameters` (configuration_space.py:492-533) for one node. -/
def isActive (s : Space) (v : Vec) (x : Node) : Bool :=
  match x.cond with
  | none => true
  | some c =>
    if c.parents.any (fun p => !isSet (v.at (s.idx p))) then false else c.satVec s.idx v

/-- `get_active_hyperparameters` (configuration_space.py:492-533). -/
def Space.activeNames (s : Space) (v : Vec) : List Name :=
  (s.com.filter (isActive s v)).map Node.name

/-- The loop of `_check_configuration_rigorous` (configuration_space.py:925-941). -/
def rigorousLoop (s : Space) (v : Vec) (allow : Bool) : List Node → Option Err
  | [] => none
  | x :: xs =>
    let e := v.at (s.idx x.name)
    let act := decide (x.name ∈ s.activeNames v)
    if isSet e && !(match e with | some q => x.hp.kind.legalVec q | none => false) then
      some (.illegalVector x.name)
    else if act && !isSet e then some (.activeNotSet x.name)
    else if !allow && !act && isSet e then some (.inactiveSet x.name)
    else rigorousLoop s v allow xs

/-- `_check_configuration_rigorous` (configuration_space.py:917-951). -/
def Space.checkRigorous (s : Space) (v : Vec) (allow : Bool := false) : Option Err :=
  match rigorousLoop s v allow s.dag.nodes with
  | some e => some e
  | none => if s.forbs.any (fun f => f.onVec s.idx v) then some .forbidden else none

/-- Set the children of a condition node to NaN, or the NaN children to their defaults
(util.py:631-642). -/
def applyCNode (s : Space) (v : Vec) (c : CNode) : Vec :=
  if c.cond.satVec s.idx v then
    c.kids.foldl (fun acc n => if isSet (v.at (s.idx n)) then acc
      else acc.set (s.idx n) (some ((defaultVecs s.com).getD (s.idx n) 0))) v
  else c.kids.foldl (fun acc n => acc.set (s.idx n) none) v

/-- `change_hp_value` (util.py:617-644). -/
def Space.changeHp (s : Space) (v : Vec) (n : Name) (x : Rat) (i : Nat) : Vec :=
  ((s.lookup.lookup n).getD []).foldl
    (fun acc j => match s.minConds[j]? with
      | some c => applyCNode s acc c
      | none => acc) (v.set i (some x))

/-- `Configuration.__setitem__` (configuration.py:186-210); on an exception the configuration is
unchanged. -/
def Config.setItem (s : Space) (c : Config) (n : Name) (w : Val) : Config × Option Err :=
  match findNode s.dag.nodes n with
  | none => (c, some .keyError)
  | some x =>
    if !x.hp.kind.legalValue w then (c, some (.illegalValue n))
    else match x.hp.kind.toVec w with
      | none => (c, some .keyError)
      | some q =>
        let v := s.changeHp c.vec n q (s.idx n)
        match s.check v false with
        | some e => (c, some e)
        | none => ({ c with vec := v, vals := none }, none)

/-- `Configuration.__getitem__` (configuration.py:212-240): the value and the configuration with its
cache extended. -/
def Config.getItem (s : Space) (c : Config) (n : Name) : Except Err Val × Config :=
  match (c.vals.getD []).lookup n with
  | some w => (.ok w, c)
  | none => match findNode s.dag.nodes n with
    | none => (.error .keyError, c)
    | some x => match c.vec.at (s.idx n) with
      | none => (.error .keyError, c)
      | some q => match x.hp.kind.toVal q with
        | none => (.error .valueError, c)
        | some w =>
          let w' := roundVal x.hp.kind w
          (.ok w', { c with vals := some (dictSet (c.vals.getD []) n w') })

end Verif
