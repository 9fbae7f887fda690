import Verif.Model.Forb

/-!
# The condition graph (`_condition_tree.py`): nodes, edges, depths, cycle check
-/

set_option autoImplicit false

namespace Verif

/-- `HPNode` (_condition_tree.py:153-265).  `idx` is the position in the node list after a commit and
is not stored; `forbiddens` of a node are not read anywhere by the modelled code and are elided.
`children`/`parents` are insertion ordered dictionaries (association lists). -/
structure Node where
  hp : HP
  depth : Nat
  children : List (Name × Cond)
  parents : List (Name × Cond)
  cond : Option Cond
deriving Repr

/-- `HPNode.name` (_condition_tree.py:239-242). -/
def Node.name (n : Node) : Name := n.hp.name

/-- `DAG.nodes`: dictionary of nodes in order. -/
abbrev Nodes := List Node

/-- `self.nodes.get(name)`. -/
def findNode (ns : Nodes) (n : Name) : Option Node := ns.find? (fun x => x.name == n)

/-- Mutation of one node in place. -/
def modifyNode (ns : Nodes) (n : Name) (f : Node → Node) : Nodes :=
  ns.map (fun x => if x.name = n then f x else x)

/-- Names of the children of a node, in dictionary order. -/
def childNames (ns : Nodes) (n : Name) : List Name :=
  match findNode ns n with
  | some x => x.children.map Prod.fst
  | none => []

/-- `maximum_depth` of the node with the given name (only used for existing nodes). -/
def depthOf (ns : Nodes) (n : Name) : Nat :=
  match findNode ns n with
  | some x => x.depth
  | none => 0

/-- Python `d[k] = v` on an insertion ordered dictionary. -/
def dictSet {β : Type} (d : List (Name × β)) (k : Name) (v : β) : List (Name × β) :=
  match d with
  | [] => [(k, v)]
  | (k', v') :: rest => if k' = k then (k, v) :: rest else (k', v') :: dictSet rest k v

/-! ## Cycle check -/

/-- Outcome of the depth-first search. `outOfFuel` never happens with the fuel used
(theorem `cycleSearch_total` in `Lemmas/Cycle.lean`). -/
inductive Search where
  | cyclic
  | done (seen explored : List Name)
  | outOfFuel
deriving Repr, DecidableEq

/-- The `while fringe` loop of `_check_cyclic_dependancy` (_condition_tree.py:886-906).
`fringe` is the Python list reversed (top of the stack first); `succ` lists the children. -/
def cycleLoop (succ : Name → List Name) :
    Nat → List Name → List Name → List Name → Search
  | 0, _, _, _ => .outOfFuel
  | _ + 1, [], seen, explored => .done seen explored
  | k + 1, w :: rest, seen, explored =>
    if w ∈ explored then cycleLoop succ k rest seen explored
    else
      let seen' := w :: seen
      let new := (succ w).filter (fun c => c ∉ explored)
      if new.any (fun c => c ∈ seen') then .cyclic
      else if new.isEmpty then cycleLoop succ k rest seen' (w :: explored)
      else cycleLoop succ k (new.reverse ++ w :: rest) seen' explored

/-- The `for node in self.nodes.values()` loop (_condition_tree.py:882-885). -/
def cycleOuter (succ : Name → List Name) (fuel : Nat) :
    List Name → List Name → List Name → Search
  | [], seen, explored => .done seen explored
  | n :: ns, seen, explored =>
    if n ∈ explored then cycleOuter succ fuel ns seen explored
    else match cycleLoop succ fuel [n] seen explored with
      | .done seen' explored' => cycleOuter succ fuel ns seen' explored'
      | r => r

/-- Enough steps for one run of the inner loop. -/
def cycleFuel (succ : Name → List Name) (names : List Name) : Nat :=
  (names.map (fun n => (succ n).length + 1)).sum + 2

/-- `_check_cyclic_dependancy` (_condition_tree.py:878-906). -/
def cycleSearch (succ : Name → List Name) (names : List Name) : Search :=
  cycleOuter succ (cycleFuel succ names) names [] []

/-- Whether `_check_cyclic_dependancy` raises. -/
def cyclicCheck (ns : Nodes) : Bool :=
  match cycleSearch (childNames ns) (ns.map Node.name) with
  | .done _ _ => false
  | _ => true

/-! ## Depth propagation -/

/-- `HPNode.propogate_new_depth` (_condition_tree.py:256-265).  The fuel bounds the recursion depth; the
number of nodes is enough because the graph has just passed the cycle check. -/
def propDepth : Nat → Nodes → Name → Nat → Nodes
  | 0, ns, _, _ => ns
  | k + 1, ns, n, d =>
    if d ≤ depthOf ns n then ns
    else (childNames ns n).foldl (fun acc c => propDepth k acc c (d + 1))
      (modifyNode ns n (fun x => { x with depth := d }))

/-- `HPNode.__lt__` etc.: order by (maximum_depth, name) (_condition_tree.py:203-237). -/
def keyLe (a b : Nat × Name) : Bool := decide (a.1 < b.1) || (decide (a.1 = b.1) && decide (a.2 ≤ b.2))

/-- `sorted` of the entries of a children / parents dictionary by the node order. -/
def sortEntries (ns : Nodes) (es : List (Name × Cond)) : List (Name × Cond) :=
  sortBy (fun a b => keyLe (depthOf ns a.1, a.1) (depthOf ns b.1, b.1)) es

/-! ## Adding hyperparameters, conditions and clauses -/

/-- The part of `DAG` that the transaction mutates before the commit (_condition_tree.py:268-438):
nodes, names of the roots, unconditional and conditional forbidden clauses. -/
structure Dag where
  nodes : Nodes := []
  roots : List Name := []
  uncond : List Forb := []
  condF : List Forb := []
deriving Repr

/-- `DAG.add` (_condition_tree.py:640-659).  The transaction flag is not modelled: every call is made
inside `update()` by `ConfigurationSpace.add`. -/
def Dag.add (g : Dag) (h : HP) : Dag × Option Err :=
  match findNode g.nodes h.name with
  | some _ => (g, some (.alreadyExists h.name))
  | none => ({ g with
      nodes := g.nodes ++ [{ hp := h, depth := 1, children := [], parents := [], cond := none }],
      roots := g.roots ++ [h.name] }, none)

/-- Linking parent and child (_condition_tree.py:707-713). -/
def linkNodes (ns : Nodes) (p ch : Name) (c : Cond) : Nodes :=
  let ns := modifyNode ns p (fun x => { x with children := dictSet x.children ch c })
  modifyNode ns ch (fun x => { x with parents := dictSet x.parents p c, cond := some c })

/-- Reordering of the parent's children and the child's parents (_condition_tree.py:722-727). -/
def reorderNodes (ns : Nodes) (p ch : Name) : Nodes :=
  let ns := modifyNode ns p (fun x => { x with children := sortEntries ns x.children })
  modifyNode ns ch (fun x => { x with parents := sortEntries ns x.parents })

/-- One iteration of the loop over the parent names in `add_condition` (_condition_tree.py:695-727).
On failure the nodes as mutated so far are returned together with the exception. -/
def addCondParent (ns : Nodes) (ch : Name) (c : Cond) (p : Name) : Nodes × Option Err :=
  match findNode ns p with
  | none => (ns, some (.parentNotFound p))
  | some pn =>
    if (pn.children.lookup ch).any (fun e => !(c.pyEq e)) then (ns, some .ambiguous)
    else
      let ns1 := linkNodes ns p ch c
      if cyclicCheck ns1 then (ns1, some .cyclic)
      else
        let ns2 := propDepth (ns1.length + 1) ns1 ch (pn.depth + 1)
        (reorderNodes ns2 p ch, none)

/-- The loop over the parent names (_condition_tree.py:695-727). -/
def addCondLoop (ns : Nodes) (ch : Name) (c : Cond) : List Name → Nodes × Option Err
  | [] => (ns, none)
  | p :: ps => match addCondParent ns ch c p with
    | (ns', none) => addCondLoop ns' ch c ps
    | r => r

/-- `DAG.add_condition` (_condition_tree.py:661-727) on the nodes. -/
def addCondNodes (ns : Nodes) (c : Cond) : Nodes × Option Err :=
  match c.child? with
  | none => (ns, some .valueError)      -- no such condition can be constructed
  | some chp => match findNode ns chp.name with
    | none => (ns, some (.childNotFound chp.name))
    | some cn =>
      if cn.cond.any (fun e => !(c.pyEq e)) then (ns, some .ambiguous)
      else addCondLoop ns chp.name c c.parents

/-- `DAG.add_condition` (_condition_tree.py:661-727). -/
def Dag.addCondition (g : Dag) (c : Cond) : Dag × Option Err :=
  let r := addCondNodes g.nodes c
  ({ g with nodes := r.1 }, r.2)

/-- First name in the list that is not a node: `_check_hp` (_condition_tree.py:737-758). -/
def firstMissing (ns : Nodes) : List Name → Option Name
  | [] => none
  | n :: rest => match findNode ns n with
    | some _ => firstMissing ns rest
    | none => some n

/-- `DAG._is_unconditional_forbidden` (_condition_tree.py:765-778). -/
def isUncondForb (roots : List Name) (f : Forb) : Bool := f.names.all (fun n => decide (n ∈ roots))

/-- `DAG.add_forbidden` (_condition_tree.py:729-763). -/
def Dag.addForbidden (g : Dag) (f : Forb) : Dag × Option Err :=
  match firstMissing g.nodes f.names with
  | some n => (g, some (.hpNotFound n))
  | none =>
    if isUncondForb g.roots f then ({ g with uncond := g.uncond ++ [f] }, none)
    else ({ g with condF := g.condF ++ [f] }, none)

/-- Run a fallible mutation over a list, stopping at the first exception. -/
def runAll {α : Type} (op : Dag → α → Dag × Option Err) : Dag → List α → Dag × Option Err
  | g, [] => (g, none)
  | g, x :: xs => match op g x with
    | (g', none) => runAll op g' xs
    | r => r

end Verif
