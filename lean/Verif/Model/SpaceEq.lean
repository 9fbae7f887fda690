import Verif.Model.Subst

/-!
# Equality of spaces (`ConfigurationSpace.__eq__`)

`ConfigurationSpace.__eq__` compares everything but the random state: name and meta data (not modelled; taken to be equal),
`_len` and the DAG.  A DAG is compared by its nodes and its two lists of clauses (_condition_tree.py:292-301), a node by
hyperparameter, index, depth, children, its list `forbiddens` and its condition (_condition_tree.py:165-201).  This list
`forbiddens` is read nowhere else; it is therefore not part of `Node` but kept beside the space.
-/

set_option autoImplicit false

namespace Verif

mutual
/-- `==` of clauses: equals clause (forbidden.py:353-357), in clause (442-452: as many values, and every value of the
first in the second), relation (166-169; same class), conjunction (256-265). -/
def Forb.pyEq : Forb → Forb → Bool
  | .eq h v _, .eq h' v' _ => h.pyEq h' && v.pyEq v'
  | .isIn h vs _, .isIn h' vs' _ => h.pyEq h' && decide (vs.length = vs'.length) && vs.all (fun v => v.pyIn vs')
  | .rel op l r, .rel op' l' r' => decide (op = op') && l.pyEq l' && r.pyEq r'
  | .and cs, .and ds => decide (cs.length = ds.length) && Forb.allIn cs ds && ds.all (fun d => Forb.anyEq cs d)
  | _, _ => false
/-- `all(c in ds for c in cs)` -/
def Forb.allIn : List Forb → List Forb → Bool
  | [], _ => true
  | c :: cs, ds => ds.any (fun d => c.pyEq d) && Forb.allIn cs ds
/-- `d in cs` -/
def Forb.anyEq : List Forb → Forb → Bool
  | [], _ => false
  | c :: cs, d => c.pyEq d || Forb.anyEq cs d
end

/-- `==` of two lists of clauses. -/
def forbsEq : List Forb → List Forb → Bool
  | [], [] => true
  | f :: fs, g :: gs => f.pyEq g && forbsEq fs gs
  | _, _ => false

/-- The lists `HPNode.forbiddens` (_condition_tree.py:182), by name of the node. -/
abbrev NodeForbs := Name → List Forb

/-- What `_sort_forbiddens` appends for a literal clause: the clause, for each of its hyperparameters
(_condition_tree.py:505-507, 512-515). -/
def Forb.onNodes : Forb → List (Name × Forb)
  | .eq h v x => [(h.name, .eq h v x)]
  | .isIn h vs xs => [(h.name, .isIn h vs xs)]
  | .rel op l r => [(l.name, .rel op l r), (r.name, .rel op l r)]
  | .and _ => []

/-- What `_sort_forbiddens` appends for a clause (_condition_tree.py:498-517): for a conjunction the literal clauses in
the order of their strings. -/
def Forb.entries (f : Forb) : List (Name × Forb) := (sortForbs f.dlcs).flatMap Forb.onNodes

/-- The commit appends the entries of all clauses, in the order of their strings, to the lists of the nodes, and removes
from each list what prints like an earlier clause (_condition_tree.py:519-526).  The lists keep what earlier commits
have left in them. -/
def NodeForbs.commit (nf : NodeForbs) (g : Dag) : NodeForbs := fun n =>
  uniqueBy Forb.render [] (nf n ++
    ((sortForbs (g.uncond ++ g.condF)).flatMap Forb.entries).filterMap (fun e => if e.1 = n then some e.2 else none))

/-- A space with the lists `forbiddens` of its nodes. -/
structure FSpace where
  space : Space := {}
  nf : NodeForbs := fun _ => []

/-- `ConfigurationSpace.add` (configuration_space.py:288-350), with the lists of the nodes: they change in the commit, which
is reached if nothing in the transaction raises (_condition_tree.py:440-526). -/
def FSpace.add (f : FSpace) (k : Call) : FSpace × Option Err :=
  let r := f.space.add k.hps k.conds k.forbs
  match f.space.dag.addAll k.hps k.conds k.forbs with
  | (_, some _) => (⟨r.1, f.nf⟩, r.2)
  | (g, none) => (⟨r.1, f.nf.commit g⟩, r.2)

/-- `==` of the dictionaries of children.  The code also compares the nodes of the children; these are nodes of the space
and are compared anyway. -/
def childrenEq (xs ys : List (Name × Cond)) : Bool :=
  decide (xs.length = ys.length) && xs.all (fun kv => match ys.lookup kv.1 with
    | some d => kv.2.pyEq d
    | none => false)

/-- `==` of `parent_condition`. -/
def condOptEq : Option Cond → Option Cond → Bool
  | none, none => true
  | some c, some d => c.pyEq d
  | _, _ => false

/-- `HPNode.__eq__`, generated by `@dataclass` (_condition_tree.py:155-201). -/
def nodeEq (f g : FSpace) (x y : Node) : Bool :=
  x.hp.pyEq y.hp && decide (f.space.idx x.name = g.space.idx y.name) && decide (x.depth = y.depth)
    && childrenEq x.children y.children && forbsEq (f.nf x.name) (g.nf y.name) && condOptEq x.cond y.cond

/-- `self == other` for spaces (configuration_space.py:820-835), with `DAG.__eq__` generated by `@dataclass`
(_condition_tree.py:268-301). -/
def FSpace.eq (f g : FSpace) : Bool :=
  decide (f.space.dag.nodes.length = g.space.dag.nodes.length)
    && f.space.dag.nodes.all (fun x => match findNode g.space.dag.nodes x.name with
      | some y => nodeEq f g x y
      | none => false)
    && forbsEq f.space.dag.uncond g.space.dag.uncond && forbsEq f.space.dag.condF g.space.dag.condF
    && decide (f.space.len = g.space.len)

end Verif
