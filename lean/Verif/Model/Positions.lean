import Verif.Model.Alias
import Verif.Model.Subst

/-!
# Vector positions kept in the objects of conditions and clauses

In the rest of the model a condition is evaluated on a vector of a space with the positions of that space.  In the code
every literal condition and clause is an object that keeps the positions itself (`parent_vector_id`, `vector_id`, `vector_ids`);
`ConfigurationSpace.add` assigns them at the commit.  Here there are several spaces and the objects may be shared.
Hyperparameters are values.
-/

set_option autoImplicit false

namespace Verif

/-- A literal clause. -/
inductive FLit where
  | eq (hp : HP) (value : Val) (vval : Rat)
  | isIn (hp : HP) (values : List Val) (vvals : List Rat)
  | rel (op : RelOp) (left right : HP)

def FLit.toForb : FLit → Forb
  | .eq h v x => .eq h v x
  | .isIn h vs xs => .isIn h vs xs
  | .rel op l r => .rel op l r

/-- The hyperparameters whose positions are kept (forbidden.py:66-68, 174-179). -/
def FLit.hps : FLit → List HP
  | .eq h _ _ => [h]
  | .isIn h _ _ => [h]
  | .rel _ l r => [l, r]

/-- The attributes that do not change: object `i` is the literal condition `lit i`, or the literal clause `clause i`. -/
structure Objs where
  lit : Nat → Lit
  clause : Nat → FLit

mutual
/-- The condition that a tree of objects is (`true` for `AndConjunction`). -/
def Tree.toCond (o : Objs) : Tree Nat → Cond
  | .leaf i => .lit (o.lit i)
  | .node true ts => .and (Tree.toCondL o ts)
  | .node false ts => .or (Tree.toCondL o ts)
def Tree.toCondL (o : Objs) : List (Tree Nat) → List Cond
  | [] => []
  | t :: ts => t.toCond o :: Tree.toCondL o ts
end

mutual
/-- The clause that a tree of objects is. -/
def Tree.toForb (o : Objs) : Tree Nat → Forb
  | .leaf i => (o.clause i).toForb
  | .node _ ts => .and (Tree.toForbL o ts)
def Tree.toForbL (o : Objs) : List (Tree Nat) → List Forb
  | [] => []
  | t :: ts => t.toForb o :: Tree.toForbL o ts
end

/-- The attributes that `set_vector_idx` assigns: `parent_vector_id` of conditions (conditions.py:62-63), `vector_id` and
`vector_ids` of clauses (forbidden.py:64, 164); `none` is `None`.  Simplification: `child_vector_id` is left out, as it is
read nowhere; so are the `parent_vector_ids` of conjunctions, which are copied from the components at the same time. -/
structure Positions where
  cond : Nat → Option Nat := fun _ => none
  clause : Nat → Option (List Nat) := fun _ => none

/-- `condition.set_vector_idx(index_of)` (conditions.py:67-74, 429-436). -/
def Positions.setCond (o : Objs) (idx : Name → Nat) (p : Positions) (t : Tree Nat) : Positions :=
  { p with cond := fun i => if i ∈ t.leaves then some (idx (o.lit i).parent.name) else p.cond i }

/-- `clause.set_vector_idx(index_of)` (forbidden.py:66-68, 174-179, 267-270). -/
def Positions.setClause (o : Objs) (idx : Name → Nat) (p : Positions) (t : Tree Nat) : Positions :=
  { p with clause := fun i => if i ∈ t.leaves then some ((o.clause i).hps.map (fun h => idx h.name)) else p.clause i }

mutual
/-- `satisfied_by_vector` (conditions.py:159-161, 354-355, 535-543, 601-609) with the parent of object `i` at position
`at' i`. -/
def Tree.satAt (o : Objs) (at' : Nat → Nat) (v : Vec) : Tree Nat → Bool
  | .leaf i => (o.lit i).test.onEntry (v.at (at' i))
  | .node true ts => Tree.satAllAt o at' v ts
  | .node false ts => Tree.satAnyAt o at' v ts
def Tree.satAllAt (o : Objs) (at' : Nat → Nat) (v : Vec) : List (Tree Nat) → Bool
  | [] => true
  | t :: ts => t.satAt o at' v && Tree.satAllAt o at' v ts
def Tree.satAnyAt (o : Objs) (at' : Nat → Nat) (v : Vec) : List (Tree Nat) → Bool
  | [] => false
  | t :: ts => t.satAt o at' v || Tree.satAnyAt o at' v ts
end

/-- `is_forbidden_vector` of a literal clause (forbidden.py:371-373, 462-463, 614-619, 685-690, 756-761). -/
def FLit.onAt (ps : List Nat) (v : Vec) : FLit → Bool
  | .eq _ _ x => match v.at (ps.getD 0 0) with | some q => decide (q = x) | none => false
  | .isIn _ _ xs => match v.at (ps.getD 0 0) with | some q => decide (q ∈ xs) | none => false
  | .rel op l r => relOnEntries op l r (v.at (ps.getD 0 0)) (v.at (ps.getD 1 0))

mutual
/-- `is_forbidden_vector` (forbidden.py:538-542) with the hyperparameters of object `i` at positions `at' i`. -/
def Tree.forbAt (o : Objs) (at' : Nat → List Nat) (v : Vec) : Tree Nat → Bool
  | .leaf i => (o.clause i).onAt (at' i) v
  | .node _ ts => Tree.forbAllAt o at' v ts
def Tree.forbAllAt (o : Objs) (at' : Nat → List Nat) (v : Vec) : List (Tree Nat) → Bool
  | [] => true
  | t :: ts => t.forbAt o at' v && Tree.forbAllAt o at' v ts
end

/-- `condition.satisfied_by_vector(v)` with the positions in the objects.  `none` if one of them is `None`:
then `vector[None]` is a matrix, and the outcome is not modelled. -/
def Positions.sat (o : Objs) (p : Positions) (t : Tree Nat) (v : Vec) : Option Bool :=
  if t.leaves.all (fun i => (p.cond i).isSome) then some (t.satAt o (fun i => (p.cond i).getD 0) v) else none

/-- `clause.is_forbidden_vector(v)` with the positions in the objects. -/
def Positions.forbids (o : Objs) (p : Positions) (t : Tree Nat) (v : Vec) : Option Bool :=
  if t.leaves.all (fun i => (p.clause i).isSome) then some (t.forbAt o (fun i => (p.clause i).getD []) v) else none

/-- The arguments of `add`. -/
structure OCall where
  hps : List HP
  conds : List (Tree Nat)
  forbs : List (Tree Nat)

def OCall.call (o : Objs) (k : OCall) : Call := ⟨k.hps, k.conds.map (Tree.toCond o), k.forbs.map (Tree.toForb o)⟩

/-- The object in `parent_condition` of the node of this name: the last one added (_condition_tree.py:709-712). -/
def lastObj (o : Objs) (ts : List (Tree Nat)) (n : Name) : Option (Tree Nat) :=
  (ts.filter (fun t => decide ((t.toCond o).child?.map HP.name = some n))).getLast?

/-- `space.conditions` as objects: the conditions of the nodes in order, without those that print like an earlier one
(_condition_tree.py:557-563). -/
def conditionObjs (o : Objs) (s : Space) (ts : List (Tree Nat)) : List (Tree Nat) :=
  uniqueBy (fun t => (t.toCond o).render) [] (s.names.filterMap (lastObj o ts))

/-- The assignments in the commit (_condition_tree.py:565-570): all clauses, and the conditions in `conditions`.  The clauses
made of others for the fast checks (_condition_tree.py:821-876) get the same positions for the objects they share, and the new
objects among them belong to no other clause. -/
def Positions.commit (o : Objs) (s : Space) (conds forbs : List (Tree Nat)) (p : Positions) : Positions :=
  (conditionObjs o s conds).foldl (Positions.setCond o s.idx) (forbs.foldl (Positions.setClause o s.idx) p)

/-- Several spaces, with the condition and clause objects added to each. -/
structure World where
  space : Nat → Space := fun _ => {}
  conds : Nat → List (Tree Nat) := fun _ => []
  forbs : Nat → List (Tree Nat) := fun _ => []
  pos : Positions := {}

/-- The world after the call `spaces[k].add(...)` has succeeded and left space `k` as `s'`. -/
def World.added (o : Objs) (w : World) (k : Nat) (c : OCall) (s' : Space) : World where
  space := fun j => if j = k then s' else w.space j
  conds := fun j => if j = k then w.conds k ++ c.conds else w.conds j
  forbs := fun j => if j = k then w.forbs k ++ c.forbs else w.forbs j
  pos := w.pos.commit o s' (w.conds k ++ c.conds) (w.forbs k ++ c.forbs)

end Verif
