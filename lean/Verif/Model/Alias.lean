import Verif.Model.Union

/-!
# Adding a configuration space, with objects and their identity (configuration_space.py:353-430)

`Model/Union.lean` treats hyperparameters as values.  In the code they are objects, conditions and clauses refer to
them, and `add_configuration_space` renames by assigning to the attribute `name` of objects, some of which belong to
the added space.  Here the objects are in a heap.
-/

set_option autoImplicit false

namespace Verif

/-- The hyperparameter objects: object `i` has the attributes `get i`; the objects from `next` on are not yet there. -/
structure Heap where
  get : Nat → HP
  next : Nat

/-- `copy.copy(hp)`. -/
def Heap.copy (h : Heap) (o : Nat) : Heap × Nat :=
  (⟨fun i => if i = h.next then h.get o else h.get i, h.next + 1⟩, h.next)

/-- `hp.name = _new_name(hp)` (configuration_space.py:396, 409-410, 423-427). -/
def Heap.rename (f : Name → Name) (h : Heap) (o : Nat) : Heap :=
  ⟨fun i => if i = o then (h.get o).rename f else h.get i, h.next⟩

/-- Several such assignments. -/
def Heap.renameAll (f : Name → Name) (h : Heap) (os : List Nat) : Heap := os.foldl (Heap.rename f) h

/-- Conditions and clauses: trees of conjunctions (`k` tells `and` from `or`) over literals. -/
inductive Tree (α : Type) where
  | leaf (x : α)
  | node (k : Bool) (ts : List (Tree α))

mutual
/-- `dlcs` of a conjunction, and the list of itself for a literal (configuration_space.py:402-406, 417-421).  The copies
of literals are new objects, so that removing the ones with the same identity (conditions.py:395-397,
forbidden.py:250-252) removes none. -/
def Tree.leaves {α : Type} : Tree α → List α
  | .leaf x => [x]
  | .node _ ts => Tree.leavesL ts
def Tree.leavesL {α : Type} : List (Tree α) → List α
  | [] => []
  | t :: ts => t.leaves ++ Tree.leavesL ts
end

mutual
/-- The copy of a conjunction copies its components (conditions.py:422-423, forbidden.py:253-254). -/
def Tree.mapAcc {α β : Type} (g : Heap → α → Heap × β) (h : Heap) : Tree α → Heap × Tree β
  | .leaf x => ((g h x).1, .leaf (g h x).2)
  | .node k ts => ((Tree.mapAccL g h ts).1, .node k (Tree.mapAccL g h ts).2)
def Tree.mapAccL {α β : Type} (g : Heap → α → Heap × β) (h : Heap) : List (Tree α) → Heap × List (Tree β)
  | [] => (h, [])
  | t :: ts => ((Tree.mapAccL g (t.mapAcc g h).1 ts).1, (t.mapAcc g h).2 :: (Tree.mapAccL g (t.mapAcc g h).1 ts).2)
end

/-- A literal condition refers to two objects. -/
structure OLit where
  child : Nat
  parent : Nat
  test : Test

/-- A literal clause refers to one object, a relation to two. -/
inductive OFLit where
  | eq (hp : Nat) (value : Val) (vval : Rat)
  | isIn (hp : Nat) (values : List Val) (vvals : List Rat)
  | rel (op : RelOp) (left right : Nat)

/-- `__copy__` of a literal condition copies the two hyperparameters (conditions.py:152-157, 347-352). -/
def OLit.copy (h : Heap) (l : OLit) : Heap × OLit :=
  ((((h.copy l.child).1).copy l.parent).1, ⟨(h.copy l.child).2, (((h.copy l.child).1).copy l.parent).2, l.test⟩)

/-- `__copy__` of a clause: a relation copies its hyperparameters (forbidden.py:171-172), the others do not
(forbidden.py:362-363, 454-455). -/
def OFLit.copy (h : Heap) : OFLit → Heap × OFLit
  | .eq o v x => (h, .eq o v x)
  | .isIn o vs xs => (h, .isIn o vs xs)
  | .rel op l r => ((((h.copy l).1).copy r).1, .rel op (h.copy l).2 (((h.copy l).1).copy r).2)

/-- The objects that are renamed for a literal, in order (configuration_space.py:409-410, 423-427). -/
def OLit.objs (l : OLit) : List Nat := [l.child, l.parent]
def OFLit.objs : OFLit → List Nat
  | .eq o _ _ => [o]
  | .isIn o _ _ => [o]
  | .rel _ l r => [l, r]

/-- The three lists that a space hands out: `values()`, `conditions`, `forbidden_clauses`. -/
structure OSpace where
  hps : List Nat
  conds : List (Tree OLit)
  forbs : List (Tree OFLit)

/-- One hyperparameter (configuration_space.py:395-397). -/
def OSpace.oneHp (f : Name → Name) (h : Heap) (o : Nat) : Heap × Nat :=
  (((h.copy o).1).rename f (h.copy o).2, (h.copy o).2)

/-- One condition (configuration_space.py:401-412). -/
def OSpace.oneCond (f : Name → Name) (h : Heap) (t : Tree OLit) : Heap × Tree OLit :=
  (((t.mapAcc OLit.copy h).1).renameAll f ((t.mapAcc OLit.copy h).2.leaves.flatMap OLit.objs), (t.mapAcc OLit.copy h).2)

/-- One clause (configuration_space.py:416-428). -/
def OSpace.oneForb (f : Name → Name) (h : Heap) (t : Tree OFLit) : Heap × Tree OFLit :=
  (((t.mapAcc OFLit.copy h).1).renameAll f ((t.mapAcc OFLit.copy h).2.leaves.flatMap OFLit.objs),
    (t.mapAcc OFLit.copy h).2)

/-- A loop that appends the results of its body. -/
def loop {α β : Type} (g : Heap → α → Heap × β) (h : Heap) : List α → Heap × List β
  | [] => (h, [])
  | x :: xs => ((loop g (g h x).1 xs).1, (g h x).2 :: (loop g (g h x).1 xs).2)

/-- The arguments of `self.add` (configuration_space.py:393-430): first the hyperparameters, then the conditions, then
the clauses. -/
def OSpace.renamed (f : Name → Name) (h : Heap) (sub : OSpace) : Heap × OSpace :=
  let h1 := loop (OSpace.oneHp f) h sub.hps
  let h2 := loop (OSpace.oneCond f) h1.1 sub.conds
  let h3 := loop (OSpace.oneForb f) h2.1 sub.forbs
  (h3.1, ⟨h1.2, h2.2, h3.2⟩)

/-! ## The values that the objects stand for -/

/-- A literal condition, read in a heap. -/
def Heap.lit (h : Heap) (l : OLit) : Lit := ⟨h.get l.child, h.get l.parent, l.test⟩
/-- A literal clause, read in a heap. -/
def Heap.flit (h : Heap) : OFLit → Forb
  | .eq o v x => .eq (h.get o) v x
  | .isIn o vs xs => .isIn (h.get o) vs xs
  | .rel op l r => .rel op (h.get l) (h.get r)

mutual
/-- A condition, read in a heap. -/
def Heap.cond (h : Heap) : Tree OLit → Cond
  | .leaf l => .lit (h.lit l)
  | .node true ts => .and (h.condL ts)
  | .node false ts => .or (h.condL ts)
def Heap.condL (h : Heap) : List (Tree OLit) → List Cond
  | [] => []
  | t :: ts => h.cond t :: h.condL ts
end

mutual
/-- A clause, read in a heap. -/
def Heap.forb (h : Heap) : Tree OFLit → Forb
  | .leaf l => h.flit l
  | .node _ ts => .and (h.forbL ts)
def Heap.forbL (h : Heap) : List (Tree OFLit) → List Forb
  | [] => []
  | t :: ts => h.forb t :: h.forbL ts
end

/-- The contents of a space, read in a heap. -/
def Heap.call (h : Heap) (o : OSpace) : Call where
  hps := o.hps.map h.get
  conds := o.conds.map h.cond
  forbs := o.forbs.map h.forb

end Verif
