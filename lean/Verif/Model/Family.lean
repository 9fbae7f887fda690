import Verif.Model.Subst

/-!
# Queries about parents and children (configuration_space.py:229-287, _condition_tree.py:240-254, 572-582)

The dictionaries are rebuilt from the nodes at every commit.  A missing key is a `KeyError`.
-/

set_option autoImplicit false

namespace Verif

/-- Look up a node for one of the dictionaries `children_of`, `parents_of`, `child_conditions_of` and
`parent_conditions_of`, which have an entry for every node (_condition_tree.py:578-582). -/
def Space.ofNode {α : Type} (s : Space) (n : Name) (f : Node → α) : Except Err α :=
  match findNode s.com n with
  | none => .error .keyError
  | some x => .ok (f x)

/-- `space.children_of[n]` (configuration_space.py:250-257; _condition_tree.py:579). -/
def Space.childHpsOf (s : Space) (n : Name) : Except Err (List HP) :=
  s.ofNode n (fun x => x.children.filterMap (fun kc => s.hp? kc.1))

/-- `space.parents_of[n]` (configuration_space.py:260-267; _condition_tree.py:580). -/
def Space.parentHpsOf (s : Space) (n : Name) : Except Err (List HP) :=
  s.ofNode n (fun x => x.parents.filterMap (fun kc => s.hp? kc.1))

/-- `space.child_conditions_of[n]` (configuration_space.py:270-277; _condition_tree.py:244-246, 581). -/
def Space.childConditionsOf (s : Space) (n : Name) : Except Err (List Cond) :=
  s.ofNode n (fun x => x.children.map Prod.snd)

/-- `space.parent_conditions_of[n]` (configuration_space.py:280-287; _condition_tree.py:248-254, 582). -/
def Space.parentConditionsOf (s : Space) (n : Name) : Except Err (List Cond) :=
  s.ofNode n (fun x => x.cond.toList)

end Verif
