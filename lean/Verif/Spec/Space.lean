import Verif.Spec.Graph
import Verif.Model.Space

/-!
# Specification vocabulary: what a history of `add` calls says

Only the data that the user passed in (hyperparameters, conditions, clauses) is mentioned here, not the
state that the code keeps.
-/

set_option autoImplicit false

namespace Verif.Spec
open Verif

/-- Name of the child a condition is about. -/
def childName (c : Cond) : Option Name := c.child?.map HP.name

/-- In the history, some condition on `c` mentions `p`. -/
def ParentOf (calls : List Call) (p c : Name) : Prop :=
  ∃ x ∈ allConds calls, childName x = some c ∧ ∃ l ∈ x.dlcs, l.parent.name = p

/-- The history adds a hyperparameter with this name. -/
def Known (calls : List Call) (n : Name) : Prop := ∃ h ∈ allHps calls, h.name = n

/-- The history adds a condition for this child. -/
def Conditional (calls : List Call) (n : Name) : Prop :=
  ∃ x ∈ allConds calls, childName x = some n

/-- `n` stands at position `i` of the list. -/
def At (l : List Name) (i : Nat) (n : Name) : Prop := l[i]? = some n

end Verif.Spec
