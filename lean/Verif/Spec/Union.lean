import Verif.Spec.Valid

/-!
# Specification vocabulary: the union of two spaces
-/

set_option autoImplicit false

namespace Verif.Spec
open Verif

/-- `x` and `y` get the same name, when a space is added: the empty name and the prefix itself, and a name `x` that
does not have the prefix next to the name `y` that is `x` with the prefix. -/
def Clash (pfx delim x y : String) : Prop :=
  (x = "" ∧ y = pfx) ∨
  (y = pfx ++ delim ++ x ∧ x ≠ "" ∧ x ≠ pfx ∧ ¬ (pfx ++ delim).toList <+: x.toList)

/-- The part of an assignment that belongs to an added space: `r` gives the new names. -/
def Assign.part (r : Name → Name) (a : Assign) : Assign := fun n => a (r n)

/-- No condition uses `!=`. -/
def NoNotEquals (calls : List Call) : Prop := ∀ c ∈ allConds calls, ∀ l ∈ c.dlcs, ¬ IsNotEquals l

/-- Every clause mentions a hyperparameter. -/
def NoVacuousClause (calls : List Call) : Prop := ∀ f ∈ allForbs calls, clauseHps f ≠ []

end Verif.Spec
