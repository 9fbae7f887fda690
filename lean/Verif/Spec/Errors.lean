import Verif.Spec.Valid
import Verif.Model.RandomNeighbor

/-!
# Specification vocabulary: what an exception says
-/

set_option autoImplicit false

namespace Verif.Spec
open Verif

/-- The hyperparameter is active: it has no condition, or its condition holds. -/
def ActiveIn (calls : List Call) (a : Assign) (n : Name) : Prop :=
  ∀ c ∈ allConds calls, childName c = some n → Holds a c

/-- What an exception of the validation says about the assignment is true.  The plain `ValueError` is the one of the
decoder (for an index that is out of range it is an `IndexError`), which is called for the message about a set but inactive
hyperparameter. -/
def TellsTruth (calls : List Call) (a : Assign) (allowInactive : Bool) : Err → Prop
  | .activeNotSet n => Known calls n ∧ ActiveIn calls a n ∧ a n = none
  | .illegalVector n => ∃ h ∈ allHps calls, h.name = n ∧ ActiveIn calls a n ∧ ∃ q, a n = some q ∧ h.kind.legalVec q = false
  | .inactiveSet n => allowInactive = false ∧ Known calls n ∧ ¬ ActiveIn calls a n ∧ ∃ q, a n = some q
  | .forbidden => ∃ f ∈ allForbs calls, Forbids a f
  | .valueError => allowInactive = false ∧
      ∃ h ∈ allHps calls, ¬ ActiveIn calls a h.name ∧ ∃ q, a h.name = some q ∧ h.kind.toVal q = none
  | _ => False

/-- The assignment that a dictionary of values describes: float values are rounded. -/
def Describes (calls : List Call) (d : Dict) (a : Assign) : Prop :=
  ∀ h ∈ allHps calls, (∃ w, d.lookup h.name = some (some w) ∧ a h.name = h.kind.toVec (roundVal h.kind w)) ∨
    ((d.lookup h.name = none ∨ d.lookup h.name = some none) ∧ a h.name = none)

/-- `ValueError` or one of the exceptions of the package, which are all subclasses of it. -/
def ValueErrorClass : Err → Prop
  | .typeError => False
  | .keyError => False
  | .indexError => False
  | .runtimeError => False
  | _ => True

end Verif.Spec
