import Verif.Model.ConstArgs
import Verif.Spec.Arrays
import Mathlib.Data.List.Forall2

/-!
# Answers for listed values
-/

set_option autoImplicit false

namespace Verif.Spec

/-- The object is the choice at position `i`: the first one that is equal to it. -/
def ChoiceAt (choices : List Obj) (i : Nat) (v : Obj) : Prop :=
  (∃ x, choices[i]? = some x ∧ x.pyEq v = true) ∧ ∀ j < i, ∀ y, choices[j]? = some y → y.pyEq v = false

/-- One density for each listed value, in order: that of the position at which the value is. -/
def RightDensities (choices : List Obj) (p : Nat → Rat) (vs : List Obj) (ds : List Rat) : Prop :=
  List.Forall₂ (fun v d => ∃ i, ChoiceAt choices i v ∧ d = p i) vs ds

/-- The argument reaches the hyperparameter as it was written: it is an array, or there are sequences among the values of the
hyperparameter, or no number stands beside a text. -/
def Unmixed (hasSeq : Bool) : ListArg → Prop
  | .array _ => True
  | .seq _ vs => hasSeq = true ∨ Homogeneous vs

end Verif.Spec
