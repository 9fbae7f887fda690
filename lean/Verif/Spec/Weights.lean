import Verif.Model.Weights

/-!
# What weights mean
-/

set_option autoImplicit false

namespace Verif

/-- The value is a choice, and this is its share of the weights; without weights all choices have the same share. -/
def Share (choices : List Val) (weights : Option (List Rat)) (v : Val) (p : Rat) : Prop :=
  ∃ (i : Nat) (c : Val), choices[i]? = some c ∧ c.pyEq v = true ∧ match weights with
    | none => p = 1 / (choices.length : Rat)
    | some ws => ∃ x, ws[i]? = some x ∧ p = x / ws.sum

/-- The sum of the first `i` numbers. -/
def sumFirst (ps : List Rat) (i : Nat) : Rat := (ps.take i).sum

end Verif
