import Verif.Model.Base

/-!
# The order of a sequence
-/

set_option autoImplicit false

namespace Verif

/-- In the sequence, a value equal to `a` is written somewhere before one equal to `b`. -/
def Before (seq : List Val) (a b : Val) : Prop :=
  ∃ (l m r : List Val) (x y : Val), seq = l ++ x :: m ++ y :: r ∧ x.pyEq a = true ∧ y.pyEq b = true

end Verif
