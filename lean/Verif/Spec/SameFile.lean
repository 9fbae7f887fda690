import Verif.Model.JsonText
import Verif.Spec.Seeded
import Verif.Spec.SpaceEq
import Verif.Spec.Subst

/-!
# Specification vocabulary: files of the same space
-/

set_option autoImplicit false

namespace Verif.Spec
open Verif JText

/-- The weights of the hyperparameters of a loaded space. -/
def weightsIn (ws : List (Name × Option (List Rat))) (n : Name) : Option (List Rat) := (ws.lookup n).getD none

/-- The text `t` is loaded as a space, and the space, with its weights, is written as `t'` by the version `ver`, whatever kind of
collection its conditions hold. -/
def Resaved (T : PyText) (ver : String) (t t' : Chars) : Prop :=
  ∃ s ws, fromJson T t = .space s ws ∧ ∀ k, toJson T s k (weightsIn ws) ver = t'

/-- The text after any number of rounds of loading and saving. -/
inductive Rounds (T : PyText) (ver : String) (t : Chars) : Nat → Chars → Prop where
  | zero : Rounds T ver t 0 t
  | succ {n : Nat} {u v : Chars} : Rounds T ver t n u → Resaved T ver u v → Rounds T ver t (n + 1) v

end Verif.Spec
