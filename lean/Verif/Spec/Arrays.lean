import Verif.Model.Arrays

/-!
# Element by element
-/

set_option autoImplicit false

namespace Verif.Spec

/-- The answers for the objects one by one, as a list. -/
def oneByOne {α : Type} (f : ValArg → Except Err (Res α)) : List Obj → Except Err (List α)
  | [] => .ok []
  | v :: vs => match f (.obj v) with
    | .error e => .error e
    | .ok (.many _) => .error .valueError
    | .ok (.one a) => (oneByOne f vs).map (a :: ·)

/-- The answer for the argument, which holds the objects `vs`, is the list of the answers for each of them; it raises what the first
of them raises that raises. -/
def Elementwise {α : Type} (f : ValArg → Except Err (Res α)) (arg : ValArg) (vs : List Obj) : Prop :=
  f arg = (oneByOne f vs).map Res.many

/-- All texts, or no text, or some dictionary: numpy makes no text of a number. -/
def Homogeneous (vs : List Obj) : Prop :=
  (∀ v ∈ vs, v.isStr = true) ∨ (∀ v ∈ vs, v.isStr = false) ∨ ∃ v ∈ vs, v.isDict = true

end Verif.Spec
