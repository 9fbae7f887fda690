import Verif.Model.Args

/-!
# What a nested collection of arguments contains
-/

set_option autoImplicit false

namespace Verif.Spec

/-- The objects in a nested collection, in the order in which they are written (empty texts contain nothing). -/
def leaves : Arg → List Arg
  | .iter xs => xs.attach.flatMap (fun ⟨x, _⟩ => leaves x)
  | .text [] => []
  | x => [x]

/-- Depth of nesting: a single object has depth one. -/
def depth : Arg → Nat
  | .iter xs => 1 + (xs.attach.map (fun ⟨x, _⟩ => depth x)).foldr max 0
  | _ => 1

/-- The hyperparameters among some objects, in their order; likewise conditions and clauses. -/
def hpsOf (xs : List Arg) : List HP := xs.filterMap (fun | .hp h => some h | _ => none)
@[inherit_doc hpsOf]
def condsOf (xs : List Arg) : List Cond := xs.filterMap (fun | .cond c => some c | _ => none)
@[inherit_doc hpsOf]
def forbsOf (xs : List Arg) : List Forb := xs.filterMap (fun | .forb f => some f | _ => none)

/-- Objects that belong into a space. -/
def Proper : Arg → Prop
  | .hp _ | .cond _ | .forb _ => True
  | _ => False

end Verif.Spec
