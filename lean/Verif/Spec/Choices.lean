import Verif.Model.Choices
import Verif.Spec.F64

/-!
# Specification vocabulary: choices with their types
-/

set_option autoImplicit false

namespace Verif.Typed

/-- The Python types. -/
inductive Ty where
  | noneType | bool | int | float | str
deriving DecidableEq, Repr

def Sc.type : Sc → Ty
  | .none => .noneType
  | .bool _ => .bool
  | .int _ => .int
  | .flt _ => .float
  | .str _ => .str

/-- No two choices are equal. -/
def Distinct (xs : List Sc) : Prop := xs.Pairwise (fun a b => a.pyEq b = false)

/-- No text ends with a null character. -/
def NoNulEnds (xs : List Sc) : Prop := ∀ t, Sc.str t ∈ xs → t.getLast? ≠ some '\x00'

/-- If all the choices are numbers and there is a float among them, then the integers among them are doubles. -/
def DoublesIfFloats (xs : List Sc) : Prop :=
  (∀ x ∈ xs, x.num? ≠ none) → (∃ q, Sc.flt q ∈ xs) → ∀ n, Sc.int n ∈ xs → F64.IsF64 (n : Rat)

/-- Integers fit into 64 bits. -/
def Fits (xs : List Sc) : Prop := ∀ n, Sc.int n ∈ xs → -2 ^ 63 ≤ n ∧ n < 2 ^ 63

/-- All choices are of one type, or there is something among them that is not a number. -/
def Uniform (xs : List Sc) : Prop := (∀ x ∈ xs, ∀ y ∈ xs, x.type = y.type) ∨ ∃ x ∈ xs, x.num? = none

end Verif.Typed
