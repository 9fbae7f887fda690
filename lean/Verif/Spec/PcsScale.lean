import Verif.Spec.PcsOld
import Verif.Spec.Prior
import Verif.Model.PcsScale

/-!
# Specification vocabulary: the lines of numerical hyperparameters in the pcs formats
-/

set_option autoImplicit false

namespace Verif.Spec
open Verif

/-- `name integer [1, 10] [3]log`, from its parts; `rest` is what follows the default. -/
def newLine (name type lower upper default rest : String) : List Char :=
  (name ++ " " ++ type ++ " [" ++ lower ++ ", " ++ upper ++ "] [" ++ default ++ "]" ++ rest).toList

/-- `name [1, 10] [3]il`. -/
def oldLine (name lower upper default rest : String) : List Char :=
  (name ++ " [" ++ lower ++ ", " ++ upper ++ "] [" ++ default ++ "]" ++ rest).toList

/-- The hyperparameter without its distribution: uniform on the same scale. -/
def Uniform (r : NumHP) : NumHP := { r with prior := .uniform }

/-- The text begins with the word `log`, possibly behind whitespace. -/
def SaysLog (rest : List Char) : Prop := ∃ ws t, rest = ws ++ "log".toList ++ t ∧ ∀ c ∈ ws, c ∈ " \n\t\r".toList

/-- The letters `i` and `l`. -/
def IsIL (c : Char) : Prop := c = 'i' ∨ c = 'l'

/-- The integers of the hyperparameter have at most 53 bits. -/
def FloatInts (T : PyText) (h : HP) : Prop :=
  (∀ l u, h.kind = .int l u → FloatReadable T l ∧ FloatReadable T u) ∧ ∀ n, h.default = .int n → FloatReadable T n

end Verif.Spec
