import Verif.Model.JsonText
import Verif.Spec.PcsNew

/-!
# Specification vocabulary: texts of JSON files
-/

set_option autoImplicit false

namespace Verif.Spec
open Verif JText

/-- Digits without a leading zero. -/
def WholeText (t : List Char) : Prop := t = ['0'] ∨ ∃ d ds, t = d :: ds ∧ d.isDigit = true ∧ d ≠ '0' ∧ ∀ c ∈ ds, c.isDigit = true

/-- A float: an optional minus sign, digits without a leading zero, and a fraction or an exponent. -/
inductive FloatText : List Char → Prop where
  | mk (sign whole frac exp : List Char) : (sign = [] ∨ sign = ['-']) → WholeText whole →
      (frac = [] ∨ ∃ ds, Digits ds ∧ frac = '.' :: ds) →
      (exp = [] ∨ ∃ sg ds, (sg = [] ∨ sg = ['-'] ∨ sg = ['+']) ∧ Digits ds ∧ exp = 'e' :: (sg ++ ds)) →
      (frac ≠ [] ∨ exp ≠ []) → FloatText (sign ++ whole ++ frac ++ exp)

/-- The texts of floats look like floats and can be read back (guarantees of Python's `repr` for finite floats). -/
structure FloatTexts (T : PyText) : Prop where
  shape : ∀ q, FloatText (T.strFloat q).toList
  read : ∀ q, T.parseFloat (T.strFloat q) = some q

/-- No dictionary has a key twice (as in Python). -/
inductive DistinctKeys : Json → Prop where
  | null : DistinctKeys .null
  | bool (b : Bool) : DistinctKeys (.bool b)
  | val (v : Val) : DistinctKeys (.val v)
  | arr {js : List Json} : (∀ j ∈ js, DistinctKeys j) → DistinctKeys (.arr js)
  | obj {fs : List (String × Json)} : (fs.map Prod.fst).Nodup → (∀ p ∈ fs, DistinctKeys p.2) → DistinctKeys (.obj fs)

/-- An object that `json` does not know occurs. -/
inductive HasOther : Data → Prop where
  | here : HasOther .other
  | arr {ds : List Data} {d : Data} : d ∈ ds → HasOther d → HasOther (.arr ds)
  | obj {fs : List (String × Data)} {p : String × Data} : p ∈ fs → HasOther p.2 → HasOther (.obj fs)

/-- No dictionary has a key twice. -/
inductive DistinctNames : Data → Prop where
  | null : DistinctNames .null
  | bool (b : Bool) : DistinctNames (.bool b)
  | val (v : Val) : DistinctNames (.val v)
  | other : DistinctNames .other
  | arr {ds : List Data} : (∀ d ∈ ds, DistinctNames d) → DistinctNames (.arr ds)
  | obj {fs : List (String × Data)} : (fs.map Prod.fst).Nodup → (∀ p ∈ fs, DistinctNames p.2) → DistinctNames (.obj fs)

end Verif.Spec
