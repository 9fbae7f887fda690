import Verif.Spec.Valid
import Verif.Model.Pcs

/-!
# Specification vocabulary: forbidden lines of a pcs file
-/

set_option autoImplicit false

namespace Verif.Spec
open Verif

/-- A dictionary of values. -/
abbrev Values := List (Name × Val)

/-- The values match the line: every name of the line has the value that is written there. -/
def Matches (d : Values) (line : PcsLine) : Prop := ∀ nv ∈ line, ∃ w, d.lookup nv.1 = some w ∧ w.pyEq nv.2 = true

/-- The clause forbids the values. -/
inductive ForbidsValues (d : Values) : Forb → Prop where
  | eq {h : HP} {w u : Val} {x : Rat} : d.lookup h.name = some u → u.pyEq w = true → ForbidsValues d (.eq h w x)
  | isIn {h : HP} {ws : List Val} {xs : List Rat} {u w : Val} : d.lookup h.name = some u → w ∈ ws → u.pyEq w = true →
      ForbidsValues d (.isIn h ws xs)
  | rel {op : RelOp} {l r : HP} {u w : Val} : d.lookup l.name = some u → d.lookup r.name = some w →
      op.onVals u w = true → ForbidsValues d (.rel op l r)
  | and {fs : List Forb} : (∀ f ∈ fs, ForbidsValues d f) → ForbidsValues d (.and fs)

/-- The clause has a relation in it. -/
inductive HasRelation : Forb → Prop where
  | rel {op : RelOp} {l r : HP} : HasRelation (.rel op l r)
  | and {fs : List Forb} {f : Forb} : f ∈ fs → HasRelation f → HasRelation (.and fs)

end Verif.Spec
