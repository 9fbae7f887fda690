import Mathlib.Algebra.Order.Field.Rat
import Verif.Model.FromDict
import Verif.Spec.Valid

/-!
# Specification vocabulary: spaces from mappings
-/

set_option autoImplicit false

namespace Verif.Spec
open Verif

/-- The documented meaning of an item of the mapping, for bounds of one type. -/
inductive Means (n : Name) : Entry → HP → Prop where
  | hp (h : HP) : Means n (.hp h) h
  | ints (l u m : Int) : l < u → l ≤ m → m ≤ u →
      Means n (.tuple [.int l, .int u]) { name := n, kind := .int l u, default := .int m }
  | floats (l u l' u' m : Rat) : |l - l'| ≤ 1 / (2 * 10 ^ 13) → |u - u'| ≤ 1 / (2 * 10 ^ 13) → l' < u' → l' ≤ m → m ≤ u' →
      Means n (.tuple [.flt l, .flt u]) { name := n, kind := .flt l' u', default := .flt m }
  | choices (v : Val) (vs : List Val) : Means n (.list (v :: vs)) { name := n, kind := .cat (v :: vs), default := v }
  | constant (v : Val) : Means n (.other v) { name := n, kind := .const v, default := v }

/-- The bounds have one type, as in the examples of the documentation; a hyperparameter that is given was made by one of the
constructors. -/
def OneType : Entry → Prop
  | .tuple [.int _, .int _] => True
  | .tuple [.flt _, .flt _] => True
  | .tuple _ => False
  | .hp h => h.wf = true
  | _ => True

/-- The item makes sense: bounds in order (and apart by more than the precision), different choices, at least one of them;
a hyperparameter has the name of its key. -/
def Sane (n : Name) : Entry → Prop
  | .tuple [.int l, .int u] => l < u
  | .tuple [.flt l, .flt u] => l + 1 / 10 ^ 13 < u
  | .tuple _ => False
  | .hp h => h.wf = true ∧ h.name = n
  | .list vs => vs ≠ [] ∧ vs.Pairwise (fun a b => a.pyEq b = false)
  | .other _ => True

/-- The item makes no sense: a tuple that is not a pair, bounds of one type that are not in order, no choices, equal choices. -/
def Senseless : Entry → Prop
  | .tuple [.int l, .int u] => u ≤ l
  | .tuple [.flt l, .flt u] => u ≤ l
  | .tuple vs => vs.length ≠ 2
  | .list vs => vs = [] ∨ ¬ vs.Pairwise (fun a b => a.pyEq b = false)
  | _ => False

end Verif.Spec
