import Verif.Spec.AnyNum
import Verif.Spec.F64
import Verif.Spec.Rebuild
import Verif.Model.F64

/-!
# Specification vocabulary: what the sampler draws and ranges in doubles
-/

set_option autoImplicit false

namespace Verif.Spec.Any
open Verif Verif.AnyNum

/-- The generator gives numbers that a sampler puts into vectors. -/
def DrawnDraws (calls : List Call) (s : Space) (rng : Nat → Nat → AMat Rat) : Prop :=
  Draws s rng ∧ ∀ b w, ∀ h ∈ allHps calls, ∀ i row, At s.names i h.name → (rng b w)[i]? = some row →
    ∀ e ∈ row, ∃ q, e = some q ∧ Spec.Drawn h.kind q

/-- A range that survives the rounding of doubles: integers of moderate size, bounds of floats that remain apart, also on the
logarithmic scale. -/
def DoubleRange (lg : ℝ → ℝ) (log : Bool) : Kind → Prop
  | .int l u => if log then 1 ≤ l ∧ u ≤ 2 ^ 39 else |l| ≤ 2 ^ 49 ∧ |u| ≤ 2 ^ 49
  | .flt l u => F64.rd (l : ℝ) < F64.rd (u : ℝ) ∧
      (log = true → 0 < F64.rd (l : ℝ) ∧ lg (F64.rd (l : ℝ)) < lg (F64.rd (u : ℝ)))
  | _ => True

/-- All ranges of the space are such ranges. -/
def DoubleRanges (lg : ℝ → ℝ) (log : HP → Bool) (calls : List Call) : Prop :=
  ∀ h ∈ allHps calls, DoubleRange lg (log h) h.kind

/-- A value that may be assigned: a whole number within the bounds, a number between the bounds, a choice, the constant. -/
def Assignable : Kind → Val → Prop
  | .int l u, v => ∃ n : Int, v.num? = some (n : Rat) ∧ l ≤ n ∧ n ≤ u
  | .flt l u, v => ∃ q : Rat, v.num? = some q ∧ l ≤ q ∧ q ≤ u
  | .cat cs, v => ∃ c ∈ cs, c.pyEq v = true
  | .ord cs, v => ∃ c ∈ cs, c.pyEq v = true
  | .const c, v => v.pyEq c = true

/-- The defaults and the values in the clauses are such values. -/
def PlainValues (calls : List Call) : Prop :=
  (∀ h ∈ allHps calls, Assignable h.kind h.default) ∧ ∀ f ∈ allForbs calls, ∀ h w, InClause h w f → Assignable h.kind w

end Verif.Spec.Any
