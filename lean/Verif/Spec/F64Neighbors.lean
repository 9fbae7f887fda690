import Verif.Spec.AnyNumInst
import Verif.Model.F64Neighbors

/-!
# Specification vocabulary: entries and their neighbours in doubles
-/

set_option autoImplicit false

namespace Verif.F64

/-- An entry that was made from the integer `m` on a logarithmic scale: by `to_vector`, or by the sampler. -/
def LogEntryOf (lg ex : ℝ → ℝ) (l u m : Int) (x : ℝ) : Prop :=
  x = toVecLogInt lg l u m ∨ ((∃ c, x = drawnLogInt lg ex l u c) ∧ toValLogInt lg ex l u x = m)

end Verif.F64

namespace Verif.Spec.Any
open Verif

/-- The entry of a choice is its position; there are fewer than `2 ^ 53` of them. -/
def ExactChoice : Kind → ℝ → Prop
  | .cat cs, x => ∃ i : Nat, i < cs.length ∧ x = i
  | .ord cs, x => cs.length ≤ 2 ^ 53 ∧ ∃ i : Nat, i < cs.length ∧ x = i
  | _, _ => True

/-- Entries that values have: positions of choices, entries of integers made by `to_vector` or by the sampler. -/
def ExactEntry (lg ex : ℝ → ℝ) (log : Bool) : Kind → ℝ → Prop
  | .int l u, x => ∃ m, l ≤ m ∧ m ≤ u ∧ (if log then F64.LogEntryOf lg ex l u m x else x = F64.toVecInt l u m)
  | k, x => ExactChoice k x

/-- Ranges of integers that quantisation keeps apart. -/
def FineRange (log : Bool) : Kind → Prop
  | .int l u => if log then (u - l) * u ≤ 2 ^ 37 else |l| < 2 ^ 49 ∧ |u| < 2 ^ 49 ∧ u - l < 2 ^ 25
  | .flt _ _ => False
  | _ => True

/-- What is proposed for the hyperparameters that are set comes from their `_neighborhood`, in any order. -/
def DoubleProposals (lg ex : ℝ → ℝ) (log : HP → Bool) (calls : List Call) (a : Entries ℝ) (nb : Nat → Name → List ℝ) : Prop :=
  ∀ k, ∀ h ∈ allHps calls, ∀ x, a h.name = some x →
    ∃ n g r, (∀ ns : List Nat, (g.shuffle ns).Perm ns) ∧ F64.neighborhood lg ex (log h) h.kind x n g = some r ∧ (nb k h.name).Perm r

end Verif.Spec.Any
