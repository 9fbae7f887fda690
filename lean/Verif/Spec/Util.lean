import Verif.Spec.Valid
import Verif.Model.Util

/-!
# Specification vocabulary: imputation, deactivation, grids
-/

set_option autoImplicit false

namespace Verif.Spec
open Verif

/-- What a strategy puts in place of a missing value. -/
def fallback : Strategy → HP → Option Val
  | .default, x => some x.default
  | .number q, _ => some (.flt q)
  | .other, _ => none

/-- Reading `x` gives a legal value, or is a `KeyError` (and then the strategy has a legal value for it).  Numbers for
integer ranges are integers. -/
def Imputable (s : Space) (c : Config) (st : Strategy) (x : HP) (w : Val) : Prop :=
  ((c.getItem s x.name).1 = .ok w ∨
    ((c.getItem s x.name).1 = .error .keyError ∧ fallback st x = some w)) ∧
  x.kind.legalValue w = true ∧ ExactInt x.kind w

/-- Every set conditional hyperparameter has a parent that is set. -/
def Attached (calls : List Call) (a : Assign) : Prop :=
  ∀ n, Conditional calls n → a n ≠ none → ∃ p, ParentOf calls p n ∧ a p ≠ none

/-- `!=` conditions are only on unconditional hyperparameters. -/
def NoNeqOnConditional (calls : List Call) : Prop :=
  ∀ c ∈ allConds calls, ∀ l ∈ c.dlcs, IsNotEquals l → ¬ Conditional calls l.parent.name

/-- `b` comes from `a` by removing conditional hyperparameters only. -/
def Prunes (calls : List Call) (b a : Assign) : Prop :=
  Restricts b a ∧ ∀ n, ¬ Conditional calls n → b n = a n

/-- Point `i` of a division of `[l, u]` into `n` points. -/
def gridPoint (l u : Rat) (n i : Nat) : Rat := l + (i : Rat) * ((u - l) / ((n : Rat) - 1))

/-- A value that the grid uses for the hyperparameter: any choice, or one of the requested number of equally spaced
points (rounded to an integer for integer ranges). -/
def GridValue (steps : List (Name × Nat)) (x : HP) (w : Val) : Prop :=
  match x.kind with
  | .cat cs => w ∈ cs
  | .ord cs => w ∈ cs
  | .const c => w = c
  | .flt l u => ∃ n, steps.lookup x.name = some n ∧ ∃ i < n, w = .flt (gridPoint l u n i)
  | .int l u => ∃ n, steps.lookup x.name = some n ∧ ∃ i < n, w = .int (rint (gridPoint l u n i))

/-- A positive number of steps is given for numerical hyperparameters. -/
def StepsGiven (steps : List (Name × Nat)) (x : HP) : Prop :=
  (∃ cs, x.kind = .cat cs) ∨ (∃ cs, x.kind = .ord cs) ∨ (∃ c, x.kind = .const c) ∨
  ∃ n, steps.lookup x.name = some (n + 1)

/-- The requested points are different (after rounding). -/
def StepsDistinct (steps : List (Name × Nat)) (x : HP) : Prop :=
  (∀ l u, x.kind = .flt l u → ∀ n, steps.lookup x.name = some n → ∀ i < n, ∀ j < n, i ≠ j →
    roundPlaces (gridPoint l u n i) ≠ roundPlaces (gridPoint l u n j)) ∧
  (∀ l u, x.kind = .int l u → ∀ n, steps.lookup x.name = some n → ∀ i < n, ∀ j < n, i ≠ j →
    rint (gridPoint l u n i) ≠ rint (gridPoint l u n j))

/-- The number of values that the grid uses. -/
def gridCount (steps : List (Name × Nat)) (x : HP) : Nat :=
  match x.kind with
  | .cat cs => cs.length
  | .ord cs => cs.length
  | .const _ => 1
  | _ => (steps.lookup x.name).getD 0

/-- Conditions for which the expansion of partial points works: on unconditional hyperparameters only, or a single
literal other than `!=`. -/
def GridSafe (calls : List Call) : Prop :=
  ∀ c ∈ allConds calls, (∀ l ∈ c.dlcs, ¬ Conditional calls l.parent.name) ∨ ∃ l, c = .lit l ∧ ¬ IsNotEquals l

end Verif.Spec
