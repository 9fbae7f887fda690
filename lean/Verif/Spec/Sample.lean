import Verif.Spec.Valid

/-!
# Specification vocabulary: outcomes of the random generator
-/

set_option autoImplicit false

namespace Verif.Spec
open Verif

/-- The generator gives, for every batch and every number of columns, one row per hyperparameter with one entry
per column. -/
def Draws (s : Space) (rng : Nat → Nat → Mat) : Prop :=
  ∀ b w, (rng b w).length = s.len ∧ ∀ row ∈ rng b w, row.length = w

/-- The generator gives legal values of the hyperparameters. -/
def LegalDraws (calls : List Call) (s : Space) (rng : Nat → Nat → Mat) : Prop :=
  Draws s rng ∧ ∀ b w, ∀ h ∈ allHps calls, ∀ i row, At s.names i h.name → (rng b w)[i]? = some row →
    ∀ e ∈ row, ∃ q, e = some q ∧ h.kind.legalVec q = true

end Verif.Spec
