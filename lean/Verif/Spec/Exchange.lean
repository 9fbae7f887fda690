import Verif.Spec.Valid
import Verif.Model.Exchange

/-!
# Specification vocabulary: one-exchange neighbourhoods
-/

set_option autoImplicit false

namespace Verif.Spec
open Verif

/-- Every proposed neighbour is a legal vector entry. -/
def LegalProposals (calls : List Call) (nb : Nat → Name → List Rat) : Prop :=
  ∀ k, ∀ h ∈ allHps calls, ∀ x ∈ nb k h.name, h.kind.legalVec x = true

/-- The current entry is never proposed. -/
def FreshProposals (calls : List Call) (a : Assign) (nb : Nat → Name → List Rat) : Prop :=
  ∀ k, ∀ h ∈ allHps calls, ∀ x ∈ nb k h.name, a h.name ≠ some x

/-- The clause mentions the hyperparameter. -/
def ClauseOn (f : Forb) (n : Name) : Prop := ∃ x ∈ clauseHps f, x.name = n

/-- A clause about something that depends on `n` also mentions `n`. -/
def Covered (calls : List Call) (n : Name) : Prop :=
  ∀ f ∈ allForbs calls, ClauseOn f n ∨ ∀ x ∈ clauseHps f, ¬ Path (ParentOf calls) n x.name

/-- The neighbours generated by exchanging `n`, in order. -/
def yieldedFor (st : ExState) (n : Name) : List Vec := (st.out.filter (fun p => decide (p.1 = n))).map Prod.snd

/-- The hyperparameter is categorical or ordinal. -/
def IsChoice (h : HP) : Prop := (∃ cs, h.kind = .cat cs) ∨ ∃ cs, h.kind = .ord cs

end Verif.Spec
