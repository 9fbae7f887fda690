import Verif.Spec.AnyNum
import Verif.Spec.Exchange
import Verif.Model.AnyNumExchange

/-!
# Specification vocabulary: one-exchange neighbourhoods over any arithmetic
-/

set_option autoImplicit false

namespace Verif.Spec.Any
open Verif Verif.AnyNum

variable {α β : Type}

/-- Every neighbour that is proposed for a hyperparameter that is set is a legal entry. -/
def LegalProposals (A : Arith α β) (calls : List Call) (a : Entries α) (nb : Nat → Name → List α) : Prop :=
  ∀ k, ∀ h ∈ allHps calls, (∃ q, a h.name = some q) → ∀ x ∈ nb k h.name, A.legalVec h x = true

/-- The current entry is never proposed. -/
def FreshProposals (calls : List Call) (a : Entries α) (nb : Nat → Name → List α) : Prop :=
  ∀ k, ∀ h ∈ allHps calls, ∀ x ∈ nb k h.name, a h.name ≠ some x

/-- The neighbours generated by exchanging `n`, in order. -/
def yieldedFor (st : AnyNum.ExState α) (n : Name) : List (AVec α) := (st.out.filter (fun p => decide (p.1 = n))).map Prod.snd

end Verif.Spec.Any
