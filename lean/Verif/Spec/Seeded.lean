import Verif.Spec.Valid
import Verif.Model.Seeded

/-!
# Specification vocabulary: the same parts in another order, and programs
-/

set_option autoImplicit false

namespace Verif.Spec
open Verif

/-- The two histories add the same hyperparameters, conditions and clauses, in any order and in any grouping into calls. -/
structure SameParts (calls calls' : List Call) : Prop where
  hps : (allHps calls).Perm (allHps calls')
  conds : ∀ c, c ∈ allConds calls ↔ c ∈ allConds calls'
  forbs : (allForbs calls).Perm (allForbs calls')

/-- No child is given two different conditions (conditions that are equal for Python may still differ in the order of
their components, and in their parents). -/
def OneCondition (calls : List Call) : Prop :=
  ∀ c ∈ allConds calls, ∀ d ∈ allConds calls, childName c = childName d → c = d

/-- The calls of `add` in a program. -/
def adds : List Cmd → List Call
  | [] => []
  | .add k :: cs => k :: adds cs
  | _ :: cs => adds cs

/-- All calls of `add` were successful. -/
def NoneFailed (as : List Ans) : Prop := ∀ e, .added (some e) ∉ as

/-- The arguments of `add` were made by the constructors. -/
def WfProgram (cs : List Cmd) : Prop := ∀ k ∈ adds cs, k.wf

/-- The generator returns as many numbers as it is asked for. -/
def Rng.Exact {σ : Type} (g : Rng σ) : Prop := ∀ h w st, (g.draw h w st).1.length = w

/-- For a hyperparameter made by a constructor the generator only returns legal entries (C49). -/
def Rng.Legal {σ : Type} (g : Rng σ) : Prop := ∀ h w st, h.wf = true → ∀ q ∈ (g.draw h w st).1, h.kind.legalVec q = true

/-- Orders in which Python may list the names in a clause: for a conjunction the elements of a set in any order. -/
def SetOrder (order : Forb → List Name) : Prop :=
  (∀ cs, (order (.and cs)).Nodup ∧ ∀ n, n ∈ order (.and cs) ↔ n ∈ (Forb.and cs).names) ∧
  (∀ h v x, order (.eq h v x) = [h.name]) ∧ (∀ h vs xs, order (.isIn h vs xs) = [h.name]) ∧
  ∀ op l r, order (.rel op l r) = [l.name, r.name]

end Verif.Spec
