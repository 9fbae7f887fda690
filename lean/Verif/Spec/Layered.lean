import Verif.Spec.Valid

/-!
# Specification vocabulary: order of the conditions

The code processes conditions in the order of the depth of their shallowest parent.  That order is right
if every condition comes after the conditions of its parents in this sense.
-/

set_option autoImplicit false

namespace Verif.Spec
open Verif

/-- The condition mentions the parent. -/
def Mentions (c : Cond) (p : Name) : Prop := ∃ l ∈ c.dlcs, l.parent.name = p

/-- `p` is on level `k`: the longest chain of conditions that ends in `p` has `k` hyperparameters. -/
def Level (calls : List Call) (p : Name) (k : Nat) : Prop := LongestChain (Known calls) (ParentOf calls) p k

/-- Every parent of `c` is deeper than some parent of `d`. -/
def Above (calls : List Call) (d c : Cond) : Prop :=
  ∀ p k, Mentions c p → Level calls p k → ∃ q j, Mentions d q ∧ Level calls q j ∧ j < k

/-- Every parent of `c` is at least as deep as some parent of `d`. -/
def NotBelow (calls : List Call) (d c : Cond) : Prop :=
  ∀ p k, Mentions c p → Level calls p k → ∃ q j, Mentions d q ∧ Level calls q j ∧ j ≤ k

/-- Whenever a child of the condition `d` is a parent of `c`, then `d` is above `c`; likewise for the
conditions `d'` that the code treats as equivalent to `d`. -/
def Layered (calls : List Call) : Prop :=
  ∀ c ∈ allConds calls, ∀ d ∈ allConds calls, ∀ d' ∈ allConds calls, (d' = d ∨ d'.equivOnParent d = true) →
    ∀ y, childName d = some y → Mentions c y → Above calls d' c

/-- As `Layered`, with `NotBelow`. -/
def WeaklyLayered (calls : List Call) : Prop :=
  ∀ c ∈ allConds calls, ∀ d ∈ allConds calls, ∀ d' ∈ allConds calls, (d' = d ∨ d'.equivOnParent d = true) →
    ∀ y, childName d = some y → Mentions c y → NotBelow calls d' c

theorem Layered.weakly {calls : List Call} (h : Layered calls) : WeaklyLayered calls := by
  intro c hc d hd d' hd' he y hy hm p k hp hk
  obtain ⟨q, j, h1, h2, h3⟩ := h c hc d hd d' hd' he y hy hm p k hp hk
  exact ⟨q, j, h1, h2, Nat.le_of_lt h3⟩

/-- Every condition has a single parent (there may be several tests on it). -/
def SingleParent (calls : List Call) : Prop :=
  ∀ c ∈ allConds calls, ∀ p q, Mentions c p → Mentions c q → p = q

end Verif.Spec
