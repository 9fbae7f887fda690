import Verif.Spec.Fair
import Verif.Model.RandomNeighbor

/-!
# Specification vocabulary: the random calls behind `get_random_neighbor`
-/

set_option autoImplicit false

namespace Verif.Spec
open Verif MeasureTheory

/-- The numbers `R 0`, `R 1`, ... from which the positions are made and the proposals `N 0`, `N 1`, ... (one entry per
hyperparameter, of which the program looks at one) are random: all independent of each other, every position of the space equally
likely, and all proposals with the same distribution. -/
structure RandomCalls (s : Space) {Ω : Type} [MeasurableSpace Ω] (P : Measure Ω) (R : Nat → Ω → Nat) (N : Nat → Ω → Vec) : Prop where
  measurableR : ∀ t, Measurable (R t)
  measurableN : ∀ k, Measurable (N k)
  indep : ∀ (m : Nat) (A : Nat → Set Nat) (B : Nat → Set Vec),
    P {ω | (∀ t < m, R t ω ∈ A t) ∧ ∀ k < m, N k ω ∈ B k} =
      (∏ t ∈ Finset.range m, P (R t ⁻¹' A t)) * ∏ k ∈ Finset.range m, P (N k ⁻¹' B k)
  uniform : ∀ t i, i < s.len → P {ω | R t ω % s.len = i} = (s.len : ENNReal)⁻¹
  alike : ∀ k (B : Set Vec), P (N k ⁻¹' B) = P (N 0 ⁻¹' B)

/-- The proposals of the calls of `neighbors_vectorized`, as the program sees them: at most one, from the entry of the
hyperparameter it asks for. -/
def proposals (s : Space) (u : Nat → Vec) : Nat → Name → List Rat := fun k n => ((u k).at (s.idx n)).toList

/-- With the proposals `u`, changing the hyperparameter at position `i` of `c` leads to the configuration `c'`: it is active in
`c`, has two or more values, and `c` with the proposed value in its place is accepted. -/
def ChangesTo (calls : List Call) (s : Space) (c : Config) (i : Nat) (u : Vec) (c' : Config) : Prop :=
  ∃ y ∈ allHps calls, At s.names i y.name ∧ (∃ q, c.vec.at i = some q) ∧ (∀ n, y.kind.size = some n → 2 ≤ n) ∧
    ∃ d q w, c.toDict s = .ok d ∧ u.at i = some q ∧ y.kind.toVal q = some w ∧
      Config.ofValues s (dictSet d y.name (some w)) = .ok c'

/-- The call returns, after some number of passes, a configuration in `S`. -/
def NeighborIn (s : Space) (c : Config) (r : Nat → Nat) (u : Nat → Vec) (S : Set Config) : Prop :=
  ∃ fuel c', randomNeighbor s c r (proposals s u) fuel = some (.found c') ∧ c' ∈ S

/-- The call runs forever. -/
def NeighborForever (s : Space) (c : Config) (r : Nat → Nat) (u : Nat → Vec) : Prop :=
  ∀ fuel, randomNeighbor s c r (proposals s u) fuel = none

end Verif.Spec
