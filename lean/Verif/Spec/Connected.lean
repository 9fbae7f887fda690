import Verif.Spec.Count
import Verif.Spec.Exchange

/-!
# Specification vocabulary: steps of a local search

A step replaces the vector of a configuration by that of a one-exchange neighbour.
-/

set_option autoImplicit false

namespace Verif.Spec
open Verif

/-- The list `l` is a possible result of `_neighborhood` for the entry `x`, when `num` neighbours of numbers are asked for
and the random generator may do anything: shuffle the choices, pick an ordinal neighbour, draw any numbers
(util.py:177-232, 288-304).  Lists are in the order in which `pop` takes the entries. -/
def MayPropose (num : Nat) (k : Kind) (x : Rat) (l : List Rat) : Prop :=
  match k with
  | .cat cs => ∃ shuffle r, (∀ l, (shuffle l).Perm l) ∧ Num.catNeighbors cs.length x (cs.length - 1) shuffle = some r ∧
      l.Perm (r.map (fun j : Nat => (j : Rat)))
  | .ord cs => ∃ w n pick r, (Kind.ord cs).toVal x = some w ∧ Num.ordNumNeighbors cs (some w) = some n ∧
      Num.ordNeighbors cs.length x n pick = some r ∧ l.Perm r
  | .int a b => ∃ draws r, Num.quantizedNeighborhood x (min num ((b - a + 1).toNat - 1)) 0 1 (b - a + 1).toNat draws = some r ∧
      l.Perm r
  | .flt _ _ => ∃ draws r, Num.continuousNeighborhood 0 1 (num * 5) draws = some r ∧ l = r.reverse
  | .const _ => False

/-- All calls of `_neighborhood` for the vector `v` give possible results. -/
def Possible (calls : List Call) (s : Space) (num : Nat) (v : Vec) (nb : Nat → Name → List Rat) : Prop :=
  ∀ k, ∀ h ∈ allHps calls, h.kind.size ≠ some 1 → ∀ x, v.at (s.idx h.name) = some x →
    MayPropose num h.kind x (nb k h.name)

/-- For some outcome of the random generator, `w` is the vector of a one-exchange neighbour of the configuration with
vector `v`. -/
def MayStep (calls : List Call) (s : Space) (num : Nat) (v w : Vec) : Prop :=
  ∃ c nb choices st n, Config.ofVector s v = .ok c ∧ Possible calls s num v nb ∧
    oneExchange s c num nb choices = .ok st ∧ (n, w) ∈ st.out

/-- Whatever the random generator does, `w` is among the one-exchange neighbours of the configuration with vector `v`, when
all of them have been generated. -/
def SureStep (calls : List Call) (s : Space) (num : Nat) (v w : Vec) : Prop :=
  ∀ c nb choices st, Config.ofVector s v = .ok c → Possible calls s num v nb →
    oneExchange s c num nb choices = .ok st → st.alive = 0 → ∃ n, (n, w) ∈ st.out

/-- All hyperparameters are categorical, ordinal or constant. -/
def OnlyChoices (calls : List Call) : Prop := ∀ h ∈ allHps calls, IsChoice h ∨ ∃ v, h.kind = .const v

end Verif.Spec
