import Verif.Spec.Sample
import Verif.Model.Sample
import Mathlib.Probability.Independence.Basic

/-!
# Specification vocabulary: random draws, and what a draw shows

A *draw* is one value for every hyperparameter, before anything is known about which of them are active.
-/

set_option autoImplicit false

namespace Verif.Spec
open Verif MeasureTheory ProbabilityTheory

/-- Vectors are finite lists of rationals or `nan`: every set of vectors is an event. -/
scoped instance vecEvents : MeasurableSpace Vec := ⊤

/-- A value for every hyperparameter of the space, all of them legal. -/
def LegalDraw (calls : List Call) (s : Space) (u : Vec) : Prop :=
  u.length = s.len ∧ ∀ h ∈ allHps calls, ∀ i, At s.names i h.name → ∃ q, u.at i = some q ∧ h.kind.legalVec q = true

/-- The draws `X (b, j)` (draw `j` of batch `b`) are random: independent of each other, all with the same distribution, and with
legal values only. -/
structure IidDraws (calls : List Call) (s : Space) {Ω : Type} [MeasurableSpace Ω] (P : Measure Ω) (X : Nat × Nat → Ω → Vec) : Prop where
  measurable : ∀ p, Measurable (X p)
  indep : iIndepFun X P
  same : ∀ p q, ∀ S : Set Vec, P (X p ⁻¹' S) = P (X q ⁻¹' S)
  legal : ∀ p ω, LegalDraw calls s (X p ω)

/-- What the random generator gives when its draws are `t`: for every batch one row per hyperparameter, with one entry per draw. -/
def matrixOf (s : Space) (t : Nat × Nat → Vec) : Nat → Nat → Mat := fun b w =>
  (List.range s.len).map (fun i => (List.range w).map (fun j => (t (b, j)).at i))

/-- The vector of a valid configuration. -/
def IsValidVec (calls : List Call) (s : Space) (v : Vec) : Prop := ∃ a, Represents s v a ∧ Valid calls a

/-- The draw `u` has the values of `v` for all that is set in `v`. -/
def Shows (u v : Vec) : Prop := v.length = u.length ∧ ∀ i q, v.at i = some q → u.at i = some q

/-- The draws that show a valid configuration in `S`. -/
def Showing (calls : List Call) (s : Space) (S : Set Vec) : Set Vec := {u | ∃ v ∈ S, IsValidVec calls s v ∧ Shows u v}

/-- The vectors of the configurations that were returned, in order. -/
def vectors (r : Sampled) : List Vec := r.all.map Config.vec

/-- The call returns within `fuel` batches, and what it returns (first, second, ...) is in `S 0`, `S 1`, ... -/
def Returns (s : Space) (t : Nat × Nat → Vec) (fuel : Nat) (size : Option Int) (S : Nat → Set Vec) : Prop :=
  ∃ r, s.sampleConfiguration (matrixOf s t) fuel size = some r ∧ ∀ k v, (vectors r)[k]? = some v → v ∈ S k

/-- The call returns after some number of batches, and what it returns (first, second, ...) is in `S 0`, `S 1`, ... -/
def Delivers (s : Space) (t : Nat × Nat → Vec) (size : Option Int) (S : Nat → Set Vec) : Prop := ∃ fuel, Returns s t fuel size S

/-- The entries of a random vector are independent: the probability of some entries having some values is the product of the
probabilities. -/
def IndependentEntries {Ω : Type} [MeasurableSpace Ω] (P : Measure Ω) (u : Ω → Vec) : Prop :=
  ∀ (I : Finset Nat) (w : Nat → NV), P {ω | ∀ i ∈ I, (u ω).at i = w i} = ∏ i ∈ I, P {ω | (u ω).at i = w i}

/-- The positions of the hyperparameters that are set. -/
def setAt (v : Vec) : Finset Nat := (Finset.range v.length).filter (fun i => v.at i ≠ none)

/-- All values of a hyperparameter that are drawn at all are drawn with the same probability. -/
def UniformEntries {Ω : Type} [MeasurableSpace Ω] (P : Measure Ω) (u : Ω → Vec) : Prop :=
  ∀ i q q', P {ω | (u ω).at i = some q} ≠ 0 → P {ω | (u ω).at i = some q'} ≠ 0 → P {ω | (u ω).at i = some q} = P {ω | (u ω).at i = some q'}

/-- Every value of `v` is drawn with positive probability. -/
def CanDraw {Ω : Type} [MeasurableSpace Ω] (P : Measure Ω) (u : Ω → Vec) (v : Vec) : Prop := ∀ i q, v.at i = some q → P {ω | (u ω).at i = some q} ≠ 0

end Verif.Spec
