import Mathlib.Data.List.Forall2
import Verif.Spec.Valid
import Verif.Model.SpaceEq

/-!
# Specification vocabulary: equality of spaces
-/

set_option autoImplicit false

namespace Verif.Spec
open Verif

/-- The spaces that calls of `add` build, with the lists of clauses of their nodes. -/
inductive ReachF : List Call → FSpace → Prop where
  | nil : ReachF [] {}
  | snoc {calls : List Call} {f f' : FSpace} {k : Call} : ReachF calls f → k.wf → f.add k = (f', none) →
      ReachF (calls ++ [k]) f'

/-- Two lists are equal, element by element. -/
def ListEq {α : Type} (eq : α → α → Bool) : List α → List α → Prop := List.Forall₂ (fun a b => eq a b = true)

/-- What a comparison of two spaces looks at. -/
structure SameContent (f g : FSpace) : Prop where
  /-- the hyperparameters, in order -/
  hps : ListEq HP.pyEq (f.space.com.map Node.hp) (g.space.com.map Node.hp)
  /-- their conditions -/
  conds : ListEq condOptEq (f.space.com.map Node.cond) (g.space.com.map Node.cond)
  /-- the clauses on unconditional hyperparameters, in order, and the others -/
  uncond : ListEq Forb.pyEq f.space.dag.uncond g.space.dag.uncond
  condF : ListEq Forb.pyEq f.space.dag.condF g.space.dag.condF
  /-- for every hyperparameter the list of literal clauses about it, in order -/
  nodes : ∀ n ∈ f.space.names, ListEq Forb.pyEq (f.nf n) (g.nf n)

/-- No in clause repeats a value. -/
def NoRepeats (calls : List Call) : Prop :=
  ∀ f ∈ allForbs calls, ∀ h vs xs, Forb.isIn h vs xs ∈ f.dlcs → vs.Pairwise (fun a b => a.pyEq b = false)

/-- Equal categorical hyperparameters of the two spaces list their choices in the same order. -/
def SameChoices (calls calls' : List Call) : Prop :=
  ∀ h ∈ allHps calls, ∀ h' ∈ allHps calls', h.pyEq h' = true → SameOrder h h'

/-- Different clauses are printed differently. -/
def ClausesApart (fs : List Forb) : Prop := ∀ f ∈ fs, ∀ g ∈ fs, f.render = g.render → f = g

/-- Every condition of one list has an equal one in the other. -/
def SameConds (cs ds : List Cond) : Prop :=
  (∀ c ∈ cs, ∃ d ∈ ds, c.pyEq d = true) ∧ ∀ d ∈ ds, ∃ c ∈ cs, c.pyEq d = true

/-- All clauses come in one call. -/
def ClausesAtOnce (calls : List Call) : Prop :=
  ∃ before k after, calls = before ++ k :: after ∧ (∀ c ∈ before, c.forbs = []) ∧ ∀ c ∈ after, c.forbs = []

end Verif.Spec
