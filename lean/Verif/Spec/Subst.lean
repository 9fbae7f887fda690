import Verif.Spec.Valid
import Verif.Model.Subst

/-!
# Specification vocabulary: substitution, and conditions as the user sees them
-/

set_option autoImplicit false

namespace Verif.Spec
open Verif

/-- A literal, or one conjunction of literals. -/
inductive Flat : Cond → Prop where
  | lit (l : Lit) : Flat (.lit l)
  | and (ls : List Lit) : Flat (.and (ls.map Cond.lit))
  | or (ls : List Lit) : Flat (.or (ls.map Cond.lit))

/-- Built from literals with And only. -/
inductive AllAnd : Cond → Prop where
  | lit (l : Lit) : AllAnd (.lit l)
  | and {cs : List Cond} : (∀ c ∈ cs, AllAnd c) → AllAnd (.and cs)

/-- Built from literals with Or only. -/
inductive AllOr : Cond → Prop where
  | lit (l : Lit) : AllOr (.lit l)
  | or {cs : List Cond} : (∀ c ∈ cs, AllOr c) → AllOr (.or cs)

/-- The hyperparameters of the condition are those of the space. -/
def CondIn (s : Space) (c : Cond) : Prop :=
  ∀ l ∈ c.dlcs, l.parent ∈ s.com.map Node.hp ∧ l.child ∈ s.com.map Node.hp

/-- The hyperparameters of the clause are those of the space. -/
def ForbIn (s : Space) (f : Forb) : Prop := ∀ h ∈ clauseHps f, h ∈ s.com.map Node.hp

/-- `m` says about the hyperparameters of `s` what `l` says about its own, by name. -/
def Namesake (s : Space) (l m : Lit) : Prop :=
  m.child ∈ s.com.map Node.hp ∧ m.child.name = l.child.name ∧
  m.parent ∈ s.com.map Node.hp ∧ m.parent.name = l.parent.name ∧
  match l.test, m.test with
  | .bin op v _, .bin op' v' _ => op' = op ∧ v' = v
  | .isIn vs _, .isIn vs' _ => vs' = vs
  | _, _ => False

/-- Conditions of different children are printed differently. -/
def PrintApart (calls : List Call) : Prop :=
  ∀ c ∈ allConds calls, ∀ d ∈ allConds calls, c.render = d.render → childName c = childName d

/-- No bar and no opening parenthesis in the name. -/
def PlainName (n : Name) : Prop := '|' ∉ n.toList ∧ '(' ∉ n.toList

end Verif.Spec
