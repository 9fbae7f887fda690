import Verif.Spec.PcsNew

/-!
# Specification vocabulary: spaces that can be written in the old pcs format
-/

set_option autoImplicit false

namespace Verif.Spec
open Verif

/-- Categorical. -/
def IsCat (h : HP) : Prop := ∃ cs, h.kind = .cat cs

/-- Reading the text of the integer as a float gives the integer (it has at most 53 bits). -/
def FloatReadable (T : PyText) (n : Int) : Prop := T.parseFloat (toString n) = some (n : Rat)

/-- The hyperparameter can be written and is neither ordinal nor a constant; integers are small enough to be floats. -/
def OldHP (T : PyText) (h : HP) : Prop :=
  WritableHP h ∧
  match h.kind with
  | .cat _ => True
  | .flt _ _ => True
  | .int l u => FloatReadable T l ∧ FloatReadable T u ∧ ∀ n, h.default = .int n → FloatReadable T n
  | _ => False

/-- A test for one choice of a categorical hyperparameter, or for two or more. -/
def OldLit (l : Lit) : Prop :=
  IsCat l.parent ∧ WritableLit l ∧ ∀ op v x, l.test = .bin op v x → op = .eq

/-- A test, or a conjunction of tests. -/
inductive OldCond : Cond → Prop where
  | lit {l : Lit} : OldLit l → OldCond (.lit l)
  | and {cs : List Cond} : (∀ c ∈ cs, ∃ l, c = .lit l ∧ OldLit l) → OldCond (.and cs)

/-- The conditions that can be written at all: tests with `==`, tests with `in` for strings, and (nested) conjunctions of these. -/
inductive SmacCond : Cond → Prop where
  | eq {child parent : HP} {v : Val} {x : Rat} : SmacCond (.lit ⟨child, parent, .bin .eq v x⟩)
  | isIn {child parent : HP} {vs : List Val} {xs : List Rat} : (∀ v ∈ vs, ∃ t, v = .str t) →
      SmacCond (.lit ⟨child, parent, .isIn vs xs⟩)
  | and {cs : List Cond} : (∀ c ∈ cs, SmacCond c) → SmacCond (.and cs)

/-- Everything in the space can be written in the old format: in particular, conditions and clauses are about categorical
hyperparameters. -/
structure OldWritable (T : PyText) (calls : List Call) : Prop where
  hps : ∀ h ∈ allHps calls, OldHP T h
  conds : ∀ c ∈ allConds calls, OldCond c
  forbs : ∀ f ∈ allForbs calls, WritableForb T f ∧ ∀ h ∈ clauseHps f, IsCat h

end Verif.Spec
