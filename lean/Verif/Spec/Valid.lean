import Verif.Spec.Space
import Verif.Spec.Eval

/-!
# Specification vocabulary: assignments and valid configurations

An assignment gives every name its vector value, or `none` if the hyperparameter is not set.  Nothing here
mentions positions, depths, groups of conditions or caches.
-/

set_option autoImplicit false

namespace Verif.Spec
open Verif

/-- A value (in vector representation) for some of the names. -/
abbrev Assign := Name → Option Rat

/-- A literal condition holds.  As in `satisfied_by_vector`, an unset parent satisfies `!=` and nothing else. -/
def LitHolds (a : Assign) (l : Lit) : Prop :=
  match l.test with
  | .bin .eq _ x => a l.parent.name = some x
  | .bin .ne _ x => a l.parent.name ≠ some x
  | .bin .lt _ x => ∃ q, a l.parent.name = some q ∧ q < x
  | .bin .gt _ x => ∃ q, a l.parent.name = some q ∧ x < q
  | .isIn _ xs => ∃ q ∈ xs, a l.parent.name = some q

/-- A condition holds. -/
inductive Holds (a : Assign) : Cond → Prop where
  | lit {l : Lit} : LitHolds a l → Holds a (.lit l)
  | and {cs : List Cond} : (∀ c ∈ cs, Holds a c) → Holds a (.and cs)
  | or {cs : List Cond} {c : Cond} : c ∈ cs → Holds a c → Holds a (.or cs)

/-- A clause forbids the assignment. -/
inductive Forbids (a : Assign) : Forb → Prop where
  | eq {h : HP} {w : Val} {x : Rat} : a h.name = some x → Forbids a (.eq h w x)
  | isIn {h : HP} {ws : List Val} {xs : List Rat} {q : Rat} : a h.name = some q → q ∈ xs →
      Forbids a (.isIn h ws xs)
  | rel {op : RelOp} {l r : HP} {x y : Rat} {u w : Val} : a l.name = some x → a r.name = some y →
      l.kind.toVal x = some u → r.kind.toVal y = some w → op.onVals u w = true → Forbids a (.rel op l r)
  | and {fs : List Forb} : (∀ f ∈ fs, Forbids a f) → Forbids a (.and fs)

/-- The vector `v` of the space `s` is the representation of the assignment `a` (on the names of `s`). -/
def Represents (s : Space) (v : Vec) (a : Assign) : Prop :=
  v.length = s.len ∧ ∀ i n, At s.names i n → v.at i = a n

/-- Unconditional hyperparameters are set. -/
def RootsSet (calls : List Call) (a : Assign) : Prop :=
  ∀ n, Known calls n → ¬ Conditional calls n → ∃ q, a n = some q

/-- Conditional hyperparameters are set exactly when their condition holds. -/
def ActivityOk (calls : List Call) (a : Assign) : Prop :=
  ∀ c ∈ allConds calls, ∀ n, childName c = some n → ((∃ q, a n = some q) ↔ Holds a c)

/-- The set hyperparameters have legal values. -/
def LegalAll (calls : List Call) (a : Assign) : Prop :=
  ∀ h ∈ allHps calls, ∀ q, a h.name = some q → h.kind.legalVec q = true

/-- The set conditional hyperparameters have legal values. -/
def LegalConditional (calls : List Call) (a : Assign) : Prop :=
  ∀ h ∈ allHps calls, Conditional calls h.name → ∀ q, a h.name = some q → h.kind.legalVec q = true

/-- No clause forbids the assignment. -/
def NotForbidden (calls : List Call) (a : Assign) : Prop := ∀ f ∈ allForbs calls, ¬ Forbids a f

/-- A valid configuration. -/
structure Valid (calls : List Call) (a : Assign) : Prop where
  roots : RootsSet calls a
  active : ActivityOk calls a
  legal : LegalAll calls a
  allowed : NotForbidden calls a

/-- The clauses were built from the hyperparameters of the space (and not from other objects that only have
the same names). -/
def OwnClauses (calls : List Call) : Prop :=
  ∀ f ∈ allForbs calls, ∀ h ∈ clauseHps f, h ∈ allHps calls

/-- The conditions were built from the hyperparameters of the space. -/
def OwnConds (calls : List Call) : Prop :=
  ∀ c ∈ allConds calls, ∀ l ∈ c.dlcs, l.parent ∈ allHps calls ∧ l.child ∈ allHps calls

/-- Conditions that the code groups together (`equivalent_condition_on_parent`) have the same
meaning.  C15 says when this is so, and when not. -/
def Separable (calls : List Call) : Prop :=
  ∀ c ∈ allConds calls, ∀ d ∈ allConds calls, c.equivOnParent d = true → ∀ a, Holds a c ↔ Holds a d

/-- Equal conditions have the same meaning.  C15 says when this is so. -/
def OneMeaning (calls : List Call) : Prop :=
  ∀ c ∈ allConds calls, ∀ d ∈ allConds calls, c.pyEq d = true → ∀ a, Holds a c ↔ Holds a d

/-- A condition that can only hold when all its parents are set: conjunctions of literals other than `!=`, and
arbitrary conditions on unconditional parents. -/
inductive Tight (calls : List Call) : Cond → Prop where
  | pos {l : Lit} : ¬ IsNotEquals l → Tight calls (.lit l)
  | root {c : Cond} : (∀ l ∈ c.dlcs, ¬ Conditional calls l.parent.name) → Tight calls c
  | and {cs : List Cond} : (∀ c ∈ cs, Tight calls c) → Tight calls (.and cs)

/-- The set unconditional hyperparameters have legal values. -/
def LegalRoots (calls : List Call) (a : Assign) : Prop :=
  ∀ h ∈ allHps calls, ¬ Conditional calls h.name → ∀ q, a h.name = some q → h.kind.legalVec q = true

/-- Hyperparameters whose condition holds are set, to legal values.  (Others may be set as well.) -/
def ActiveLegal (calls : List Call) (a : Assign) : Prop :=
  ∀ c ∈ allConds calls, ∀ h ∈ allHps calls, childName c = some h.name → Holds a c →
    ∃ q, a h.name = some q ∧ h.kind.legalVec q = true

/-- `a` is `b` with some hyperparameters removed. -/
def Restricts (a b : Assign) : Prop := ∀ n q, a n = some q → b n = some q

end Verif.Spec
