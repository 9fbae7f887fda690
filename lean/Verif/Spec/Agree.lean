import Verif.Spec.AnyNum
import Verif.Spec.F64Space
import Verif.Model.AnyNumConfig

/-!
# Specification vocabulary: two arithmetics that order the values alike

`A` and `B` are two arithmetics for the vectors of the same space.  They agree on the values `P` if, hyperparameter by hyperparameter,
the entries of these values are equal in `A` exactly if they are in `B`, and in the same order.
-/

set_option autoImplicit false

namespace Verif.Spec.Any
open Verif Verif.AnyNum
open Verif.Spec (testVals clauseVals relPairs NamedValues)

section
variable {α β α' β' : Type}

/-- A value `w` as it may be written for `h`, which is legal. -/
def Good (B : Arith α' β') (P : HP → Val → Prop) (h : HP) (w : Val) : Prop := P h w ∧ B.legalValue h w = true

/-- Both arithmetics say the same about single values, and about the pairs of values that clauses compare; the conditions, clauses and
defaults of the space are made of such values. -/
structure Agree (A : Arith α β) (B : Arith α' β') (calls : List Call) (P : HP → Val → Prop) : Prop where
  /-- the same values are legal -/
  values : ∀ h ∈ allHps calls, ∀ x, P h x → A.legalValue h x = B.legalValue h x
  /-- the same values have equal entries -/
  eq : ∀ h ∈ allHps calls, ∀ x y, Good B P h x → Good B P h y → (A.toVec h x = A.toVec h y ↔ B.toVec h x = B.toVec h y)
  /-- entries are in the same order -/
  lt : ∀ h ∈ allHps calls, ∀ x y, Good B P h x → Good B P h y → A.lt (A.toVec h x) (A.toVec h y) = B.lt (B.toVec h x) (B.toVec h y)
  /-- the same values have legal entries -/
  legal : ∀ h ∈ allHps calls, ∀ x, Good B P h x → A.legalVec h (A.toVec h x) = B.legalVec h (B.toVec h x)
  /-- the same entries can be read -/
  reads : ∀ h ∈ allHps calls, ∀ x, Good B P h x → (A.toVal h (A.toVec h x)).isSome = (B.toVal h (B.toVec h x)).isSome
  /-- two entries that a clause compares compare alike -/
  rels : ∀ f ∈ allForbs calls, ∀ p ∈ relPairs f, ∀ op x y, Good B P p.1 x → Good B P p.2 y →
    relEntries A op p.1 p.2 (some (A.toVec p.1 x)) (some (A.toVec p.2 y)) =
      relEntries B op p.1 p.2 (some (B.toVec p.1 x)) (some (B.toVec p.2 y))
  /-- conditions compare hyperparameters of the space with such values -/
  conds : ∀ c ∈ allConds calls, ∀ l ∈ c.dlcs, l.parent ∈ allHps calls ∧ ∀ w ∈ testVals l.test, Good B P l.parent w
  /-- so do clauses -/
  clauses : ∀ f ∈ allForbs calls, (∀ h ∈ clauseHps f, h ∈ allHps calls) ∧ (∀ p ∈ clauseVals f, Good B P p.1 p.2)
  /-- the defaults are such values -/
  defaults : ∀ h ∈ allHps calls, Good B P h h.default

/-- All values are legal and as they may be written. -/
def GoodAll (B : Arith α' β') (P : HP → Val → Prop) (calls : List Call) (a : NamedValues) : Prop :=
  ∀ h ∈ allHps calls, ∀ w, a h.name = some w → Good B P h w

/-- `v` is the vector of the values `a`. -/
def VectorOf (A : Arith α β) (calls : List Call) (s : Space) (a : NamedValues) (v : AVec α) : Prop :=
  v.length = s.len ∧ ∀ h ∈ allHps calls, v.at (s.idx h.name) = (a h.name).map (A.toVec h)

/-- What the configurations keep of a value has the same entries, and is again such a value. -/
def Keeps (A : Arith α β) (B : Arith α' β') (calls : List Call) (P : HP → Val → Prop) (k k' : HP → Val → Val) : Prop :=
  ∀ h ∈ allHps calls, ∀ x, Good B P h x → A.toVec h (k h x) = A.toVec h (k' h x) ∧ Good B P h (k' h x)

/-- What a user sees who makes a configuration of values and then assigns items: the exception of the constructor, or, for the
configuration and after every assignment, the names that are set, with the exception of the assignment. -/
def session [DecidableEq α] (A : Arith α β) (keep : HP → Val → Val) (s : Space) (d : Dict) (allow : Bool) (steps : List (Name × Val)) :
    Except Err (List Name × List (Option Err × List Name)) :=
  match ofValues A keep s d allow with
  | .error e => .error e
  | .ok v => .ok (keys s v, go v steps)
where
  go : AVec α → List (Name × Val) → List (Option Err × List Name)
    | _, [] => []
    | v, (n, w) :: rest => ((setItem A s v n w).2, keys s (setItem A s v n w).1) :: go (setItem A s v n w).1 rest

end

end Verif.Spec.Any
