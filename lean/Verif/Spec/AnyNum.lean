import Verif.Spec.Valid
import Verif.Model.AnyNum

/-!
# Specification vocabulary: valid configurations over any arithmetic

An assignment gives every name its entry, or `none` if the hyperparameter is not set.  The entry of a value is what
`to_vector` of the hyperparameter makes of it, whatever this is.  Nothing here mentions positions, depths, groups of conditions
or matrices.
-/

set_option autoImplicit false

namespace Verif.Spec.Any
open Verif Verif.AnyNum

variable {α β : Type} (A : Arith α β)

/-- An entry for some of the names. -/
abbrev Entries (α : Type) := Name → Option α

/-- A literal condition holds: the entry of the parent compares as it should with the entry of the value.  An unset parent satisfies
`!=` and nothing else. -/
def LitHolds (a : Entries α) (l : Lit) : Prop :=
  match l.test with
  | .bin .eq w _ => a l.parent.name = some (A.toVec l.parent w)
  | .bin .ne w _ => a l.parent.name ≠ some (A.toVec l.parent w)
  | .bin .lt w _ => ∃ q, a l.parent.name = some q ∧ A.lt q (A.toVec l.parent w) = true
  | .bin .gt w _ => ∃ q, a l.parent.name = some q ∧ A.lt (A.toVec l.parent w) q = true
  | .isIn ws _ => ∃ w ∈ ws, a l.parent.name = some (A.toVec l.parent w)

/-- A condition holds. -/
inductive Holds (a : Entries α) : Cond → Prop where
  | lit {l : Lit} : LitHolds A a l → Holds a (.lit l)
  | and {cs : List Cond} : (∀ c ∈ cs, Holds a c) → Holds a (.and cs)
  | or {cs : List Cond} {c : Cond} : c ∈ cs → Holds a c → Holds a (.or cs)

/-- A clause forbids the assignment. -/
inductive Forbids (a : Entries α) : Forb → Prop where
  | eq {h : HP} {w : Val} {x : Rat} : a h.name = some (A.toVec h w) → Forbids a (.eq h w x)
  | isIn {h : HP} {ws : List Val} {xs : List Rat} {w : Val} : w ∈ ws → a h.name = some (A.toVec h w) → Forbids a (.isIn h ws xs)
  | rel {op : RelOp} {l r : HP} {x y : α} {u w : β} : a l.name = some x → a r.name = some y →
      A.toVal l x = some u → A.toVal r y = some w → A.onVals op u w = true → Forbids a (.rel op l r)
  | and {fs : List Forb} : (∀ f ∈ fs, Forbids a f) → Forbids a (.and fs)

/-- The vector `v` of the space `s` holds the entries `a` (on the names of `s`). -/
def Represents (s : Space) (v : AVec α) (a : Entries α) : Prop :=
  v.length = s.len ∧ ∀ i n, At s.names i n → v.at i = a n

/-- Unconditional hyperparameters are set. -/
def RootsSet (calls : List Call) (a : Entries α) : Prop := ∀ n, Known calls n → ¬ Conditional calls n → ∃ q, a n = some q

/-- Conditional hyperparameters are set exactly when their condition holds. -/
def ActivityOk (calls : List Call) (a : Entries α) : Prop :=
  ∀ c ∈ allConds calls, ∀ n, childName c = some n → ((∃ q, a n = some q) ↔ Holds A a c)

/-- The set hyperparameters have legal entries. -/
def LegalAll (calls : List Call) (a : Entries α) : Prop := ∀ h ∈ allHps calls, ∀ q, a h.name = some q → A.legalVec h q = true

/-- The set conditional hyperparameters have legal entries. -/
def LegalConditional (calls : List Call) (a : Entries α) : Prop :=
  ∀ h ∈ allHps calls, Conditional calls h.name → ∀ q, a h.name = some q → A.legalVec h q = true

/-- No clause forbids the assignment. -/
def NotForbidden (calls : List Call) (a : Entries α) : Prop := ∀ f ∈ allForbs calls, ¬ Forbids A a f

/-- A valid configuration. -/
structure Valid (calls : List Call) (a : Entries α) : Prop where
  roots : RootsSet calls a
  active : ActivityOk A calls a
  legal : LegalAll A calls a
  allowed : NotForbidden A calls a

/-- The set unconditional hyperparameters have legal entries. -/
def LegalRoots (calls : List Call) (a : Entries α) : Prop :=
  ∀ h ∈ allHps calls, ¬ Conditional calls h.name → ∀ q, a h.name = some q → A.legalVec h q = true

/-- Conditions that the code groups together have the same meaning. -/
def Separable (calls : List Call) : Prop :=
  ∀ c ∈ allConds calls, ∀ d ∈ allConds calls, c.equivOnParent d = true → ∀ a, Holds A a c ↔ Holds A a d

/-- The value `w` of the hyperparameter `h` occurs in a clause. -/
inductive InClause (h : HP) (w : Val) : Forb → Prop where
  | eq {x : Rat} : InClause h w (.eq h w x)
  | isIn {ws : List Val} {xs : List Rat} : w ∈ ws → InClause h w (.isIn h ws xs)
  | and {fs : List Forb} {f : Forb} : f ∈ fs → InClause h w f → InClause h w (.and fs)

/-- The constructors of the clauses accept their values. -/
def LegalClauses (calls : List Call) : Prop := ∀ f ∈ allForbs calls, ∀ h w, InClause h w f → A.legalValue h w = true

/-- The generator gives, for every batch and every number of columns, one row per hyperparameter with one entry per column. -/
def Draws (s : Space) (rng : Nat → Nat → AMat α) : Prop :=
  ∀ b w, (rng b w).length = s.len ∧ ∀ row ∈ rng b w, row.length = w

/-- The generator gives legal entries of the hyperparameters. -/
def LegalDraws (calls : List Call) (s : Space) (rng : Nat → Nat → AMat α) : Prop :=
  Draws s rng ∧ ∀ b w, ∀ h ∈ allHps calls, ∀ i row, At s.names i h.name → (rng b w)[i]? = some row →
    ∀ e ∈ row, ∃ q, e = some q ∧ A.legalVec h q = true

/-- The defaults have legal entries. -/
def LegalDefaults (calls : List Call) : Prop := ∀ h ∈ allHps calls, A.legalVec h (A.toVec h h.default) = true

/-- Values that are equal in Python have the same entry. -/
def EqualEntries (calls : List Call) : Prop := ∀ h ∈ allHps calls, ∀ v w : Val, v.pyEq w = true → A.toVec h v = A.toVec h w

end Verif.Spec.Any
