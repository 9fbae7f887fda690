import Verif.Spec.Sample
import Verif.Model.Sample

/-!
# Specification vocabulary: values that can be compared
-/

set_option autoImplicit false

namespace Verif.Spec
open Verif

/-- A relation occurs in a clause: it is the clause, or it occurs in a component of a conjunction. -/
inductive HasRel (op : RelOp) (l r : HP) : Forb → Prop where
  | here : HasRel op l r (.rel op l r)
  | inside {c : Forb} {cs : List Forb} : c ∈ cs → HasRel op l r c → HasRel op l r (.and cs)

/-- `v` is what some entry of the vector stands for. -/
def ValueOf (h : HP) (v : Val) : Prop := ∃ q, h.kind.toVal q = some v

/-- `<` is defined between any value of the one hyperparameter and any value of the other one. -/
def Ordered (l r : HP) : Prop := ∀ a b, ValueOf l a → ValueOf r b → (a.lt? b).isSome = true

/-- `<` is defined between no value of the one hyperparameter and no value of the other one. -/
def Unordered (l r : HP) : Prop := ∀ a b, ValueOf l a → ValueOf r b → a.lt? b = none

/-- The relations `<` and `>` of the clause are between hyperparameters with an order between their values. -/
def Comparable (f : Forb) : Prop := ∀ op l r, HasRel op l r f → op = .eq ∨ Ordered l r

/-- All values are numbers. -/
def Numbers (h : HP) : Prop := ∀ v, ValueOf h v → ∃ q, v.num? = some q

/-- A categorical or an ordinal hyperparameter with texts only. -/
def TextChoices (h : HP) : Prop := ∃ cs, (h.kind = .cat cs ∨ h.kind = .ord cs) ∧ ∀ v ∈ cs, ∃ t, v = .str t

/-- A hyperparameter that is not a constant and whose values are numbers. -/
def NumberRange (h : HP) : Prop := Numbers h ∧ ∀ c, h.kind ≠ .const c

/-- Every entry of the vector that is set stands for a value. -/
def Decodable (calls : List Call) (s : Space) (v : Vec) : Prop :=
  ∀ h ∈ allHps calls, ∀ q, v.at (s.idx h.name) = some q → ∃ w, h.kind.toVal q = some w

/-- The generator gives entries that stand for values. -/
def DecodableDraws (calls : List Call) (s : Space) (rng : Nat → Nat → Mat) : Prop :=
  Draws s rng ∧ ∀ b w, ∀ v ∈ Mat.cols w (rng b w), Decodable calls s v

/-- A hyperparameter of a clause is the hyperparameter of that name. -/
def SameNamed (calls : List Call) : Prop :=
  ∀ f ∈ allForbs calls, ∀ h ∈ clauseHps f, ∀ x ∈ allHps calls, x.name = h.name → x = h

end Verif.Spec
