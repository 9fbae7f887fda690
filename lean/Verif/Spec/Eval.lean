import Verif.Model.Forb

/-!
# Specification vocabulary: values and vectors that describe the same configuration
-/

set_option autoImplicit false

namespace Verif.Spec
open Verif

/-- The dictionary `d` and the vector `v` (with layout `idx`) agree on the hyperparameter `h`: either `h` is
unset in both, or `d` has a legal value for it and `v` has the vector value of that value. -/
def Agree (d : Dict) (idx : Name → Nat) (v : Vec) (h : HP) : Prop :=
  (d.lookup h.name = some none ∧ v.at (idx h.name) = none) ∨
  ∃ w x, d.lookup h.name = some (some w) ∧ h.kind.legalValue w = true ∧
    h.kind.toVec w = some x ∧ v.at (idx h.name) = some x

/-- The hyperparameter is set in the dictionary. -/
def SetIn (d : Dict) (n : Name) : Prop := ∃ w, d.lookup n = some (some w)

/-- The literal is a `NotEqualsCondition`. -/
def IsNotEquals (l : Lit) : Prop := ∃ w x, l.test = .bin .ne w x

/-- Values of integer hyperparameters are integers (the legality check also lets numbers close to an
integer through). -/
def ExactInt (k : Kind) (w : Val) : Prop :=
  ∀ l u, k = .int l u → ∃ n : Int, w.num? = some (n : Rat)

/-- If both hyperparameters are categorical, their choices come in the same order. -/
def SameOrder (a b : HP) : Prop := ∀ cs ds, a.kind = .cat cs → b.kind = .cat ds → valsEq cs ds = true

/-- The equal parents of two conditions list their choices in the same order. -/
def SameOrders (c d : Cond) : Prop :=
  ∀ l ∈ c.dlcs, ∀ m ∈ d.dlcs, l.parent.pyEq m.parent = true → SameOrder l.parent m.parent

/-- As `Agree`, for a dictionary without the sentinel. -/
def AgreeV (d : List (Name × Val)) (idx : Name → Nat) (v : Vec) (h : HP) : Prop :=
  (d.lookup h.name = none ∧ v.at (idx h.name) = none) ∨
  ∃ w x, d.lookup h.name = some w ∧ h.kind.legalValue w = true ∧ h.kind.toVec w = some x ∧
    v.at (idx h.name) = some x

mutual
/-- The hyperparameters that a clause is about. -/
def clauseHps : Forb → List HP
  | .eq h _ _ => [h]
  | .isIn h _ _ => [h]
  | .rel _ l r => [l, r]
  | .and cs => clauseHpsL cs
def clauseHpsL : List Forb → List HP
  | [] => []
  | c :: cs => clauseHps c ++ clauseHpsL cs
end

mutual
/-- The hyperparameters that a clause compares with each other. -/
def relHps : Forb → List HP
  | .eq _ _ _ => []
  | .isIn _ _ _ => []
  | .rel _ l r => [l, r]
  | .and cs => relHpsL cs
def relHpsL : List Forb → List HP
  | [] => []
  | c :: cs => relHps c ++ relHpsL cs
end

end Verif.Spec
