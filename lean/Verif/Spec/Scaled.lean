import Verif.Spec.F64Space
import Verif.Model.Scaled

/-!
# Specification vocabulary: configurations as numbers, whatever the scales

A configuration gives every name that is set a number: integers and floats stand for themselves, a choice for its position.
Which numbers a space admits is said here without any scale.
-/

set_option autoImplicit false

namespace Verif.Spec
open Verif

noncomputable section

/-- Where a number lies between the bounds, on a logarithmic or a linear scale. -/
def onScale (lg : Bool) (l u y : ℝ) : ℝ :=
  if lg then (Real.log y - Real.log l) / (Real.log u - Real.log l) else (y - l) / (u - l)

/-- The entry `x` of a vector stands for the number `y`. -/
def Stands (lg : Bool) : Kind → ℝ → ℝ → Prop
  | .int l u, x, y => (∃ n : Int, l ≤ n ∧ n ≤ u ∧ y = n) ∧ x = onScale lg l u y
  | .flt l u, x, y => (l ≤ y ∧ y ≤ u) ∧ x = onScale lg l u y
  | .cat cs, x, y => (∃ i : Nat, i < cs.length ∧ y = i) ∧ x = y
  | .ord cs, x, y => (∃ i : Nat, i < cs.length ∧ y = i) ∧ x = y
  | .const _, x, y => y = 1 ∧ x = y

/-- A number for some of the names. -/
abbrev NumAssign := Name → Option ℝ

/-- `v` is the vector of the numbers `a`, on the scales `lg`. -/
def Encodes (lg : Scaled.Scales) (calls : List Call) (s : Space) (v : Scaled.RVec) (a : NumAssign) : Prop :=
  v.length = s.len ∧ ∀ h ∈ allHps calls, (v.at (s.idx h.name) = none ∧ a h.name = none) ∨
    ∃ x y, v.at (s.idx h.name) = some x ∧ a h.name = some y ∧ Stands (lg h) h.kind x y

/-- Logarithmic scales need positive numbers. -/
def PositiveLogs (lg : Scaled.Scales) (calls : List Call) : Prop :=
  ∀ h ∈ allHps calls, lg h = true → match h.kind with
    | .int l _ => 0 < l
    | .flt l _ => 0 < l
    | _ => True

/-- The number of a value. -/
def numberOf : Kind → Val → Option Rat
  | .int _ _, w => w.num?
  | .flt _ _, w => w.num?
  | .cat cs, w => (seqIndex cs w).map (fun i : Nat => (i : Rat))
  | .ord cs, w => (seqIndex cs w).map (fun i : Nat => (i : Rat))
  | .const c, w => some (if w.pyEq c then 1 else 0)

/-- A literal condition holds of the numbers. -/
def LitHoldsN (a : NumAssign) (l : Lit) : Prop :=
  match l.test with
  | .bin .eq w _ => ∃ q, numberOf l.parent.kind w = some q ∧ a l.parent.name = some (q : ℝ)
  | .bin .ne w _ => ∀ q, numberOf l.parent.kind w = some q → a l.parent.name ≠ some (q : ℝ)
  | .bin .lt w _ => ∃ q y, numberOf l.parent.kind w = some q ∧ a l.parent.name = some y ∧ y < (q : ℝ)
  | .bin .gt w _ => ∃ q y, numberOf l.parent.kind w = some q ∧ a l.parent.name = some y ∧ (q : ℝ) < y
  | .isIn ws _ => ∃ w ∈ ws, ∃ q, numberOf l.parent.kind w = some q ∧ a l.parent.name = some (q : ℝ)

/-- A condition holds of the numbers. -/
inductive HoldsN (a : NumAssign) : Cond → Prop where
  | lit {l : Lit} : LitHoldsN a l → HoldsN a (.lit l)
  | and {cs : List Cond} : (∀ c ∈ cs, HoldsN a c) → HoldsN a (.and cs)
  | or {cs : List Cond} {c : Cond} : c ∈ cs → HoldsN a c → HoldsN a (.or cs)

/-- What a user sees: a number or a text. -/
inductive Shown where
  | num (x : ℝ)
  | text (s : String)

/-- A value as a number or a text. -/
def shown : Val → Shown
  | .int n => .num n
  | .flt q => .num q
  | .str s => .text s

/-- The value that a number denotes. -/
def Denotes : Kind → ℝ → Shown → Prop
  | .int _ _, y, p => p = .num y
  | .flt _ _, y, p => p = .num y
  | .cat cs, y, p => ∃ (i : Nat) (w : Val), y = i ∧ cs[i]? = some w ∧ p = shown w
  | .ord cs, y, p => ∃ (i : Nat) (w : Val), y = i ∧ cs[i]? = some w ∧ p = shown w
  | .const c, _, p => p = shown c

/-- Comparison of two numbers or of two texts. -/
def Compares : RelOp → Shown → Shown → Prop
  | .lt, .num x, .num y => x < y
  | .eq, .num x, .num y => x = y
  | .gt, .num x, .num y => y < x
  | .lt, .text s, .text t => s < t
  | .eq, .text s, .text t => s = t
  | .gt, .text s, .text t => t < s
  | _, _, _ => False

/-- A clause forbids the numbers. -/
inductive ForbidsN (a : NumAssign) : Forb → Prop where
  | eq {h : HP} {w : Val} {x q : Rat} : numberOf h.kind w = some q → a h.name = some (q : ℝ) → ForbidsN a (.eq h w x)
  | isIn {h : HP} {ws : List Val} {xs : List Rat} {w : Val} {q : Rat} : w ∈ ws → numberOf h.kind w = some q →
      a h.name = some (q : ℝ) → ForbidsN a (.isIn h ws xs)
  | rel {op : RelOp} {l r : HP} {x y : ℝ} {p q : Shown} : a l.name = some x → a r.name = some y →
      Denotes l.kind x p → Denotes r.kind y q → Compares op p q → ForbidsN a (.rel op l r)
  | and {fs : List Forb} : (∀ f ∈ fs, ForbidsN a f) → ForbidsN a (.and fs)

/-- A valid configuration, as numbers. -/
structure ValidN (calls : List Call) (a : NumAssign) : Prop where
  roots : ∀ n, Known calls n → ¬ Conditional calls n → ∃ y, a n = some y
  active : ∀ c ∈ allConds calls, ∀ n, childName c = some n → ((∃ y, a n = some y) ↔ HoldsN a c)
  allowed : ∀ f ∈ allForbs calls, ¬ ForbidsN a f

/-! ## Random values -/

/-- Two entries, on two scales, stand for the same number. -/
def SameNumber (k : Kind) (g g' : Bool) (e e' : Option ℝ) : Prop :=
  (e = none ∧ e' = none) ∨ ∃ x x' y, e = some x ∧ e' = some x' ∧ Stands g k x y ∧ Stands g' k x' y

/-- The generator gives one row per hyperparameter, with as many entries as asked for, that stand for numbers. -/
def NumberDraws (lg : Scaled.Scales) (calls : List Call) (s : Space) (rng : Nat → Nat → Scaled.RMat) : Prop :=
  ∀ b w, (rng b w).length = s.len ∧ ∀ h ∈ allHps calls, ∀ row, (rng b w)[s.idx h.name]? = some row →
    row.length = w ∧ ∀ e ∈ row, ∃ x y, e = some x ∧ Stands (lg h) h.kind x y

/-- The same numbers are drawn on two scales. -/
def SameDraws (lg lg' : Scaled.Scales) (calls : List Call) (s : Space) (rng rng' : Nat → Nat → Scaled.RMat) : Prop :=
  ∀ b w, ∀ h ∈ allHps calls, List.Forall₂ (SameNumber h.kind (lg h) (lg' h))
    ((rng b w).getD (s.idx h.name) []) ((rng' b w).getD (s.idx h.name) [])

/-- Two vectors, on two scales, stand for the same numbers. -/
def SameNumbers (lg lg' : Scaled.Scales) (calls : List Call) (s : Space) (v v' : Scaled.RVec) : Prop :=
  ∃ a, Encodes lg calls s v a ∧ Encodes lg' calls s v' a

/-! ## Sessions -/

/-- The value of an integer range is a whole number. -/
def Whole : Kind → Val → Prop
  | .int _ _, w => ∀ q, w.num? = some q → ∃ n : Int, q = n
  | _, _ => True

/-- The dictionary gives whole numbers to integer ranges. -/
def WholeDict (calls : List Call) (d : Dict) : Prop :=
  ∀ h ∈ allHps calls, ∀ w, d.lookup h.name = some (some w) → Whole h.kind w

/-- Whole numbers are assigned to integer ranges. -/
def WholeSteps (calls : List Call) (steps : List Step) : Prop :=
  ∀ n w, Step.set n w ∈ steps → ∀ h ∈ allHps calls, h.name = n → Whole h.kind w

/-- What a user sees in a session of reading and assigning. -/
def scaledSteps (lg : Scaled.Scales) (s : Space) : Scaled.RConfig → List Step → List Seen
  | _, [] => []
  | c, .set n w :: rest => .done (Scaled.setItem lg s c n w).2 :: scaledSteps lg s (Scaled.setItem lg s c n w).1 rest
  | c, .get n :: rest => .read n (Scaled.getItem lg s c n).1 :: scaledSteps lg s (Scaled.getItem lg s c n).2 rest

/-- A session that starts with `Configuration(space, values=d)`. -/
def scaledSession (lg : Scaled.Scales) (s : Space) (d : Dict) (allow : Bool) (steps : List Step) : Except Err (List Seen) :=
  (Scaled.ofValues lg s d allow).map (fun c => scaledSteps lg s c steps)

end

end Verif.Spec
