import Verif.Spec.F64Space
import Verif.Spec.F64
import Verif.Model.AnyNumInst
import Verif.Model.Config

/-!
# Specification vocabulary: spaces with logarithmic scales for which double precision is enough
-/

set_option autoImplicit false

namespace Verif.Spec
open Verif

/-- The size of the logarithms of the bounds, at least 1. -/
noncomputable def logSize (lo hi : ℝ) : ℝ := max 1 (max |Real.log lo| |Real.log hi|)

/-- The range is small enough.  Linear integer ranges: bounds below `2 ^ 49` in absolute value; logarithmic ones: from 1 to `2 ^ 39`.
The bounds of float ranges are decimals; linear: at most 32 in absolute value; logarithmic: positive, and the upper bound times the size of
the logarithms is at most 32. -/
def ModestLog (log : Bool) : Kind → Prop
  | .int l u => if log then 1 ≤ l ∧ u ≤ 2 ^ 39 else |l| < 2 ^ 49 ∧ |u| < 2 ^ 49
  | .flt l u => Decimal l ∧ Decimal u ∧
      if log then 0 < l ∧ (u : ℝ) * logSize (l : ℝ) (u : ℝ) ≤ 32 else |l| ≤ 32 ∧ |u| ≤ 32
  | _ => True

/-- Two hyperparameters that a clause may compare: neither is a float range, or both are the same range on the same scale, and if it
is logarithmic then the upper bound times the size of the logarithms is at most 3. -/
def ComparableLog (log : Scaled.Scales) (l r : HP) : Prop :=
  (∀ lo hi, l.kind ≠ .flt lo hi ∧ r.kind ≠ .flt lo hi) ∨
  (l.kind = r.kind ∧ log l = log r ∧ ∀ lo hi, l.kind = .flt lo hi → log l = true → (hi : ℝ) * logSize (lo : ℝ) (hi : ℝ) ≤ 3)

/-- Spaces for which double precision is enough: modest ranges, conditions and clauses made of the hyperparameters of the space with values as
written, and comparable hyperparameters in clauses. -/
structure PreciseLog (log : Scaled.Scales) (calls : List Call) : Prop where
  ranges : ∀ h ∈ allHps calls, ModestLog (log h) h.kind
  conds : ∀ c ∈ allConds calls, ∀ l ∈ c.dlcs, l.parent ∈ allHps calls ∧ ∀ w ∈ testVals l.test, Written l.parent.kind w
  clauses : ∀ f ∈ allForbs calls, (∀ h ∈ clauseHps f, h ∈ allHps calls) ∧ (∀ p ∈ clauseVals f, Written p.1.kind p.2)
  rels : ∀ f ∈ allForbs calls, ∀ p ∈ relPairs f, ComparableLog log p.1 p.2

/-- `v` is the vector of the values `a`, computed in double precision with `lg` for `np.log`. -/
def DoubleVectorLog (lg : ℝ → ℝ) (log : Scaled.Scales) (calls : List Call) (s : Space) (a : NamedValues) (v : List (Option ℝ)) : Prop :=
  v.length = s.len ∧ ∀ h ∈ allHps calls, v.getD (s.idx h.name) none = (a h.name).bind (AnyNum.toVecD lg (log h) h.kind)

/-- What a user sees in exact arithmetic who makes a configuration of values and then assigns items: the exception of the constructor, or, for
the configuration and after every assignment, the names that are set, with the exception of the assignment. -/
def namesSession (s : Space) (d : Dict) (allow : Bool) (steps : List (Name × Val)) :
    Except Err (List Name × List (Option Err × List Name)) :=
  match Config.ofValues s d allow with
  | .error e => .error e
  | .ok c => .ok (c.keys s, go c steps)
where
  go : Config → List (Name × Val) → List (Option Err × List Name)
    | _, [] => []
    | c, (n, w) :: rest => ((c.setItem s n w).2, (c.setItem s n w).1.keys s) :: go (c.setItem s n w).1 rest

end Verif.Spec
