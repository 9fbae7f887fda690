import Verif.Spec.F64Space
import Verif.Spec.F64

/-!
# Specification vocabulary: storing and rebuilding configurations
-/

set_option autoImplicit false

namespace Verif.Spec
open Verif

/-- A bound as the constructors of float hyperparameters keep it: `float(np.round(bound, 13))` of some double. -/
def Kept (q : Rat) : Prop := ∃ x : Rat, F64.IsF64 x ∧ F64.rd q = F64.round13 x

/-- The float ranges have bounds as the constructors keep them, and are not empty. -/
def KeptBounds (calls : List Call) : Prop :=
  ∀ h ∈ allHps calls, ∀ l u, h.kind = .flt l u → Kept l ∧ Kept u ∧ F64.rd l < F64.rd u

/-- The bounds of integer ranges are below `2 ^ 49` in absolute value. -/
def SmallInts (calls : List Call) : Prop := ∀ h ∈ allHps calls, ∀ l u, h.kind = .int l u → |l| < 2 ^ 49 ∧ |u| < 2 ^ 49

/-- The numbers that a sampler puts into a vector: positions of choices, vectors of integers within the bounds, any double between zero and
one for a float range, one for a constant. -/
def Drawn : Kind → Rat → Prop
  | .cat cs, q => ∃ i : Nat, i < cs.length ∧ q = i
  | .ord cs, q => ∃ i : Nat, i < cs.length ∧ q = i
  | .const _, q => q = 1
  | .int l u, q => ∃ n : Int, l ≤ n ∧ n ≤ u ∧ q = F64.toVecInt l u n
  | .flt _ _, q => F64.IsF64 q ∧ 0 ≤ q ∧ q ≤ 1

/-- A vector of drawn numbers; some places may be left out. -/
def DrawnVector (calls : List Call) (s : Space) (v : Vec) : Prop :=
  v.length = s.len ∧ ∀ h ∈ allHps calls, ∀ q, v.at (s.idx h.name) = some q → Drawn h.kind q

/-- No condition and no clause looks at a float hyperparameter. -/
def FloatFree (calls : List Call) : Prop :=
  ∀ h ∈ allHps calls, h.kind.isFloat = true →
    (∀ c ∈ allConds calls, ∀ l ∈ c.dlcs, l.parent.name ≠ h.name) ∧ (∀ f ∈ allForbs calls, ∀ g ∈ clauseHps f, g.name ≠ h.name)

/-- The two vectors have the same places filled, and the same entries outside of float ranges. -/
def SameButFloats (calls : List Call) (s : Space) (v w : Vec) : Prop :=
  ∀ h ∈ allHps calls, isSet (w.at (s.idx h.name)) = isSet (v.at (s.idx h.name)) ∧
    (h.kind.isFloat = false → w.at (s.idx h.name) = v.at (s.idx h.name))

end Verif.Spec
