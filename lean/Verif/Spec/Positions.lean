import Verif.Spec.Subst
import Verif.Model.Positions
import Verif.Spec.Space

/-!
# Specification vocabulary: several spaces over shared objects
-/

set_option autoImplicit false

namespace Verif.Spec
open Verif

/-- `Worlds o es w`: starting from empty spaces and fresh objects, the calls `es` (with the number of the space) all
succeed and lead to `w`. -/
inductive Worlds (o : Objs) : List (Nat × OCall) → World → Prop where
  | nil : Worlds o [] {}
  | snoc {es : List (Nat × OCall)} {w : World} {k : Nat} {c : OCall} {s' : Space} : Worlds o es w → (c.call o).wf →
      (w.space k).add (c.call o).hps (c.call o).conds (c.call o).forbs = (s', none) →
      Worlds o (es ++ [(k, c)]) (w.added o k c s')

/-- The calls made on space `k`. -/
def callsOf (o : Objs) (es : List (Nat × OCall)) (k : Nat) : List Call :=
  (es.filter (fun e => decide (e.1 = k))).map (fun e => e.2.call o)

/-- A literal condition object that was added to space `k`. -/
def UsesCond (es : List (Nat × OCall)) (k i : Nat) : Prop := ∃ e ∈ es, e.1 = k ∧ ∃ t ∈ e.2.conds, i ∈ t.leaves

/-- A literal clause object that was added to space `k`. -/
def UsesClause (es : List (Nat × OCall)) (k i : Nat) : Prop := ∃ e ∈ es, e.1 = k ∧ ∃ t ∈ e.2.forbs, i ∈ t.leaves

/-- No literal condition or clause object of space `k` was also added to another space. -/
def NotShared (es : List (Nat × OCall)) (k : Nat) : Prop :=
  ∀ j, j ≠ k → (∀ i, UsesCond es k i → ¬ UsesCond es j i) ∧ ∀ i, UsesClause es k i → ¬ UsesClause es j i

/-- `t` is the condition object that was last added to space `k` for the hyperparameter `n`. -/
def CondObj (o : Objs) (es : List (Nat × OCall)) (k : Nat) (n : Name) (t : Tree Nat) : Prop :=
  ∃ pre post, ((es.filter (fun e => decide (e.1 = k))).flatMap (fun e => e.2.conds)) = pre ++ t :: post ∧
    childName (t.toCond o) = some n ∧ ∀ u ∈ post, childName (u.toCond o) ≠ some n

/-- The clause object `t` was added to space `k`. -/
def ClauseObj (es : List (Nat × OCall)) (k : Nat) (t : Tree Nat) : Prop := ∃ e ∈ es, e.1 = k ∧ t ∈ e.2.forbs

end Verif.Spec
