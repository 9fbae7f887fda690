import Verif.Spec.Valid

/-!
# Specification vocabulary: which calls of `add` are acceptable

Only what the user has passed in so far, and passes in now, is mentioned.
-/

set_option autoImplicit false

namespace Verif.Spec
open Verif

/-- The new call fits the history: names stay unique, conditions and clauses mention known hyperparameters
(known from earlier calls or from this call), every child has one condition up to equality, and the parent relation
has no cycle. -/
structure Fits (calls : List Call) (k : Call) : Prop where
  fresh : ((allHps (calls ++ [k])).map HP.name).Nodup
  children : ∀ c ∈ k.conds, ∀ n, childName c = some n → Known (calls ++ [k]) n
  parents : ∀ c ∈ k.conds, ∀ l ∈ c.dlcs, Known (calls ++ [k]) l.parent.name
  single : ∀ c ∈ k.conds, ∀ x ∈ allConds (calls ++ [k]), childName x = childName c → c.pyEq x = true
  acyclic : Acyclic (ParentOf (calls ++ [k]))
  clauses : ∀ f ∈ k.forbs, ∀ n ∈ f.names, Known (calls ++ [k]) n

/-- The exceptions by which `add` says that the arguments do not fit: a name twice, an unknown child, parent or
hyperparameter of a clause, a second condition for a child, a cycle. -/
def MisfitError : Err → Prop
  | .alreadyExists _ => True
  | .childNotFound _ => True
  | .parentNotFound _ => True
  | .hpNotFound _ => True
  | .ambiguous => True
  | .cyclic => True
  | _ => False

/-- No clause is an empty conjunction. -/
def NoEmptyClause (fs : List Forb) : Prop := Forb.and [] ∉ fs

/-- The call repeats, up to equality, conditions and clauses of the history. -/
structure Repeats (calls : List Call) (k : Call) : Prop where
  hps : k.hps = []
  conds : ∀ c ∈ k.conds, ∃ x ∈ allConds calls, x.pyEq c = true
  forbs : ∀ f ∈ k.forbs, f ∈ allForbs calls

end Verif.Spec
