import Verif.Spec.Valid

/-!
# Specification vocabulary: counting configurations

A vector entry of an integer hyperparameter stands for a value when it is the vector of this value; entries that are
only close to one are legal as well, so counting is about the entries that stand for values.
-/

set_option autoImplicit false

namespace Verif.Spec
open Verif

/-- `q` is the vector entry of one of the values of the hyperparameter. -/
def EntryOf (h : HP) (q : Rat) : Prop := ∃ w, h.kind.legalValue w = true ∧ ExactInt h.kind w ∧ h.kind.toVec w = some q

/-- The set hyperparameters have entries of values. -/
def Exact (calls : List Call) (a : Assign) : Prop := ∀ h ∈ allHps calls, ∀ q, a h.name = some q → EntryOf h q

/-- The vector is that of a valid configuration. -/
def ValidVec (calls : List Call) (s : Space) (v : Vec) : Prop := ∃ a, Represents s v a ∧ Valid calls a ∧ Exact calls a

/-- The vector is accepted, and its entries are those of values. -/
def AcceptedVec (calls : List Call) (s : Space) (v : Vec) : Prop :=
  v.length = s.len ∧ s.check v = none ∧ ∀ x ∈ allHps calls, ∀ q, v.at (s.idx x.name) = some q → EntryOf x q

end Verif.Spec
