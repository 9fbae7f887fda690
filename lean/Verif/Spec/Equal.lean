import Verif.Spec.Valid
import Verif.Model.Config

/-!
# Specification vocabulary: native values
-/

set_option autoImplicit false

namespace Verif.Spec
open Verif

/-- The value is one that the hyperparameter itself produces: one of its choices, an `int` for an integer range, a
`float` for a float range.  (`3.0` is legal, but not native, for an integer range.) -/
def Native : Kind → Val → Prop
  | .cat cs, w => w ∈ cs
  | .ord cs, w => w ∈ cs
  | .const c, w => w = c
  | .int _ _, w => ∃ n, w = .int n
  | .flt _ _, w => ∃ q, w = .flt q

/-- Reading the configuration gives native values. -/
def ReadsNative (calls : List Call) (s : Space) (c : Config) : Prop :=
  ∀ x ∈ allHps calls, ∀ w, (c.getItem s x.name).1 = .ok w → Native x.kind w

/-- Reading the configuration gives integers for integer ranges (`3` or `3.0`, not `3.00001`). -/
def ReadsExact (calls : List Call) (s : Space) (c : Config) : Prop :=
  ∀ x ∈ allHps calls, ∀ w, (c.getItem s x.name).1 = .ok w → ExactInt x.kind w

/-- Configurations that come from a vector and were then written to and read from. -/
inductive FromVector (s : Space) : Config → Prop where
  | vector {v : Vec} {al : Bool} {c : Config} : Config.ofVector s v al = .ok c → FromVector s c
  | set {c : Config} {n : Name} {w : Val} : FromVector s c → FromVector s (c.setItem s n w).1
  | get {c : Config} {n : Name} : FromVector s c → FromVector s (c.getItem s n).2

end Verif.Spec
