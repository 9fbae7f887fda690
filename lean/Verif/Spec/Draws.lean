import Verif.Spec.Sample

/-!
# Specification vocabulary: which draw a sampled configuration comes from
-/

set_option autoImplicit false

namespace Verif.Spec
open Verif

/-- The `j`-th draw of batch `b`, when that batch has `w` draws: one entry per hyperparameter. -/
def drawAt (rng : Nat → Nat → Mat) (b w j : Nat) : Vec := (rng b w).map (fun row => row.getD j none)

/-- `v` is `u` with the entries of some hyperparameters that have a condition removed. -/
def Unsets (calls : List Call) (s : Space) (u v : Vec) : Prop :=
  v.length = u.length ∧ ∀ i, v.at i = u.at i ∨ v.at i = none ∧ ∃ n, At s.names i n ∧ Conditional calls n

/-- Draw `p` comes before draw `q`: in an earlier batch, or earlier in the same batch. -/
def Earlier (p q : Nat × Nat) : Prop := p.1 < q.1 ∨ p.1 = q.1 ∧ p.2 < q.2

end Verif.Spec
