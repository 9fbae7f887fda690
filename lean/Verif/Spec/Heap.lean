import Verif.Model.Heap

/-!
# Which programs keep the arrays of configurations to themselves
-/

set_option autoImplicit false

namespace Verif.Spec

/-- Array `r` is not the array of any configuration. -/
def Unused (w : Memory) (r : Nat) : Prop := ∀ k ∈ w.cfgs, k.ref ≠ r

/-- The arrays of a program are arrays of doubles, and it never writes to an array that a configuration uses at the time. -/
def Polite (s : Space) : Memory → List Op → Prop
  | _, [] => True
  | w, o :: os => (match o with
      | .write r _ _ => Unused w r
      | .array a => a.dt = .float
      | .ofColumn a _ => a.dt = .float
      | _ => True) ∧ Polite s (w.step s o).1 os

/-- The step neither names the `i`-th configuration nor writes to its array. -/
def Elsewhere (w : Memory) (i : Nat) : Op → Prop
  | .set c _ _ => c ≠ i
  | .get c _ => c ≠ i
  | .write r _ _ => ∀ k, w.cfgs[i]? = some k → k.ref ≠ r
  | _ => True

end Verif.Spec
