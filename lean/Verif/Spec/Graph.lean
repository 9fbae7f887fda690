/-!
# Specification vocabulary: graphs

Nothing here mentions the model: paths, acyclicity and chains in an arbitrary directed graph.
-/

set_option autoImplicit false

namespace Verif.Spec

/-- There is a non-empty directed path from `a` to `b`. -/
inductive Path {α : Type} (E : α → α → Prop) : α → α → Prop where
  | edge {a b : α} : E a b → Path E a b
  | cons {a b c : α} : E a b → Path E b c → Path E a c

/-- No element reaches itself. -/
def Acyclic {α : Type} (E : α → α → Prop) : Prop := ∀ a, ¬ Path E a a

/-- `Chain V E x k`: there is a directed chain of `k` vertices of `V` that ends in `x`. -/
inductive Chain {α : Type} (V : α → Prop) (E : α → α → Prop) : α → Nat → Prop where
  | one {x : α} : V x → Chain V E x 1
  | snoc {p c : α} {k : Nat} : Chain V E p k → E p c → V c → Chain V E c (k + 1)

/-- `d` is the number of vertices on the longest chain that ends in `x`. -/
def LongestChain {α : Type} (V : α → Prop) (E : α → α → Prop) (x : α) (d : Nat) : Prop :=
  Chain V E x d ∧ ∀ k, Chain V E x k → k ≤ d

theorem Path.trans {α : Type} {E : α → α → Prop} {a b c : α}
    (h : Path E a b) (h' : Path E b c) : Path E a c := by
  induction h with
  | edge e => exact .cons e h'
  | cons e _ ih => exact .cons e (ih h')

theorem Path.mono {α : Type} {E F : α → α → Prop} (hEF : ∀ a b, E a b → F a b) {a b : α}
    (h : Path E a b) : Path F a b := by
  induction h with
  | edge e => exact .edge (hEF _ _ e)
  | cons e _ ih => exact .cons (hEF _ _ e) ih

theorem Chain.mono {α : Type} {V V' : α → Prop} {E F : α → α → Prop} (hV : ∀ a, V a → V' a)
    (hEF : ∀ a b, E a b → F a b) {x : α} {k : Nat} (h : Chain V E x k) : Chain V' F x k := by
  induction h with
  | one v => exact .one (hV _ v)
  | snoc _ e v ih => exact .snoc ih (hEF _ _ e) (hV _ v)

/-- A strictly decreasing rank excludes cycles. -/
theorem acyclic_of_rank {α : Type} {E : α → α → Prop} (r : α → Nat)
    (h : ∀ a b, E a b → r b < r a) : Acyclic E := by
  have key : ∀ a b, Path E a b → r b < r a := by
    intro a b p
    induction p with
    | edge e => exact h _ _ e
    | cons e _ ih => exact Nat.lt_trans ih (h _ _ e)
  intro a p
  exact Nat.lt_irrefl _ (key a a p)

end Verif.Spec
