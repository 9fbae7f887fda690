import Verif.Spec.Add

/-!
# Specification vocabulary: histories in which calls of `add` failed and the exception was caught
-/

set_option autoImplicit false

namespace Verif.Spec
open Verif

/-- Calls of `add` on one space, each with its outcome: `none` if it returned, the exception if it failed and the
user caught it and went on. -/
inductive Attempts : List (Call × Option Err) → Space → Prop where
  | nil : Attempts [] {}
  | snoc {hist : List (Call × Option Err)} {s s' : Space} {k : Call} {o : Option Err} : Attempts hist s → k.wf →
      s.add k.hps k.conds k.forbs = (s', o) → Attempts (hist ++ [(k, o)]) s'

/-- How many items a call brings. -/
def size (k : Call) : Nat := k.hps.length + k.conds.length + k.forbs.length

/-- The first `n` items of a call: hyperparameters come before conditions, and conditions before clauses. -/
def first (n : Nat) (k : Call) : Call :=
  ⟨k.hps.take n, k.conds.take (n - k.hps.length), k.forbs.take (n - k.hps.length - k.conds.length)⟩

/-- The first `n` items of `k`, and not one more, fit what is there. -/
structure Longest (before : List Call) (k : Call) (n : Nat) : Prop where
  le : n ≤ size k
  fits : Fits before (first n k)
  stop : ∀ m, n < m → m ≤ size k → ¬ Fits before (first m k)

/-- What stays of a history of calls: of every call the longest part that fits what stayed of the calls before it. -/
inductive Stayed : List Call → List Call → Prop where
  | nil : Stayed [] []
  | snoc {ks kept : List Call} {k : Call} {n : Nat} : Stayed ks kept → Longest kept k n →
      Stayed (ks ++ [k]) (kept ++ [first n k])

/-- All items of a list of calls, in one call. -/
def together (ks : List Call) : Call := ⟨allHps ks, allConds ks, allForbs ks⟩

/-- If the call was rejected for an unknown parent, then that is the first parent in every condition of the call that
names it.  (Otherwise the condition has been entered in part.) -/
def NotHalf (k : Call) (o : Option Err) : Prop :=
  ∀ p, o = some (.parentNotFound p) → ∀ c ∈ k.conds, p ∈ c.parents → c.parents.head? = some p

end Verif.Spec
