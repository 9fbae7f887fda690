import Verif.Model.AnyNum
import Verif.Model.Exchange

/-!
# `get_one_exchange_neighbourhood` (util.py:108-355) over any arithmetic

As `Model/Exchange.lean`, with the conversions of `Model/AnyNum.lean` as a parameter.  What `_neighborhood` returns and what the
generator chooses is arbitrary.
-/

set_option autoImplicit false

namespace Verif.AnyNum
open Verif

/-- One entry of `neighbors_to_generate` together with the `generated` flag of `sample_strategy` (util.py:159-165, 222-232). -/
structure Task (α : Type) where
  hp : HP
  idx : Nat
  plan : Plan
  left : Nat
  pending : List α := []
  generated : Bool := false

/-- The entries of `neighbors_to_generate` (util.py:170-232).  `cur n` is `config[n]`, which is used for ordinals. -/
def exchangeTasks {α : Type} (s : Space) (v : AVec α) (cur : Name → Except Err Val) (num : Nat) :
    List Node → Except Err (List (Task α))
  | [] => .ok []
  | x :: xs =>
    if x.hp.kind.size = some 1 || !(v.at (s.idx x.name)).isSome then exchangeTasks s v cur num xs
    else match planFor x.hp.kind num (cur x.name) with
      | .error e => .error e
      | .ok p => match exchangeTasks s v cur num xs with
        | .error e => .error e
        | .ok ts => .ok ({ hp := x.hp, idx := s.idx x.name, plan := p, left := p.toGen } :: ts)

/-- Result of the loop over `range(max_iter_per_selection)` (util.py:275-355). -/
structure Tried (α : Type) where
  task : Task α
  found : Option (AVec α)
  calls : Nat

/-- State of the generator between two selections (util.py:236-252). -/
structure ExState (α : Type) where
  tasks : List (Task α)
  alive : Nat
  calls : Nat := 0
  out : List (Name × AVec α) := []

section
variable {α β : Type} [DecidableEq α] (A : Arith α β)

/-- The loop `for _ in range(max_iter_per_selection)` with its `else` (util.py:275-355). -/
def tryLoop (s : Space) (v : AVec α) (nb : Nat → Name → List α) (was : Bool) : Nat → Task α → Nat → Except Err (Tried α)
  | 0, t, k => .ok ⟨{ t with left := 0 }, none, k⟩
  | m + 1, t, k =>
    if t.pending.isEmpty && was && !t.plan.regen then .ok ⟨{ t with left := 0 }, none, k⟩
    else
      let t' := if t.pending.isEmpty then { t with pending := nb k t.hp.name, generated := true } else t
      let k' := if t.pending.isEmpty then k + 1 else k
      match t'.pending with
      | [] => .error .indexError
      | x :: rest =>
        let new := changeHp A s v t.hp.name x t.idx
        if (forbLookup (fast A s) t.hp.name).any (fun f => onVec A s.idx new f) then
          tryLoop s v nb was m { t' with pending := rest } k'
        else .ok ⟨{ t' with pending := rest, left := t.left - 1 }, some new, k'⟩

/-- One pass of the `while` loop (util.py:253-355) for the chosen index. -/
def exchangeStep (s : Space) (v : AVec α) (nb : Nat → Name → List α) (st : ExState α) (i : Nat) : Except Err (ExState α) :=
  match st.tasks[i]? with
  | none => .ok st
  | some t =>
    if t.left = 0 then .ok st
    else match tryLoop A s v nb t.generated t.plan.maxIter t st.calls with
      | .error e => .error e
      | .ok r => .ok {
          tasks := st.tasks.set i r.task,
          alive := if r.task.left = 0 then st.alive - 1 else st.alive,
          calls := r.calls,
          out := st.out ++ (r.found.map (fun w => (t.hp.name, w))).toList }

/-- The `while` loop (util.py:253-355) on a prefix of the chosen indices. -/
def exchangeRun (s : Space) (v : AVec α) (nb : Nat → Name → List α) : List Nat → ExState α → Except Err (ExState α)
  | [], st => .ok st
  | i :: is, st =>
    if st.alive = 0 then .ok st
    else match exchangeStep A s v nb st i with
      | .error e => .error e
      | .ok st' => exchangeRun s v nb is st'

/-- The state before the loop (util.py:234-252); the assertion is rendered as a `RuntimeError`. -/
def exchangeInit {α : Type} (s : Space) (v : AVec α) (cur : Name → Except Err Val) (num : Nat) : Except Err (ExState α) :=
  match exchangeTasks s v cur num s.dag.nodes with
  | .error e => .error e
  | .ok ts => if ts.any (fun t => t.left == 0) then .error .runtimeError
    else .ok { tasks := ts, alive := ts.length }

/-- `get_one_exchange_neighbourhood` (util.py:108-355), as far as the given choices of the generator reach. -/
def oneExchange (s : Space) (v : AVec α) (cur : Name → Except Err Val) (num : Nat) (nb : Nat → Name → List α) (choices : List Nat) :
    Except Err (ExState α) :=
  match exchangeInit s v cur num with
  | .error e => .error e
  | .ok st => exchangeRun A s v nb choices st

end

end Verif.AnyNum
