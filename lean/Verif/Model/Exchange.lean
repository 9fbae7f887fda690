import Verif.Model.Space
import Verif.Model.Neighbors

/-!
# `get_one_exchange_neighbourhood` (util.py:108-355)

The random generator is explicit: the integers it returns (`choices`) and, per call of `_neighborhood`, the
resulting list of neighbours.
-/

set_option autoImplicit false

namespace Verif

/-- The strategy for one hyperparameter (util.py:147-206): `neighbor_sample_size`, `max_iter_per_selection`, `n_to_gen`,
`should_shuffle`, `should_regen`. -/
structure Plan where
  sampleSize : Nat
  maxIter : Nat
  toGen : Nat
  shuffle : Bool
  regen : Bool
deriving Repr, DecidableEq

/-- The strategy by kind (util.py:177-213).  `cur` is `config[hp_name]`, used for ordinals. -/
def planFor (k : Kind) (num : Nat) (cur : Except Err Val) : Except Err Plan :=
  match k with
  | .cat cs => .ok ⟨cs.length - 1, cs.length - 1, cs.length - 1, true, false⟩
  | .ord cs => match cur with
    | .error e => .error e
    | .ok w => match Num.ordNumNeighbors cs (some w) with
      | none => .error .valueError
      | some n => .ok ⟨n, n, n, true, false⟩
  | .flt _ _ => .ok ⟨num * 5, max (num * 5) 100, num, false, true⟩
  | .int l u =>
    let possible := (u - l + 1).toNat - 1
    .ok ⟨min num possible, min num possible, num, true, decide (num ≤ possible)⟩
  | .const _ => .ok ⟨0, 0, num, true, false⟩

/-- One entry of `neighbors_to_generate` together with the `generated` flag of `sample_strategy`
(util.py:159-165, 222-232). -/
structure Task where
  hp : HP
  idx : Nat
  plan : Plan
  left : Nat
  pending : List Rat := []
  generated : Bool := false
deriving Repr

/-- The entries of `neighbors_to_generate` (util.py:170-232). -/
def exchangeTasks (s : Space) (c : Config) (num : Nat) : List Node → Except Err (List Task)
  | [] => .ok []
  | x :: xs =>
    if x.hp.kind.size = some 1 || !isSet (c.vec.at (s.idx x.name)) then exchangeTasks s c num xs
    else match planFor x.hp.kind num (c.getItem s x.name).1 with
      | .error e => .error e
      | .ok p => match exchangeTasks s c num xs with
        | .error e => .error e
        | .ok ts => .ok ({ hp := x.hp, idx := s.idx x.name, plan := p, left := p.toGen } :: ts)

/-- Result of the loop over `range(max_iter_per_selection)`: the new entry, the configuration that was yielded, and the
number of calls of `_neighborhood` so far. -/
structure Tried where
  task : Task
  found : Option Vec
  calls : Nat
deriving Repr

/-- The loop `for _ in range(max_iter_per_selection)` with its `else` (util.py:275-355).  `was` is the value of
`_generated` before the loop; `nb k n` is the result of the `k`-th call of `_neighborhood` (for the hyperparameter `n`), in
the order in which `pop` takes the entries. -/
def tryLoop (s : Space) (v : Vec) (nb : Nat → Name → List Rat) (was : Bool) : Nat → Task → Nat → Except Err Tried
  | 0, t, k => .ok ⟨{ t with left := 0 }, none, k⟩
  | m + 1, t, k =>
    if t.pending.isEmpty && was && !t.plan.regen then .ok ⟨{ t with left := 0 }, none, k⟩
    else
      let t' := if t.pending.isEmpty then { t with pending := nb k t.hp.name, generated := true } else t
      let k' := if t.pending.isEmpty then k + 1 else k
      match t'.pending with
      | [] => .error .indexError
      | x :: rest =>
        let new := s.changeHp v t.hp.name x t.idx
        if (forbLookup s.fast t.hp.name).any (fun f => f.onVec s.idx new) then
          tryLoop s v nb was m { t' with pending := rest } k'
        else .ok ⟨{ t' with pending := rest, left := t.left - 1 }, some new, k'⟩

/-- State of the generator between two selections (util.py:236-252).  `out` are the vectors of the configurations
yielded so far, with the name of the exchanged hyperparameter (the name is only kept for the statements). -/
structure ExState where
  tasks : List Task
  alive : Nat
  calls : Nat := 0
  out : List (Name × Vec) := []
deriving Repr

/-- One pass of the `while` loop (util.py:253-355) for the chosen index. -/
def exchangeStep (s : Space) (v : Vec) (nb : Nat → Name → List Rat) (st : ExState) (i : Nat) : Except Err ExState :=
  match st.tasks[i]? with
  | none => .ok st
  | some t =>
    if t.left = 0 then .ok st
    else match tryLoop s v nb t.generated t.plan.maxIter t st.calls with
      | .error e => .error e
      | .ok r => .ok {
          tasks := st.tasks.set i r.task,
          alive := if r.task.left = 0 then st.alive - 1 else st.alive,
          calls := r.calls,
          out := st.out ++ (r.found.map (fun w => (t.hp.name, w))).toList }

/-- The `while` loop (util.py:253-355) on a prefix of the chosen indices. -/
def exchangeRun (s : Space) (v : Vec) (nb : Nat → Name → List Rat) : List Nat → ExState → Except Err ExState
  | [], st => .ok st
  | i :: is, st =>
    if st.alive = 0 then .ok st
    else match exchangeStep s v nb st i with
      | .error e => .error e
      | .ok st' => exchangeRun s v nb is st'

/-- The state before the loop (util.py:234-252); the assertion is rendered as a `RuntimeError`. -/
def exchangeInit (s : Space) (c : Config) (num : Nat) : Except Err ExState :=
  match exchangeTasks s c num s.dag.nodes with
  | .error e => .error e
  | .ok ts => if ts.any (fun t => t.left == 0) then .error .runtimeError
    else .ok { tasks := ts, alive := ts.length }

/-- `get_one_exchange_neighbourhood` (util.py:108-355), as far as the given choices of the generator reach. -/
def oneExchange (s : Space) (c : Config) (num : Nat) (nb : Nat → Name → List Rat) (choices : List Nat) :
    Except Err ExState :=
  match exchangeInit s c num with
  | .error e => .error e
  | .ok st => exchangeRun s c.vec nb choices st

end Verif
