import Verif.Model.Space

/-!
# Threads that add to one space
-/

set_option autoImplicit false

namespace Verif.Adders

/-- What the threads share: the space, and the flag `_updating` of its graph (_condition_tree.py:437). -/
structure Shared where
  space : Space := {}
  flag : Bool := false

/-- How a call of `add` ended: with the RuntimeError of `DAG.update` (_condition_tree.py:448-449), or with the outcome of the call. -/
inductive Res where
  | busy
  | done (o : Option Err)
deriving DecidableEq, Repr

/-- Where a thread is in `ConfigurationSpace.add` (configuration_space.py:339-351).  The number of the line is that of the statement that comes next. -/
inductive Pc where
  /-- outside of a call -/
  | idle
  /-- in the transaction, with the items that are still to be entered (configuration_space.py:340-348) -/
  | body (k rest : Call)
  /-- the flag is reset, the nodes are not read yet (_condition_tree.py:468) -/
  | snap (k : Call)
  /-- the nodes are read and sorted, and not stored yet (_condition_tree.py:482-) -/
  | store (k : Call) (g : Dag)
  /-- the transaction is over (configuration_space.py:350) -/
  | len (k : Call)
  /-- before `_check_default_configuration` (configuration_space.py:351) -/
  | check (k : Call)

/-- A thread: where it is, the calls it still makes, and how those it made ended. -/
structure Th where
  pc : Pc := .idle
  todo : List Call := []
  out : List (Call × Res) := []

/-- The call `k` ends. -/
def Th.finish (t : Th) (k : Call) (r : Res) : Th := { t with pc := .idle, out := t.out ++ [(k, r)] }

/-- The next item of the three loops (configuration_space.py:341-348): the graph, the exception, and what is left; `none` when nothing is left. -/
def nextItem (g : Dag) : Call → Option (Dag × Option Err × Call)
  | ⟨h :: hs, cs, fs⟩ => some ((g.add h).1, (g.add h).2, ⟨hs, cs, fs⟩)
  | ⟨[], c :: cs, fs⟩ => some ((g.addCondition c).1, (g.addCondition c).2, ⟨[], cs, fs⟩)
  | ⟨[], [], f :: fs⟩ => some ((g.addForbidden f).1, (g.addForbidden f).2, ⟨[], [], fs⟩)
  | ⟨[], [], []⟩ => none

/-- One step of a thread.  Entering (_condition_tree.py:448-451): the flag is tested and set; a thread that finds it set gets RuntimeError, outside of
the `try`, so that the flag stays.  In the transaction (configuration_space.py:341-348): one item, and an exception resets the flag
(_condition_tree.py:454-459).  After the last item the flag is reset, and only then are the nodes read (_condition_tree.py:468) and, later, the new
dictionary of nodes stored with all that is computed from it (_condition_tree.py:482-); then the length is stored and the default configuration checked
(configuration_space.py:350-351).  Simplified: threads switch between these steps only; entering an item, and storing the results, is one step, and the
forbidden clauses are read together with the nodes.  The nodes that were read are kept as they are until they are stored; in the code they are objects,
and a condition that another thread enters in between changes them. -/
def step (s : Shared) (t : Th) : Shared × Th :=
  match t.pc with
  | .idle =>
    match t.todo with
    | [] => (s, t)
    | k :: ks =>
      if s.flag then (s, { t with todo := ks }.finish k .busy)
      else ({ s with flag := true }, { t with pc := .body k k, todo := ks })
  | .body k r =>
    match nextItem s.space.dag r with
    | none => ({ s with flag := false }, { t with pc := .snap k })
    | some (g, none, r') => ({ s with space := { s.space with dag := g } }, { t with pc := .body k r' })
    | some (g, some e, _) => ({ space := { s.space with dag := g }, flag := false }, t.finish k (.done (some e)))
  | .snap k => (s, { t with pc := .store k s.space.dag })
  | .store k g =>
    match s.space.commit g with
    | (s', some e) => ({ s with space := s' }, t.finish k (.done (some e)))
    | (s', none) => ({ s with space := s' }, { t with pc := .len k })
  | .len k => ({ s with space := { s.space with len := s.space.dag.nodes.length } }, { t with pc := .check k })
  | .check k =>
    match s.space.defaultConfig with
    | .error e => (s, t.finish k (.done (some e)))
    | .ok _ => (s, t.finish k (.done none))

/-- The thread is in the part of `add` after the flag was reset (_condition_tree.py:461-, configuration_space.py:350-351). -/
def Th.ending (t : Th) : Bool :=
  match t.pc with
  | .idle => false
  | .body _ _ => false
  | _ => true

/-- At most `n` further steps, as long as the thread is in the ending part. -/
def toEnd : Nat → Shared → Th → Shared × Th
  | 0, s, t => (s, t)
  | n + 1, s, t => if t.ending then toEnd n (step s t).1 (step s t).2 else (s, t)

/-- One step, and the whole ending part with it if the thread gets there: the ending part has four steps. -/
def turn (s : Shared) (t : Th) : Shared × Th := toEnd 4 (step s t).1 (step s t).2

/-- The space and the threads. -/
structure Sys where
  sh : Shared := {}
  ths : List Th := []

/-- The schedule says which thread runs next; numbers that belong to no thread are skipped. -/
def run (f : Shared → Th → Shared × Th) : List Nat → Sys → Sys
  | [], y => y
  | i :: is, y =>
    match y.ths[i]? with
    | none => run f is y
    | some t => run f is { sh := (f y.sh t).1, ths := y.ths.set i (f y.sh t).2 }

/-- Threads that are about to make the given calls. -/
def start (s : Space) (calls : List (List Call)) : Sys :=
  { sh := { space := s }, ths := calls.map (fun ks => { todo := ks }) }

end Verif.Adders
