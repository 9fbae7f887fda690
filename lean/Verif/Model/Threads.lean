import Verif.Model.Config

/-!
# Threads that share a configuration

Threads read from and assign to one configuration.  A thread may be interrupted wherever the code loads or stores an attribute of the
configuration, or looks something up in the dictionary of cached values, or stores something there; between two such places it works on
objects of its own.  (In CPython each of these is one instruction, and the global lock is only given up between instructions.)
-/

set_option autoImplicit false

namespace Verif.Threads

/-- What a thread does: `config[n]`, or `config[n] = w`. -/
inductive Op where
  | read (n : Name)
  | write (n : Name) (w : Val)
deriving DecidableEq

/-- Where a thread is, with its local variables. -/
inductive Pc where
  | idle
  /-- configuration.py:213, `self._values is not None` -/
  | r0 (n : Name)
  /-- configuration.py:213, the second `self._values` is loaded -/
  | r1 (n : Name)
  /-- configuration.py:213, `key in` this dictionary -/
  | r1d (n : Name) (d : Nat)
  /-- configuration.py:214, `self._values` is loaded -/
  | r2 (n : Name)
  /-- configuration.py:214, the key is looked up in this dictionary -/
  | r2d (n : Name) (d : Nat)
  /-- configuration.py:216-234, `self._vector` is loaded and the value computed -/
  | r3 (n : Name)
  /-- configuration.py:236, `self._values is None` -/
  | r4 (n : Name) (w : Val)
  /-- configuration.py:237, `self._values = {}` -/
  | r5 (n : Name) (w : Val)
  /-- configuration.py:239, `self._values` is loaded -/
  | r6 (n : Name) (w : Val)
  /-- configuration.py:239, the value is stored in this dictionary -/
  | r6d (n : Name) (w : Val) (d : Nat)
  /-- configuration.py:187-206, `self._vector` is loaded, the new array computed and checked -/
  | w0 (n : Name) (w : Val)
  /-- configuration.py:209, `self._vector = new_array` -/
  | w1 (n : Name) (w : Val) (v : Vec)
  /-- configuration.py:210, `self._values = None` -/
  | w2 (n : Name) (w : Val)
deriving DecidableEq

/-- The outcome of an operation; an assignment returns nothing. -/
abbrev Out := Except Err (Option Val)

/-- Outcomes can be compared (a device of the model, for evaluating examples; it models no code). -/
instance outEq {ε α : Type} [DecidableEq ε] [DecidableEq α] : DecidableEq (Except ε α)
  | .ok x, .ok y => decidable_of_iff (x = y) (by simp)
  | .error x, .error y => decidable_of_iff (x = y) (by simp)
  | .ok _, .error _ => isFalse (by simp)
  | .error _, .ok _ => isFalse (by simp)

/-- A thread: where it is, what it still has to do, and what it has done, with the outcomes. -/
structure Thread where
  pc : Pc
  todo : List Op
  done : List (Op × Out)
deriving DecidableEq

/-- The shared memory (configuration.py:90-95): the array, the reference to the dictionary of cached values, and the dictionaries that were
ever made.  Arrays are never written to (configuration.py:199-205 copies), so a reference to an array is the array. -/
structure Mem where
  vec : Vec
  ref : Option Nat
  heap : List (List (Name × Val))

/-- The operation ends. -/
def Thread.finish (t : Thread) (o : Op) (r : Out) : Thread := { t with pc := .idle, done := t.done ++ [(o, r)] }

/-- One step of a thread (configuration.py:186-240); a thread that has nothing to do stays as it is.  `None` has no keys:
`key in None` and `None[key]` raise TypeError. -/
def stepT (s : Space) (m : Mem) (t : Thread) : Mem × Thread :=
  match t.pc with
  | .idle => match t.todo with
    | [] => (m, t)
    | .read n :: l => (m, { t with pc := .r0 n, todo := l })
    | .write n w :: l => (m, { t with pc := .w0 n w, todo := l })
  | .r0 n => (m, { t with pc := if m.ref.isSome then .r1 n else .r3 n })
  | .r1 n => match m.ref with
    | none => (m, t.finish (.read n) (.error .typeError))
    | some d => (m, { t with pc := .r1d n d })
  | .r1d n d => (m, { t with pc := if ((m.heap.getD d []).lookup n).isSome then .r2 n else .r3 n })
  | .r2 n => match m.ref with
    | none => (m, t.finish (.read n) (.error .typeError))
    | some d => (m, { t with pc := .r2d n d })
  | .r2d n d => match (m.heap.getD d []).lookup n with
    | none => (m, t.finish (.read n) (.error .keyError))
    | some w => (m, t.finish (.read n) (.ok (some w)))
  | .r3 n => match findNode s.dag.nodes n with
    | none => (m, t.finish (.read n) (.error .keyError))
    | some x => match m.vec.at (s.idx n) with
      | none => (m, t.finish (.read n) (.error .keyError))
      | some q => match x.hp.kind.toVal q with
        | none => (m, t.finish (.read n) (.error .valueError))
        | some w => (m, { t with pc := .r4 n (roundVal x.hp.kind w) })
  | .r4 n w => (m, { t with pc := if m.ref.isSome then .r6 n w else .r5 n w })
  | .r5 n w => ({ m with ref := some m.heap.length, heap := m.heap ++ [[]] }, { t with pc := .r6 n w })
  | .r6 n w => match m.ref with
    | none => (m, t.finish (.read n) (.error .typeError))
    | some d => (m, { t with pc := .r6d n w d })
  | .r6d n w d => ({ m with heap := m.heap.modify d (fun D => dictSet D n w) }, t.finish (.read n) (.ok (some w)))
  | .w0 n w => match Config.setItem s ⟨m.vec, none, false⟩ n w with
    | (_, some e) => (m, t.finish (.write n w) (.error e))
    | (c, none) => (m, { t with pc := .w1 n w c.vec })
  | .w1 n w v => ({ m with vec := v }, { t with pc := .w2 n w })
  | .w2 n w => ({ m with ref := none }, t.finish (.write n w) (.ok none))

/-- The thread with this number makes a step. -/
def step (s : Space) (st : Mem × List Thread) (i : Nat) : Mem × List Thread :=
  match st.2[i]? with
  | none => st
  | some t => ((stepT s st.1 t).1, st.2.set i (stepT s st.1 t).2)

/-- The threads run in the order of a schedule (the numbers of the threads that make the steps). -/
def run (s : Space) (st : Mem × List Thread) (sched : List Nat) : Mem × List Thread := sched.foldl (step s) st

/-- The memory of a configuration (configuration.py:90-95). -/
def mem (c : Config) : Mem :=
  match c.vals with
  | none => ⟨c.vec, none, []⟩
  | some d => ⟨c.vec, some 0, [d]⟩

/-- The threads at the start, with what each of them has to do. -/
def start (c : Config) (progs : List (List Op)) : Mem × List Thread := (mem c, progs.map (fun p => ⟨.idle, p, []⟩))

/-- The configuration that is left when the threads are done. -/
def Mem.config (m : Mem) : Config := ⟨m.vec, m.ref.map (fun d => m.heap.getD d []), false⟩

/-! ## Interpreters that switch threads only at calls

CPython with its global lock, since 3.10, lets another thread go on only where a function is called or the code jumps back.  In the code above
that is possible before an operation, while the array is read and the value computed (configuration.py:216-234), and while an assignment is
checked (configuration.py:187-206), but neither within lines 213-214, nor within 236-239, nor within 209-210. -/

/-- Another thread may go on here. -/
def Pc.stop : Pc → Bool
  | .idle => true
  | .r3 _ => true
  | .r4 _ _ => true
  | .w0 _ _ => true
  | .w1 _ _ _ => true
  | _ => false

/-- The steps of a thread until another one may go on, and not more than the given number (configuration.py:186-240). -/
def block (s : Space) : Nat → Mem → Thread → Mem × Thread
  | 0, m, t => (m, t)
  | k + 1, m, t =>
    if (stepT s m t).2.pc.stop then stepT s m t
    else block s k (stepT s m t).1 (stepT s m t).2

/-- The thread with this number goes on until another one may go on; six steps are the most there can be. -/
def stepB (s : Space) (st : Mem × List Thread) (i : Nat) : Mem × List Thread :=
  match st.2[i]? with
  | none => st
  | some t => ((block s 6 st.1 t).1, st.2.set i (block s 6 st.1 t).2)

/-- The threads run in the order of a schedule, and switch only at calls. -/
def runB (s : Space) (st : Mem × List Thread) (sched : List Nat) : Mem × List Thread := sched.foldl (stepB s) st

end Verif.Threads
