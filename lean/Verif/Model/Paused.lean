import Verif.Model.Heap
import Verif.Model.Exchange

/-!
# A neighbourhood that is read step by step

`get_one_exchange_neighbourhood` is a generator (util.py:108-355): its body runs from one `next` to the following `yield`, and between
two calls of `next` the program does what it likes: it assigns to configurations, writes to arrays, reads another neighbourhood, or adds
to the space.  Here such a program is a list of steps over the memory of `Model/Heap.lean`.
-/

set_option autoImplicit false

namespace Verif

/-- A generator object: its arguments, the numbers it draws, and where it is.  `nb` and `ch` are what `_neighborhood` (after the shuffle)
and `randint` give to this generator, in order; generators that share a `RandomState` have other numbers than they would have alone,
which is why nothing is assumed about them.  `run` is empty before the first `next`; then it holds the array bound to `arr`
(util.py:139, 240), the local state of the loop, and the number of integers used so far. -/
structure Reader where
  cfg : Nat
  num : Nat
  nb : Nat → Name → List Rat
  ch : Nat → Nat
  run : Option (Nat × ExState × Nat) := none
  closed : Bool := false

/-- How a `next` ends. -/
inductive NextRes where
  /-- the loop is still running after the given number of passes -/
  | running
  /-- `StopIteration` -/
  | stop (st : ExState) (used : Nat)
  | raised (e : Err)
  /-- `yield Configuration(space, vector=new_arr)` -/
  | found (st : ExState) (used : Nat) (v : Vec)

/-- The `while` loop (util.py:253-355) from where it stands to the next `yield`.  The constructor refuses a vector of another length than the
space (configuration.py:144-148).  Simplification: in a space that has grown meanwhile, an index beyond the end of the array raises
`IndexError` in the code and does nothing here. -/
def nextFrom (s : Space) (v : Vec) (nb : Nat → Name → List Rat) (ch : Nat → Nat) : Nat → ExState → Nat → NextRes
  | 0, _, _ => .running
  | f + 1, st, k =>
    if st.alive = 0 then .stop st k
    else match exchangeStep s v nb st (ch k) with
      | .error e => .raised e
      | .ok st' => match st'.out.drop st.out.length with
        | [] => nextFrom s v nb ch f st' (k + 1)
        | p :: _ => if p.2.length ≠ s.len then .raised .valueError else .found st' (k + 1) p.2

/-- The space, the arrays and configurations, and the generators of a program. -/
structure Prog where
  space : Space
  mem : Memory := {}
  gens : List Reader := []

/-- What a program does. -/
inductive Act where
  /-- a step with configurations and arrays -/
  | mem (o : Op)
  /-- `space.add(...)` -/
  | add (c : Call)
  /-- `get_one_exchange_neighbourhood(configs[c], seed, num)`: nothing of its body runs yet -/
  | neighbourhood (c num : Nat) (nb : Nat → Name → List Rat) (ch : Nat → Nat)
  /-- `next(gens[g])`, given `fuel` passes of the loop -/
  | next (g fuel : Nat)

/-- What a step gives back. -/
inductive Answer where
  | did (o : Out)
  | added (e : Option Err)
  | generator
  /-- a new configuration with this vector -/
  | config (v : Vec)
  | stop
  | raised (e : Err)
  | running
deriving DecidableEq

/-- `next` on a generator with the array `r` and the local state `st`. -/
def Prog.resume (w : Prog) (g : Nat) (G : Reader) (fuel r : Nat) (st : ExState) (k : Nat) : Prog × Answer :=
  match w.mem.arrs[r]? with
  | none => (w, .raised .keyError)
  | some a => match nextFrom w.space a.data G.nb G.ch fuel st k with
    | .running => (w, .running)
    | .stop st' k' => ({ w with gens := w.gens.set g { G with run := some (r, st', k'), closed := true } }, .stop)
    | .raised e => ({ w with gens := w.gens.set g { G with run := some (r, st, k), closed := true } }, .raised e)
    | .found st' k' v =>
      ({ w with mem := w.mem.fresh ⟨.float, v⟩ none false, gens := w.gens.set g { G with run := some (r, st', k') } }, .config v)

/-- `next(gens[g])` (util.py:108-355).  A generator that has ended, or raised, only raises `StopIteration`.  The first `next` takes the array
that the configuration has then (util.py:139, 170-243), later ones go on with it.  Simplifications: arrays are read as arrays of
doubles (what integer arrays do is in `Model/Heap.lean`), and the cache of the configuration that `config[hp_name]` fills for ordinals
(util.py:188) is left alone. -/
def Prog.next (w : Prog) (g fuel : Nat) : Prog × Answer :=
  match w.gens[g]? with
  | none => (w, .raised .keyError)
  | some G =>
    if G.closed then (w, .stop)
    else match G.run with
      | some (r, st, k) => w.resume g G fuel r st k
      | none => match w.mem.cfgs[G.cfg]?, w.mem.cfg? G.cfg with
        | some o, some c => match exchangeInit w.space c G.num with
          | .error e => ({ w with gens := w.gens.set g { G with closed := true } }, .raised e)
          | .ok st => w.resume g G fuel o.ref st 0
        | _, _ => (w, .raised .keyError)

/-- One step of a program. -/
def Prog.step (w : Prog) : Act → Prog × Answer
  | .mem o => ({ w with mem := (w.mem.step w.space o).1 }, .did (w.mem.step w.space o).2)
  | .add c => ({ w with space := (w.space.add c.hps c.conds c.forbs).1 }, .added (w.space.add c.hps c.conds c.forbs).2)
  | .neighbourhood c num nb ch => ({ w with gens := w.gens ++ [{ cfg := c, num := num, nb := nb, ch := ch }] }, .generator)
  | .next g fuel => w.next g fuel

/-- A program: every step with its answer. -/
def Prog.trace (w : Prog) : List Act → List (Act × Answer)
  | [] => []
  | a :: as => (a, (w.step a).2) :: Prog.trace (w.step a).1 as

/-- The world after a program. -/
def Prog.run (w : Prog) : List Act → Prog
  | [] => w
  | a :: as => Prog.run (w.step a).1 as

end Verif
