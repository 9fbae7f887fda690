import Verif.Model.Equal

/-!
# Configurations in sets and as keys of dictionaries

`hash(config)` is the hash of the printed configuration, and configurations can be written to.  A set, and in the same way the keys of a
dictionary, remembers for every entry the hash that it had when it was inserted.  Here is CPython's protocol for this (`set_add_entry`,
`set_lookkey`, `set_discard_entry`), as far as it depends on what `__hash__` and `__eq__` return.  The order in which entries with the same
hash are compared is the order of insertion; the code leaves it open, and it only matters for which of several exceptions is raised.
-/

set_option autoImplicit false

namespace Verif.Keyed

/-- The state of a program: its configurations by number, and one set: for every entry the hash at the time of insertion and the number of
the configuration. -/
structure St where
  objs : Nat → Config
  table : List (Nat × Nat)

/-- What the program does: read or assign an item of a configuration, put a configuration into the set, remove it from the set. -/
inductive Op where
  | read (i : Nat) (n : Name)
  | assign (i : Nat) (n : Name) (w : Val)
  | insert (i : Nat)
  | discard (i : Nat)

/-- Looking for configuration `i`, whose hash is `h`: an entry is found if its hash is `h` and it is the same object or equal
(configuration.py:242-245). -/
def probe (s : Space) (objs : Nat → Config) (i h : Nat) : List (Nat × Nat) → Except Err (Option (Nat × Nat))
  | [] => .ok none
  | e :: r =>
    if e.1 = h then
      if e.2 = i then .ok (some e)
      else match Config.eq s (objs e.2) (objs i) with
        | .error x => .error x
        | .ok true => .ok (some e)
        | .ok false => probe s objs i h r
    else probe s objs i h r

/-- The entry for configuration `i`; `hash` is Python's hash of a text (configuration.py:247-248). -/
def St.find (hash : String → Nat) (s : Space) (st : St) (i : Nat) : Except Err (Option (Nat × Nat)) :=
  match (st.objs i).repr s with
  | .error x => .error x
  | .ok t => probe s st.objs i (hash t) st.table

/-- `config in set`. -/
def St.contains (hash : String → Nat) (s : Space) (st : St) (i : Nat) : Except Err Bool := (st.find hash s i).map Option.isSome

def St.put (st : St) (i : Nat) (c : Config) : St := { st with objs := fun k => if k = i then c else st.objs k }

/-- One step (configuration.py:186-240; `set.add`, `set.discard`), and the exception it raises. -/
def St.step (hash : String → Nat) (s : Space) (st : St) : Op → St × Option Err
  | .read i n => (st.put i ((st.objs i).getItem s n).2, match ((st.objs i).getItem s n).1 with
      | .error x => some x
      | .ok _ => none)
  | .assign i n w => (st.put i ((st.objs i).setItem s n w).1, ((st.objs i).setItem s n w).2)
  | .insert i => match (st.objs i).repr s with
    | .error x => (st, some x)
    | .ok t => match probe s st.objs i (hash t) st.table with
      | .error x => (st, some x)
      | .ok (some _) => (st, none)
      | .ok none => ({ st with table := st.table ++ [(hash t, i)] }, none)
  | .discard i => match st.find hash s i with
    | .error x => (st, some x)
    | .ok none => (st, none)
    | .ok (some e) => ({ st with table := st.table.erase e }, none)

/-- A program; after an exception it goes on with its next step. -/
def St.run (hash : String → Nat) (s : Space) (st : St) (ops : List Op) : St := ops.foldl (fun st op => (st.step hash s op).1) st

end Verif.Keyed
