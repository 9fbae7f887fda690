import Verif.Model.Config

/-!
# Configurations that share their arrays

`Configuration(space, vector=array)` keeps the array it is given (configuration.py:129-132, 150) and `get_array` gives the array itself
away (configuration.py:166-174), so a caller may hold the array of a configuration, give it to a second configuration, and write to it.
Here arrays live in a heap and configurations refer to them.  Arrays given as rows of a matrix are modelled as separate arrays.
The element type of an array is that of doubles or of 64-bit integers: the constructor does not convert it.
-/

set_option autoImplicit false

namespace Verif

/-- The element types. -/
inductive DType where
  | float
  | int
deriving DecidableEq, Repr

/-- A one-dimensional numpy array. -/
structure Arr where
  dt : DType
  data : Vec
deriving Repr

/-- Truncation toward zero, as numpy converts a double to an integer. -/
def truncRat (q : Rat) : Rat := if 0 ≤ q then (q.floor : Rat) else (q.ceil : Rat)

/-- Writing an entry of another array: integers keep the integral part, and NaN becomes the least 64-bit integer (with a warning). -/
def Arr.put (a : Arr) (i : Nat) (e : NV) : Arr :=
  match a.dt, e with
  | .float, e => { a with data := a.data.set i e }
  | .int, some q => { a with data := a.data.set i (some (truncRat q)) }
  | .int, none => { a with data := a.data.set i (some (-9223372036854775808)) }

/-- One step of the loop of `change_hp_value` (util.py:631-642) on an array. -/
def applyCNodeA (s : Space) (a : Arr) (c : CNode) : Arr :=
  if c.cond.satVec s.idx a.data then
    c.kids.foldl (fun acc n => if isSet (a.data.at (s.idx n)) then acc
      else acc.put (s.idx n) (some ((defaultVecs s.com).getD (s.idx n) 0))) a
  else c.kids.foldl (fun acc n => acc.put (s.idx n) none) a

/-- `change_hp_value` (util.py:617-644) on an array. -/
def Space.changeHpA (s : Space) (a : Arr) (n : Name) (x : Rat) (i : Nat) : Arr :=
  ((s.lookup.lookup n).getD []).foldl
    (fun acc j => match s.minConds[j]? with
      | some c => applyCNodeA s acc c
      | none => acc) (a.put i (some x))

/-- A configuration as an object: it refers to its array (configuration.py:89-95). -/
structure CfgObj where
  ref : Nat
  vals : Option (List (Name × Val)) := none
  allow : Bool := false
deriving Repr

/-- The arrays and the configurations of a program, each numbered in the order of creation. -/
structure Memory where
  arrs : List Arr := []
  cfgs : List CfgObj := []
deriving Repr

/-- What a program does.  `get_array` needs no step of its own: the caller may name every array. -/
inductive Op where
  /-- a new array of the caller -/
  | array (a : Arr)
  /-- `arrays[r][i] = e` by the caller -/
  | write (r i : Nat) (e : NV)
  /-- `Configuration(space, vector=arrays[r])` -/
  | ofArray (r : Nat) (al : Bool)
  /-- `Configuration(space, vector=[...])` -/
  | ofList (v : Vec) (al : Bool)
  /-- `Configuration(space, vector=column)` for an array of shape (n, 1) -/
  | ofColumn (a : Arr) (al : Bool)
  /-- `Configuration(space, values=d)` -/
  | ofValues (d : Dict) (al : Bool)
  /-- `configs[c][n] = w` -/
  | set (c : Nat) (n : Name) (w : Val)
  /-- `configs[c][n]` -/
  | get (c : Nat) (n : Name)

/-- What a step gives back. -/
inductive Out where
  | done
  | value (w : Val)
  | raised (e : Err)
deriving DecidableEq, Repr

/-- The `i`-th configuration as it is at the moment: its array is looked up. -/
def Memory.cfg? (w : Memory) (i : Nat) : Option Config :=
  match w.cfgs[i]? with
  | none => none
  | some o => match w.arrs[o.ref]? with
    | none => none
    | some a => some { vec := a.data, vals := o.vals, allow := o.allow }

/-- A new array with a configuration that refers to it. -/
def Memory.fresh (w : Memory) (a : Arr) (vals : Option (List (Name × Val))) (al : Bool) : Memory :=
  { arrs := w.arrs ++ [a], cfgs := w.cfgs ++ [{ ref := w.arrs.length, vals := vals, allow := al }] }

/-- A write of the caller: into an integer array only integral parts, and not NaN. -/
def Memory.write (w : Memory) (r i : Nat) (e : NV) : Memory × Out :=
  match w.arrs[r]? with
  | none => (w, .raised .keyError)
  | some a =>
    if a.data.length ≤ i then (w, .raised .indexError)
    else if a.dt = .int ∧ e = none then (w, .raised .valueError)
    else ({ w with arrs := w.arrs.set r (a.put i e) }, .done)

/-- `Configuration.__setitem__` (configuration.py:186-210): the array is copied, changed, checked, and then replaces the old one. -/
def Memory.setItem (s : Space) (w : Memory) (c : Nat) (n : Name) (v : Val) : Memory × Out :=
  match w.cfgs[c]? with
  | none => (w, .raised .keyError)
  | some o => match w.arrs[o.ref]? with
    | none => (w, .raised .keyError)
    | some a => match findNode s.dag.nodes n with
      | none => (w, .raised .keyError)
      | some x =>
        if !x.hp.kind.legalValue v then (w, .raised (.illegalValue n))
        else match x.hp.kind.toVec v with
          | none => (w, .raised .keyError)
          | some q =>
            let b := s.changeHpA a n q (s.idx n)
            match s.check b.data false with
            | some e => (w, .raised e)
            | none => ({ arrs := w.arrs ++ [b], cfgs := w.cfgs.set c { o with ref := w.arrs.length, vals := none } }, .done)

/-- `Configuration.__getitem__` (configuration.py:212-240) -/
def Memory.getItem (s : Space) (w : Memory) (c : Nat) (n : Name) : Memory × Out :=
  match w.cfgs[c]?, w.cfg? c with
  | some o, some k => match k.getItem s n with
    | (.ok v, k') => ({ w with cfgs := w.cfgs.set c { o with vals := k'.vals } }, .value v)
    | (.error e, _) => (w, .raised e)
  | _, _ => (w, .raised .keyError)

/-- One step of a program. -/
def Memory.step (s : Space) (w : Memory) : Op → Memory × Out
  | .array a => ({ w with arrs := w.arrs ++ [a] }, .done)
  | .write r i e => w.write r i e
  | .ofArray r al => match w.arrs[r]? with
    | none => (w, .raised .keyError)
    | some a => if a.data.length ≠ s.len then (w, .raised .valueError)
      else ({ w with cfgs := w.cfgs ++ [{ ref := r, allow := al }] }, .done)
  | .ofList v al => if v.length ≠ s.len then (w, .raised .valueError) else (w.fresh ⟨.float, v⟩ none al, .done)
  | .ofColumn a al => if a.data.length ≠ s.len then (w, .raised .valueError) else (w.fresh a none al, .done)
  | .ofValues d al => match Config.ofValues s d al with
    | .error e => (w, .raised e)
    | .ok c => (w.fresh ⟨.float, c.vec⟩ c.vals al, .done)
  | .set c n v => w.setItem s c n v
  | .get c n => w.getItem s c n

/-- The world after a program. -/
def Memory.run (s : Space) (w : Memory) : List Op → Memory
  | [] => w
  | o :: os => Memory.run s (w.step s o).1 os

end Verif
