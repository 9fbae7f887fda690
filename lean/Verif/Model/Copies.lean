import Verif.Model.Threads

/-!
# Copies of configurations

`copy.copy(config)` makes an object with the same attributes: both refer to one array and to one dictionary of cached values
(configuration.py:85-95; the class has no `__copy__`).
-/

set_option autoImplicit false

namespace Verif.Copies

/-- A configuration object (configuration.py:85-95): its array, a reference to its dictionary of cached values, the flag.  The methods modelled here
never write into an array (configuration.py:199-209), so a reference to an array is the array. -/
structure Obj where
  vec : Vec
  ref : Option Nat
  allow : Bool

/-- The objects, and the dictionaries they refer to. -/
structure Heap where
  objs : List Obj
  dicts : List (List (Name × Val))

/-- What a program does with its configurations, which are numbered: `config[n]`, `config[n] = w`, `copy.copy(config)`. -/
inductive Act where
  | read (i : Nat) (n : Name)
  | write (i : Nat) (n : Name) (w : Val)
  | copy (i : Nat)

/-- The configuration that an object stands for. -/
def Heap.config (h : Heap) (o : Obj) : Config := ⟨o.vec, o.ref.map (fun d => h.dicts.getD d []), o.allow⟩

/-- One action.  Reading (configuration.py:212-240) stores into the dictionary that is there, so that all objects that refer to it see that, or
makes a new one; assigning (configuration.py:186-210) replaces both attributes of this object.  Of configurations that do not exist nothing is read. -/
def act (s : Space) (h : Heap) : Act → Heap × Threads.Out
  | .read i n => match h.objs[i]? with
    | none => (h, .ok none)
    | some o =>
      let r := (h.config o).getItem s n
      match r.2.vals with
      | none => (h, r.1.map some)
      | some D => match o.ref with
        | some d => ({ h with dicts := h.dicts.set d D }, r.1.map some)
        | none => (⟨h.objs.set i { o with ref := some h.dicts.length }, h.dicts ++ [D]⟩, r.1.map some)
  | .write i n w => match h.objs[i]? with
    | none => (h, .ok none)
    | some o => match (h.config o).setItem s n w with
      | (_, some e) => (h, .error e)
      | (c, none) => ({ h with objs := h.objs.set i ⟨c.vec, none, o.allow⟩ }, .ok none)
  | .copy i => match h.objs[i]? with
    | none => (h, .ok none)
    | some o => ({ h with objs := h.objs ++ [o] }, .ok none)

/-- A program: the outcomes of its actions. -/
def acts (s : Space) : Heap → List Act → List Threads.Out
  | _, [] => []
  | h, a :: l => (act s h a).2 :: acts s (act s h a).1 l

/-- One configuration (configuration.py:85-95). -/
def single (c : Config) : Heap :=
  match c.vals with
  | none => ⟨[⟨c.vec, none, c.allow⟩], []⟩
  | some d => ⟨[⟨c.vec, some 0, c.allow⟩], [d]⟩

end Verif.Copies
