import Verif.Model.Space

/-!
# The arguments of `add` and the space as a mapping

`ConfigurationSpace.add` takes any number of arguments, each a hyperparameter, a condition, a clause, or an iterable of such
arguments (nested in any way).  They are sorted by kind before anything is added.
-/

set_option autoImplicit false

namespace Verif

/-- What can be handed to `add`.  Iterables are those with finitely many items (lists, tuples, sets, generators, dictionaries - of
which the keys are taken); iterating over a text gives texts of one character; `other` is every object that is not iterable. -/
inductive Arg where
  | hp (h : HP)
  | cond (c : Cond)
  | forb (f : Forb)
  | iter (xs : List Arg)
  | text (s : List Char)
  | other

/-- `_put_to_list` (configuration_space.py:316-334).  The first argument is the number of nested calls that Python still allows;
`RecursionError` is a `RuntimeError`. -/
def putToList : Nat → Call → Arg → Except Err Call
  | 0, _, _ => .error .runtimeError
  | _ + 1, k, .hp h => .ok { k with hps := k.hps ++ [h] }
  | _ + 1, k, .cond c => .ok { k with conds := k.conds ++ [c] }
  | _ + 1, k, .forb f => .ok { k with forbs := k.forbs ++ [f] }
  | n + 1, k, .iter xs => xs.foldlM (fun k x => putToList n k x) k
  | n + 1, k, .text s => s.foldlM (fun k c => putToList n k (.text [c])) k
  | _ + 1, _, .other => .error .typeError

/-- `ConfigurationSpace.add` (configuration_space.py:289-351) on the arguments as they are given. -/
def Space.addArgs (limit : Nat) (s : Space) (args : List Arg) : Space × Option Err :=
  match args.foldlM (fun k x => putToList limit k x) ({} : Call) with
  | .error e => (s, some e)
  | .ok k => s.add k.hps k.conds k.forbs

/-- `ConfigurationSpace.__getitem__` (configuration_space.py:873-874); `none` is a `KeyError`.  `__contains__` and `get` of
`collections.abc.Mapping` are defined by it. -/
def Space.getHp? (s : Space) (k : Name) : Option HP := (s.dag.nodes.find? (fun x => x.name == k)).map Node.hp

/-- `ConfigurationSpace.__iter__`, `keys` (configuration_space.py:876-878). -/
def Space.keys (s : Space) : List Name := s.dag.nodes.map Node.name

/-- `ConfigurationSpace.items` (configuration_space.py:880-882). -/
def Space.items (s : Space) : List (Name × HP) := s.dag.nodes.map (fun x => (x.name, x.hp))

/-- `values` of `collections.abc.Mapping`: `self[key]` for the keys. -/
def Space.hpValues (s : Space) : List (Option HP) := s.keys.map s.getHp?

/-- `ConfigurationSpace.__len__` (configuration_space.py:884-886). -/
def Space.length (s : Space) : Nat := s.len

/-- `space.at` and `space.index_of` (configuration_space.py:212-220). -/
def Space.at? (s : Space) (i : Nat) : Option Name := s.names[i]?
@[inherit_doc Space.at?]
def Space.indexOf? (s : Space) (k : Name) : Option Nat := if k ∈ s.names then some (s.idx k) else none

end Verif
