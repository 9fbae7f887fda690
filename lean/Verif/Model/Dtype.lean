import Verif.Model.Config

/-!
Assigning to a configuration that was made from an array of any type of numbers. `Configuration(space, vector=array)`
keeps the array as it is (configuration.py:128-150: only what is not an array is converted to `float64`), so that a
later assignment writes to a copy of the array *of the same type*, and the type decides what is left of a number.
-/
set_option autoImplicit false
namespace Verif.Dtype
open Verif

/-- A type of array elements, by what it keeps of a number and of NaN when they are written to an array of this
type (`arr[index] = hp_value`, `arr[nan_idx] = defaults[nan_idx]`, `arr[child_idxs] = dep.nan_arr`; util.py:626,
640, 642). Simplified: numpy does not say which whole number is left of NaN, so that any may be chosen here. -/
structure Elem where
  /-- What is kept of a number. -/
  num : Rat → Rat
  /-- What is kept of NaN. -/
  nan : NV

/-- What is kept of an entry (util.py:626, 640, 642). -/
def Elem.keep (t : Elem) : NV → NV
  | some q => some (t.num q)
  | none => t.nan

/-- `float64` (types.py:33): everything is kept. Simplified: numbers are exact, as in `Model/Space`. -/
def float64 : Elem := ⟨id, none⟩

/-- Towards zero, as numpy converts a float to a whole number (util.py:626). -/
def towardsZero (q : Rat) : Rat := if 0 ≤ q then (q.floor : Rat) else (q.ceil : Rat)

/-- `int64`, and the other types of whole numbers (util.py:626, 640, 642); NaN becomes some number `m`. -/
def whole (m : Int) : Elem := ⟨towardsZero, some m⟩

/-- The branches of the loop of `change_hp_value` (util.py:631-642) on an array with elements of the type `t`. -/
def applyCNode (t : Elem) (s : Space) (v : Vec) (c : CNode) : Vec :=
  if c.cond.satVec s.idx v then
    c.kids.foldl (fun acc n => if isSet (v.at (s.idx n)) then acc
      else acc.set (s.idx n) (t.keep (some ((defaultVecs s.com).getD (s.idx n) 0)))) v
  else c.kids.foldl (fun acc n => acc.set (s.idx n) (t.keep none)) v

/-- `change_hp_value` (util.py:617-644) on an array with elements of the type `t`. -/
def changeHp (t : Elem) (s : Space) (v : Vec) (n : Name) (x : Rat) (i : Nat) : Vec :=
  ((s.lookup.lookup n).getD []).foldl
    (fun acc j => match s.minConds[j]? with
      | some c => applyCNode t s acc c
      | none => acc) (v.set i (t.keep (some x)))

/-- `Configuration.__setitem__` (configuration.py:186-210) of a configuration whose array has elements of the type
`t`; `self.get_array().copy()` has the type of the array. Simplified: if the check fails since an inactive
hyperparameter has an entry, the code decodes the entry for the message, which may raise another exception. -/
def setItem (t : Elem) (s : Space) (c : Config) (n : Name) (w : Val) : Config × Option Err :=
  match findNode s.dag.nodes n with
  | none => (c, some .keyError)
  | some x =>
    if !x.hp.kind.legalValue w then (c, some (.illegalValue n))
    else match x.hp.kind.toVec w with
      | none => (c, some .keyError)
      | some q =>
        let v := changeHp t s c.vec n q (s.idx n)
        match s.check v false with
        | some e => (c, some e)
        | none => ({ c with vec := v, vals := none }, none)

/-- Configurations made from an array with elements of the type `t`, read and assigned to (configuration.py:128-150,
186-240). -/
inductive Made (t : Elem) (s : Space) : Config → Prop where
  | vector {v : Vec} {al : Bool} {c : Config} : (∀ e ∈ v, t.keep e = e) → Config.ofVector s v al = .ok c → Made t s c
  | set {c : Config} {n : Name} {w : Val} : Made t s c → Made t s (setItem t s c n w).1
  | get {c : Config} {n : Name} : Made t s c → Made t s (c.getItem s n).2

end Verif.Dtype
