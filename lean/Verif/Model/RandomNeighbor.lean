import Verif.Model.Size
import Verif.Model.Util

/-!
# `get_random_neighbor` (util.py:355-430)

The random generator is explicit: `rand t` is the number behind the `t`-th call of `randint` and `nb k n` is the result of the
`k`-th call of `neighbors_vectorized` (made for the hyperparameter `n`).
-/

set_option autoImplicit false

namespace Verif

/-- `isinstance(e, ValueError)` (exceptions.py:10-102). -/
def Err.isValueError : Err → Bool
  | .typeError => false
  | .keyError => false
  | .indexError => false
  | .runtimeError => false
  | _ => true

/-- How a call of `get_random_neighbor` ends. -/
inductive RandomNeighbor where
  | noNeighbors            -- NoPossibleNeighborsError (util.py:381-386)
  | stuck                  -- ValueError("Probably caught in an infinite loop.") (util.py:411-412)
  | raised (e : Err)       -- any other exception
  | found (c : Config)
deriving Repr

/-- `hp.size <= 1` (util.py:408). -/
def Kind.tiny (k : Kind) : Bool := match k.size with
  | some n => decide (n ≤ 1)
  | none => false

/-- The loop `while not active` (util.py:396-412): `m` is the number of draws left before the `ValueError`, `t` the number of
draws made.  The answer is the chosen hyperparameter and the new number of draws; `none` is the `ValueError`.  `randint(0, n)`
is `rand t % n`; with one hyperparameter the index is `0`. -/
def pickActive (s : Space) (v : Vec) (rand : Nat → Nat) : Nat → Nat → Option (Node × Nat)
  | 0, _ => none
  | m + 1, t =>
    let i := if 1 < s.len then rand t % s.len else 0
    match s.com[i]? with
    | none => pickActive s v rand m (t + 1)
    | some x =>
      if isSet (v.at i) && !x.hp.kind.tiny then some (x, t + 1) else pickActive s v rand m (t + 1)

/-- The loop `while rejected` (util.py:388-427): `d` is `values`, `t` and `k` count the draws and the calls of
`neighbors_vectorized`; `none` means that the loop is still running after `fuel` passes.  Every rejected value is put
back, so `values` is the same at the start of every pass. -/
def randomLoop (s : Space) (v : Vec) (d : Dict) (rand : Nat → Nat) (nb : Nat → Name → List Rat) :
    Nat → Nat → Nat → Option RandomNeighbor
  | 0, _, _ => none
  | fuel + 1, t, k => match pickActive s v rand 10000 t with
    | none => some .stuck
    | some (x, t') => match nb k x.name with
      | [] => some (.raised .indexError)
      | q :: _ => match x.hp.kind.toVal q with
        | none => some (.raised .valueError)
        | some w => match Config.ofValues s (dictSet d x.name (some w)) with
          | .ok c => some (.found c)
          | .error e => if e.isValueError then randomLoop s v d rand nb fuel t' (k + 1) else some (.raised e)

/-- `get_random_neighbor` (util.py:355-430). -/
def randomNeighbor (s : Space) (c : Config) (rand : Nat → Nat) (nb : Nat → Name → List Rat) (fuel : Nat) :
    Option RandomNeighbor :=
  match c.toDict s with
  | .error e => some (.raised e)
  | .ok d => match s.estimateSize with
    | some n => if n ≤ 1 then some .noNeighbors else randomLoop s c.vec d rand nb fuel 0 0
    | none => randomLoop s c.vec d rand nb fuel 0 0

end Verif
