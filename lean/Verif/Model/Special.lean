import Verif.Model.F64

/-!
# Infinities, NaN and overflow (`UnitScaler`, the constructors of uniform floats and integers)

`Model/F64.lean` has no largest number.  Here numbers are all of IEEE 754 double precision: a result whose rounded size is `2 ^ 1024` or
more becomes an infinity, and infinities and NaN are computed with as the standard says.  The finite numbers are those of `Model/F64.lean`.

Simplified: there is one zero, and it counts as positive when it divides; numpy's warnings are not modelled.
-/

set_option autoImplicit false

namespace Verif.F64

open Verif.Num

/-- A double. -/
inductive Dbl (K : Type) where
  | fin (x : K)
  | inf
  | ninf
  | nan
deriving DecidableEq

section
variable {K : Type} [Field K] [LinearOrder K] [IsStrictOrderedRing K] [FloorRing K]

/-- The double that an operation on finite doubles returns whose exact result is `x`. -/
def ofExact (x : K) : Dbl K := if 2 ^ 1024 ≤ rd x then .inf else if rd x ≤ -2 ^ 1024 then .ninf else .fin (rd x)

/-- `a + b`. -/
def Dbl.add : Dbl K → Dbl K → Dbl K
  | .nan, _ => .nan
  | _, .nan => .nan
  | .fin x, .fin y => ofExact (x + y)
  | .inf, .ninf => .nan
  | .ninf, .inf => .nan
  | .inf, _ => .inf
  | _, .inf => .inf
  | .ninf, _ => .ninf
  | _, .ninf => .ninf

/-- `-a`. -/
def Dbl.neg : Dbl K → Dbl K
  | .fin x => .fin (-x)
  | .inf => .ninf
  | .ninf => .inf
  | .nan => .nan

/-- `a - b`. -/
def Dbl.sub (a b : Dbl K) : Dbl K := a.add b.neg

/-- An infinity times a finite number. -/
def infTimes (y : K) : Dbl K := if y = 0 then .nan else if 0 < y then .inf else .ninf

/-- `a * b`. -/
def Dbl.mul : Dbl K → Dbl K → Dbl K
  | .nan, _ => .nan
  | _, .nan => .nan
  | .fin x, .fin y => ofExact (x * y)
  | .inf, .fin y => infTimes y
  | .fin y, .inf => infTimes y
  | .ninf, .fin y => (infTimes y).neg
  | .fin y, .ninf => (infTimes y).neg
  | .inf, .inf => .inf
  | .ninf, .ninf => .inf
  | .inf, .ninf => .ninf
  | .ninf, .inf => .ninf

/-- `a / b`, where a zero `b` is positive. -/
def Dbl.div : Dbl K → Dbl K → Dbl K
  | .nan, _ => .nan
  | _, .nan => .nan
  | .fin x, .fin y => if y = 0 then infTimes x else ofExact (x / y)
  | .inf, .fin y => if 0 ≤ y then .inf else .ninf
  | .ninf, .fin y => if 0 ≤ y then .ninf else .inf
  | .fin _, _ => .fin 0
  | _, _ => .nan

/-- `a <= b`. -/
def Dbl.le : Dbl K → Dbl K → Bool
  | .nan, _ => false
  | _, .nan => false
  | .fin x, .fin y => decide (x ≤ y)
  | .ninf, _ => true
  | _, .inf => true
  | _, _ => false

/-- `np.maximum(a, b)`. -/
def Dbl.max (a b : Dbl K) : Dbl K := if a = .nan ∨ b = .nan then .nan else if a.le b then b else a

/-- `np.minimum(a, b)`. -/
def Dbl.min (a b : Dbl K) : Dbl K := if a = .nan ∨ b = .nan then .nan else if a.le b then a else b

/-- `np.clip(x, lo, hi)`. -/
def clipX (x lo hi : Dbl K) : Dbl K := (x.max lo).min hi

/-- `np.rint`. -/
def rintX : Dbl K → Dbl K
  | .fin x => .fin (rintK x : K)
  | a => a

/-- `np.round(x, ROUND_PLACES)` with `ROUND_PLACES = 13` (hyperparameters/uniform_float.py:93-94, 108-115): multiply, `rint`, divide. -/
def round13X (x : Dbl K) : Dbl K := (rintX (x.mul (.fin (10 ^ 13)))).div (.fin (10 ^ 13))

/-- `scale` (functional.py:248-268). -/
def scaleX (x lo hi : Dbl K) : Dbl K := (x.mul (hi.sub lo)).add lo

/-- `normalize` (functional.py:271-295). -/
def normalizeX (x lo hi : Dbl K) : Dbl K := if lo = .fin 0 ∧ hi = .fin 1 then x else (x.sub lo).div (hi.sub lo)

/-- `np.log`; `lg` is what it returns for positive finite numbers. -/
def logX (lg : K → K) : Dbl K → Dbl K
  | .fin x => if 0 < x then .fin (lg x) else if x = 0 then .ninf else .nan
  | .inf => .inf
  | _ => .nan

/-- `np.exp`; `ex` is what it would return for finite numbers without overflow. -/
def expX (ex : K → K) : Dbl K → Dbl K
  | .fin y => if 2 ^ 1024 ≤ ex y then .inf else .fin (ex y)
  | .inf => .inf
  | .ninf => .fin 0
  | .nan => .nan

/-- `UnitScaler.to_vector` of floats (hyperparameters/hp_components.py:337-344). -/
def toVecX (lg : K → K) (log : Bool) (lo hi x : Dbl K) : Dbl K :=
  if log then normalizeX (logX lg x) (logX lg lo) (logX lg hi) else normalizeX x lo hi

/-- `UnitScaler.to_value` of floats (hyperparameters/hp_components.py:300-334). -/
def toValX (lg ex : K → K) (log : Bool) (lo hi e : Dbl K) : Dbl K :=
  clipX (if log then expX ex (scaleX e (logX lg lo) (logX lg hi)) else scaleX e lo hi) lo hi

/-- `UnitScaler.legal_value_single` of floats, on a float (hyperparameters/hp_components.py:391-403). -/
def legalValX (lo hi x : Dbl K) : Bool := lo.le x && x.le hi

/-- `UnitScaler.legal_vector_single` of floats (hyperparameters/hp_components.py:406-408). -/
def legalVecX (e : Dbl K) : Bool := Dbl.le (.fin 0) e && e.le (.fin 1)

/-- What a float hyperparameter keeps of the arguments of its constructor: bounds and default value; and the entry of the default value. -/
structure FloatHP (K : Type) where
  lower : Dbl K
  upper : Dbl K
  default : Dbl K
  entry : Dbl K

/-- Exceptions of the constructors. -/
inductive NumErr where
  | value
  | type
  | overflow
deriving DecidableEq, Repr

/-- `UniformFloatHyperparameter(name, lower, upper, default_value, log)` (hyperparameters/uniform_float.py:93-118,
hyperparameters/hp_components.py:280-297, hyperparameters/hyperparameter.py:132-138).  `1 / float(upper - lower)` does not raise: the
difference of different doubles is not zero. -/
def mkFloatX (lg ex : K → K) (log : Bool) (lower upper : Dbl K) (default : Option (Dbl K)) : Except NumErr (FloatHP K) :=
  let lo := round13X lower
  let hi := round13X upper
  if hi.le lo then .error .value
  else if log && lo.le (.fin 0) then .error .value
  else
    let d := round13X (default.getD (toValX lg ex log lo hi (.fin (1 / 2))))
    if !legalValX lo hi d then .error .value
    else .ok ⟨lo, hi, d, toVecX lg log lo hi d⟩

/-! ## Integers -/

/-- A number as an argument: a Python `int` of any size, or a float. -/
inductive Arg (K : Type) where
  | int (n : Int)
  | flt (x : Dbl K)

/-- `np.rint` of a Python `int`: numpy reads it as `int64` or `uint64`, which become doubles; for larger ones there is no `rint`. -/
def rintInt (n : Int) : Except NumErr Int := if -2 ^ 63 ≤ n ∧ n < 2 ^ 64 then .ok (rintK (rd (n : K))) else .error .type

/-- `int(np.rint(b))` (hyperparameters/uniform_integer.py:97-98). -/
def keepInt : Arg K → Except NumErr Int
  | .int n => rintInt (K := K) n
  | .flt (.fin x) => .ok (rintK x)
  | .flt .nan => .error .value
  | .flt _ => .error .overflow

/-- `i64(n)` (hyperparameters/uniform_integer.py:111). -/
def i64 (n : Int) : Except NumErr Int := if -2 ^ 63 ≤ n ∧ n < 2 ^ 63 then .ok n else .error .overflow

/-- The bounds in `UniformIntegerHyperparameter(name, lower, upper, log=log)` (hyperparameters/uniform_integer.py:97-113,
hyperparameters/hp_components.py:280-291).  Simplified: no default value is given. -/
def mkIntX (log : Bool) (lower upper : Arg K) : Except NumErr (Int × Int) :=
  match keepInt lower with
  | .error e => .error e
  | .ok l => match keepInt upper with
    | .error e => .error e
    | .ok u => match i64 l with
      | .error e => .error e
      | .ok l => match i64 u with
        | .error e => .error e
        | .ok u => if u ≤ l then .error .value else if log && decide (l ≤ 0) then .error .value else .ok (l, u)

/-- `UnitScaler.legal_value_single` of integers (hyperparameters/hp_components.py:391-401).  For an infinity `np.rint` is the infinity, which
is not between the bounds. -/
def legalIntX (l u : Int) : Arg K → Except NumErr Bool
  | .int n => if -2 ^ 63 ≤ n ∧ n < 2 ^ 64 then .ok (decide (rd (l : K) ≤ rd (n : K) ∧ rd (n : K) ≤ rd (u : K))) else .error .type
  | .flt (.fin x) =>
    .ok (decide (rd (l : K) ≤ (rintK x : K) ∧ (rintK x : K) ≤ rd (u : K) ∧
      rd |x - (rintK x : K)| ≤ rd (rd (1 / 10000000000000) + rd (rd (1 / 100000) * |(rintK x : K)|))))
  | .flt _ => .ok false

end

end Verif.F64
