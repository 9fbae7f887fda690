import Verif.Model.Special

/-!
# The default value of uniform integers, with infinities, NaN and large numbers
-/

set_option autoImplicit false

namespace Verif.F64

open Verif.Num

section
variable {K : Type} [Field K] [LinearOrder K] [IsStrictOrderedRing K] [FloorRing K]

/-- `f64(x)` of an argument: a Python `int` that is too large raises `OverflowError`. -/
def f64Arg : Arg K → Except NumErr (Dbl K)
  | .int n => match ofExact (n : K) with
    | .fin x => .ok (.fin x)
    | _ => .error .overflow
  | .flt x => .ok x

/-- `is_close_to_integer(value, atol=ATOL)` (functional.py:364-366).  For an infinity the difference is NaN, and `NaN <= x` is false. -/
def closeIntX : Dbl K → Bool
  | .fin x => decide (rd |x - (rintK x : K)| ≤ rd (rd (1 / 10000000000000) + rd (rd (1 / 100000) * |(rintK x : K)|)))
  | _ => false

/-- `int(x)`: towards zero; infinities raise `OverflowError`, NaN raises `ValueError`. -/
def intArg : Arg K → Except NumErr Int
  | .int n => .ok n
  | .flt (.fin x) => .ok (if 0 ≤ x then ⌊x⌋ else ⌈x⌉)
  | .flt .nan => .error .value
  | .flt _ => .error .overflow

/-- `int(np.rint(scaler.to_value(np.array([0.5]))[0]))` (hyperparameters/uniform_integer.py:136, hp_components.py:300-304, 323-334): the middle
of the range, scaled and rounded.  Simplified: a result that is not finite raises; with an accurate `exp` there is none. -/
def middleX (lg ex : K → K) (log : Bool) (l u : Int) : Except NumErr Int :=
  let lo : Dbl K := .fin (rd (l : K))
  let hi : Dbl K := .fin (rd (u : K))
  match (if log then expX ex (scaleX (.fin (1 / 2)) (logX lg lo) (logX lg hi)) else scaleX (.fin (1 / 2)) lo hi) with
  | .fin y => .ok (rintK y)
  | _ => .error .overflow

/-- `UniformIntegerHyperparameter(name, lower, upper, default_value, log)` (hyperparameters/uniform_integer.py:97-146,
hyperparameters/hyperparameter.py:132-138): the bounds and the default value it keeps. -/
def mkIntDefaultX (lg ex : K → K) (log : Bool) (lower upper : Arg K) (default : Option (Arg K)) : Except NumErr (Int × Int × Int) :=
  match keepInt lower with
  | .error e => .error e
  | .ok _ => match keepInt upper with
    | .error e => .error e
    | .ok _ => match (match default with
        | none => Except.ok true
        | some d => (f64Arg d).map closeIntX) with
      | .error e => .error e
      | .ok false => .error .type
      | .ok true => match mkIntX log lower upper with
        | .error e => .error e
        | .ok (l, u) => match (match default with
            | none => middleX lg ex log l u
            | some d => intArg d) with
          | .error e => .error e
          | .ok d => match legalIntX (K := K) l u (.int d) with
            | .error e => .error e
            | .ok false => .error .value
            | .ok true => .ok (l, u, d)

end

end Verif.F64
