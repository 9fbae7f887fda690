/-!
# Basic types of the model

Numbers: `f64` is idealised as exact rationals; a vector entry is `Option Rat` with `none` = NaN.
-/

set_option autoImplicit false

namespace Verif

/-- Hyperparameter names: Python `str`. Python compares strings by code points, as Lean does. -/
abbrev Name := String

/-- One entry of the vector representation (`f64`): `none` is NaN, the mark of an inactive
hyperparameter (configuration.py:113).  Infinities and rounding errors are not modelled. -/
abbrev NV := Option Rat

/-- The vector representation of a configuration, `Configuration._vector` (configuration.py:95). -/
abbrev Vec := List NV

/-- Hyperparameter values.  Python objects are restricted to integers, floats (as exact rationals)
and strings; booleans, `None`, tuples and arbitrary objects are not modelled. -/
inductive Val where
  | int (n : Int)
  | flt (q : Rat)
  | str (s : String)
deriving DecidableEq, Repr

/-- Numeric content of a value: `isinstance(value, (int, float, np.number))`
(hyperparameters/hp_components.py:392). -/
def Val.num? : Val → Option Rat
  | .int n => some (n : Rat)
  | .flt q => some q
  | .str _ => none

/-- Python `==` on values: `1 == 1.0`, and a string never equals a number. Also the key equality
of dictionaries (`TransformerSeq._lookup`, hyperparameters/hp_components.py:155). -/
def Val.pyEq : Val → Val → Bool
  | .str s, .str t => s == t
  | .str _, _ => false
  | _, .str _ => false
  | a, b => a.num? == b.num?

/-- Python `v in xs` for a tuple or list. -/
def Val.pyIn (v : Val) (xs : List Val) : Bool := xs.any (fun x => x.pyEq v)

/-- Python `<` on values; `none` models the `TypeError` for a string against a number. -/
def Val.lt? : Val → Val → Option Bool
  | .str s, .str t => some (decide (s < t))
  | .str _, _ => none
  | _, .str _ => none
  | a, b => match a.num?, b.num? with
    | some x, some y => some (decide (x < y))
    | _, _ => none

/-- Exception classes that the modelled code can raise (exceptions.py and builtins). -/
inductive Err where
  | valueError
  | typeError
  | keyError
  | indexError
  | runtimeError
  | alreadyExists (n : Name)      -- HyperparameterAlreadyExistsError
  | hpNotFound (n : Name)         -- HyperparameterNotFoundError
  | childNotFound (n : Name)      -- ChildNotFoundError
  | parentNotFound (n : Name)     -- ParentNotFoundError
  | ambiguous                     -- AmbiguousConditionError
  | cyclic                        -- CyclicDependancyError
  | illegalValue (n : Name)       -- IllegalValueError
  | activeNotSet (n : Name)       -- ActiveHyperparameterNotSetError
  | illegalVector (n : Name)      -- IllegalVectorizedValueError
  | inactiveSet (n : Name)        -- InactiveHyperparameterSetError
  | forbidden                     -- ForbiddenValueError
deriving DecidableEq, Repr

/-- Insertion into a sorted list, before the first element that is not smaller. -/
def insBy {α : Type} (le : α → α → Bool) (x : α) : List α → List α
  | [] => [x]
  | y :: ys => if le x y then x :: y :: ys else y :: insBy le x ys

/-- Python's `sorted` with a key comparison `le`: a stable sort. -/
def sortBy {α : Type} (le : α → α → Bool) : List α → List α
  | [] => []
  | x :: xs => insBy le x (sortBy le xs)

/-- `np.rint` / `ndarray.round()`: round half to even. -/
def rint (q : Rat) : Int :=
  let f := q.floor
  let r := q - (f : Rat)
  if r < 1/2 then f
  else if 1/2 < r then f + 1
  else if f % 2 = 0 then f else f + 1

/-- Absolute value. -/
def rabs (q : Rat) : Rat := if q < 0 then -q else q

/-- `ATOL` (hyperparameters/hp_components.py:28). -/
def ATOL : Rat := 1 / 10000000000000

/-- Default `rtol` of `is_close_to_integer` (functional.py:349, functional.py:373: 1e-5).
None of the callers in hp_components.py overrides it. -/
def RTOL : Rat := 1 / 100000

/-- `is_close_to_integer` / `is_close_to_integer_single` with `atol=ATOL` (functional.py:345-393). -/
def closeToInt (a : Rat) : Bool :=
  let b : Rat := rint a
  decide (rabs (a - b) ≤ ATOL + RTOL * rabs b)

/-- `np.round(value, ROUND_PLACES)` with `ROUND_PLACES = 13` (configuration.py:121, 234;
hp_components.py:27). -/
def roundPlaces (q : Rat) : Rat := (rint (q * 10000000000000) : Rat) / 10000000000000

end Verif
