import Verif.Model.Hyper

/-!
# Constructors of hyperparameters

`hyperparameters/{categorical,ordinal,constant,uniform_integer,uniform_float,normal_integer,beta_integer}.py`.
Exceptions are values; names and meta data are passed through.
-/

set_option autoImplicit false

namespace Verif

/-- Python's `int()` on a float: truncation towards zero. -/
def trunc (q : Rat) : Int := if 0 ≤ q then q.floor else q.ceil

/-- The end of `Hyperparameter.__init__` (hyperparameters/hyperparameter.py:132-138): an illegal default raises. -/
def finishHP (h : HP) : Except Err HP := if h.kind.legalValue h.default then .ok h else .error .valueError

/-- `np.argmax`: position of the first largest element. -/
def argmax : List Rat → Nat
  | [] => 0
  | x :: xs => if xs.all (fun y => decide (y ≤ x)) then 0 else argmax xs + 1

/-- The weights `CategoricalHyperparameter.__init__` rejects (hyperparameters/categorical.py): wrong length, negative, all zero. -/
def badWeights (choices : List Val) : Option (List Rat) → Bool
  | some ws => decide (ws.length ≠ choices.length) || ws.any (fun w => decide (w < 0)) || ws.all (fun w => decide (w = 0))
  | none => false

/-- The default `CategoricalHyperparameter.__init__` rejects (hyperparameters/categorical.py): one that is not a choice. -/
def badDefault (choices : List Val) : Option Val → Bool
  | some d => !(d.pyIn choices)
  | none => false

/-- The default `UniformIntegerHyperparameter.__init__` rejects with `TypeError` (hyperparameters/uniform_integer.py). -/
def badIntDefault : Option Rat → Bool
  | some d => !closeToInt d
  | none => false

/-- `CategoricalHyperparameter.__init__` (hyperparameters/categorical.py:141-300); `none` as default models `NotSet`.
Without choices the division `1 / size` raises, with weights the transformer does; both are `valueError` here. -/
def mkCat (name : Name) (choices : List Val) (default : Option Val) (weights : Option (List Rat)) : Except Err HP :=
  if !distinctVals choices then .error .valueError
  else if badWeights choices weights then .error .valueError
  else if badDefault choices default then .error .valueError
  else if choices.isEmpty then .error .valueError
  else
    let d := match default, weights with
      | some d, _ => some d
      | none, none => choices[0]?
      | none, some ws => choices[argmax (ws.map (· / ws.sum))]?
    match d with
    | some d => finishHP { name := name, kind := .cat choices, default := d }
    | none => .error .indexError

/-- `OrdinalHyperparameter.__init__` (hyperparameters/ordinal.py:56-131). -/
def mkOrd (name : Name) (seq : List Val) (default : Option Val) : Except Err HP :=
  if !distinctVals seq then .error .valueError
  else match default with
    | none => match seq[0]? with
      | some d => finishHP { name := name, kind := .ord seq, default := d }
      | none => .error .indexError
    | some d => if d.pyIn seq then finishHP { name := name, kind := .ord seq, default := d } else .error .valueError

/-- `Constant.__init__` (hyperparameters/constant.py:48-94) for values that are not arrays. -/
def mkConst (name : Name) (v : Val) : Except Err HP := finishHP { name := name, kind := .const v, default := v }

/-- `UniformIntegerHyperparameter.__init__`, linear scale (hyperparameters/uniform_integer.py:97-150): bounds are rounded, the
default has to be close to an integer and is then *truncated*. -/
def mkInt (name : Name) (lower upper : Rat) (default : Option Rat) : Except Err HP :=
  let l := rint lower
  let u := rint upper
  if badIntDefault default then .error .typeError
  else if u ≤ l then .error .valueError
  else
    let d := match default with
      | some d => trunc d
      | none => rint (scaleQ (1 / 2) l u)
    finishHP { name := name, kind := .int l u, default := .int d }

/-- The default of normal and beta distributed integers is rounded instead
(hyperparameters/normal_integer.py:128-137, beta_integer.py:127-136). -/
def mkRoundedDefault (d : Rat) : Except Err Int := if closeToInt d then .ok (rint d) else .error .typeError

/-- `UniformFloatHyperparameter.__init__`, linear scale (hyperparameters/uniform_float.py:93-127). -/
def mkFlt (name : Name) (lower upper : Rat) (default : Option Rat) : Except Err HP :=
  let l := roundPlaces lower
  let u := roundPlaces upper
  if u ≤ l then .error .valueError
  else
    let d := roundPlaces (match default with
      | some d => d
      | none => clipQ (scaleQ (1 / 2) l u) l u)
    finishHP { name := name, kind := .flt l u, default := .flt d }

/-- `UniformFloatHyperparameter.to_integer` (hyperparameters/uniform_float.py:129-149), for a hyperparameter with the given name,
bounds and default. -/
def fltToInt (name : Name) (lower upper default : Rat) : Except Err HP :=
  mkInt name (lower.ceil : Rat) (upper.floor : Rat) (some (rint default : Rat))

/-- `UniformIntegerHyperparameter.to_float` (hyperparameters/uniform_integer.py:152-167). -/
def intToFlt (name : Name) (lower upper default : Int) : Except Err HP :=
  mkFlt name (lower : Rat) (upper : Rat) (some (default : Rat))

end Verif
