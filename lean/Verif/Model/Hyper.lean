import Verif.Model.Base

/-!
# Hyperparameters: transformers and legality

Models `hyperparameters/hp_components.py` (TransformerSeq, UnitScaler on the linear scale,
TransformerConstant) as used by the categorical, ordinal, constant, uniform integer and uniform float
hyperparameters.  Log-scaled ranges, normal and beta distributions only differ in the transformer's
scale / sampling distribution; the log scale is treated over the reals in `Model/Numeric.lean`.
-/

set_option autoImplicit false

namespace Verif

/-- The kinds of hyperparameters (hyperparameters/{categorical,ordinal,constant,uniform_integer,
uniform_float}.py).  Meta data, weights and distributions are not part of this type. -/
inductive Kind where
  /-- `CategoricalHyperparameter(choices)`, hyperparameters/categorical.py:133 -/
  | cat (choices : List Val)
  /-- `OrdinalHyperparameter(sequence)`, hyperparameters/ordinal.py:56 -/
  | ord (seq : List Val)
  /-- `Constant(value)`, hyperparameters/constant.py:48 -/
  | const (v : Val)
  /-- `UniformIntegerHyperparameter(lower, upper, log=False)`, hyperparameters/uniform_integer.py:67 -/
  | int (lower upper : Int)
  /-- `UniformFloatHyperparameter(lower, upper, log=False)`, hyperparameters/uniform_float.py:64 -/
  | flt (lower upper : Rat)
deriving DecidableEq, Repr

/-- A hyperparameter: name, kind and default value (hyperparameters/hyperparameter.py:74-138).
Simplification: meta data is not modelled, and the weights of a categorical one only where they matter. -/
structure HP where
  name : Name
  kind : Kind
  default : Val
deriving DecidableEq, Repr

/-- Lists of values compare elementwise in Python. -/
def valsEq : List Val → List Val → Bool
  | [], [] => true
  | a :: as, b :: bs => a.pyEq b && valsEq as bs
  | _, _ => false

/-- `==` of hyperparameters: of the same class, with equal fields (the generated `__eq__` of the dataclasses,
hyperparameters/hyperparameter.py:30-72); for categorical ones the order of the choices does not matter
(hyperparameters/categorical.py:303-325).  Simplification: without weights all choices are equally probable, so the probabilities
are equal if there are as many choices. -/
def HP.pyEq (a b : HP) : Bool :=
  decide (a.name = b.name) && a.default.pyEq b.default && match a.kind, b.kind with
  | .cat cs, .cat ds => decide (cs.length = ds.length) && cs.all (fun c => c.pyIn ds)
  | .ord cs, .ord ds => valsEq cs ds
  | .const v, .const w => v.pyEq w
  | .int l u, .int l' u' => decide (l = l') && decide (u = u')
  | .flt l u, .flt l' u' => decide (l = l') && decide (u = u')
  | _, _ => false

/-- Position of a value in a sequence of choices: the lookup dictionary
`{v: i for i, v in enumerate(seq)}` (hyperparameters/hp_components.py:155); choices are unique
(categorical.py:175-196, ordinal.py:78-83), so first and last match coincide. -/
def seqIndex (xs : List Val) (v : Val) : Option Nat := xs.findIdx? (fun x => x.pyEq v)

/-- `scale` (functional.py:248-268): `unit * (to[1] - to[0]) + to[0]`. -/
def scaleQ (x lo hi : Rat) : Rat := x * (hi - lo) + lo

/-- `normalize` (functional.py:271-295): `(x - b[0]) / (b[1] - b[0])`, with the shortcut for
bounds `(0, 1)`. -/
def normalizeQ (x lo hi : Rat) : Rat := if lo = 0 ∧ hi = 1 then x else (x - lo) / (hi - lo)

/-- `np.clip`. -/
def clipQ (x lo hi : Rat) : Rat := if x < lo then lo else if hi < x then hi else x

namespace Kind

/-- `Hyperparameter.legal_value` on a single value: `legal_value_single` of the transformers
(hyperparameters/hp_components.py:223-226, 391-403, 534-535). -/
def legalValue : Kind → Val → Bool
  | .cat cs, v => v.pyIn cs
  | .ord cs, v => v.pyIn cs
  | .const c, v => v.pyEq c
  | .int l u, v => match v.num? with
    | none => false
    | some q => decide (l ≤ rint q) && decide (rint q ≤ u) && closeToInt q
  | .flt l u, v => match v.num? with
    | none => false
    | some q => decide (l ≤ q) && decide (q ≤ u)

/-- `Hyperparameter.to_vector` on a single value (hyperparameters/hyperparameter.py:374-393,
hp_components.py:195-202, 337-344, 509-513).  `none` models the exception raised for a value that
cannot be converted (KeyError of the lookup, TypeError of the arithmetic). -/
def toVec : Kind → Val → Option Rat
  | .cat cs, v => (seqIndex cs v).map (fun i : Nat => (i : Rat))
  | .ord cs, v => (seqIndex cs v).map (fun i : Nat => (i : Rat))
  | .const c, v => some (if v.pyEq c then 1 else 0)
  | .int l u, v => v.num?.map (fun q => normalizeQ q l u)
  | .flt l u, v => v.num?.map (fun q => normalizeQ q l u)

/-- Python indexing `seq[i]` with an integer index, negative indices counting from the end. -/
def pyIndex (xs : List Val) (i : Int) : Option Val :=
  if 0 ≤ i then xs[i.toNat]? else if 0 ≤ i + xs.length then xs[(i + xs.length).toNat]? else none

/-- `Hyperparameter.to_value` on a single entry (hyperparameters/hyperparameter.py:342-362,
hp_components.py:172-192, 300-311, 516-523). `none` models ValueError / IndexError. -/
def toVal : Kind → Rat → Option Val
  | .cat cs, x => if closeToInt x then pyIndex cs (rint x) else none
  | .ord cs, x => if closeToInt x then pyIndex cs (rint x) else none
  | .const c, _ => some c
  | .int l u, x => some (.int (rint (scaleQ x l u)))
  | .flt l u, x => some (.flt (clipQ (scaleQ x l u) l u))

/-- `Hyperparameter.legal_vector` on a single entry: `legal_vector_single`
(hyperparameters/hp_components.py:229-234, 406-416, 538-539). -/
def legalVec : Kind → Rat → Bool
  | .cat cs, x => decide (0 ≤ x) && decide (x < cs.length) && closeToInt x
  | .ord cs, x => decide (0 ≤ x) && decide (x < cs.length) && closeToInt x
  | .const _, x => decide (x = 1)
  | .int l u, x => closeToInt (x * (u - l)) && (decide (0 ≤ x) && decide (x ≤ 1))
  | .flt _ _, x => decide (0 ≤ x) && decide (x ≤ 1)

/-- `Hyperparameter.size`; `none` is `np.inf` (categorical.py:268, ordinal.py:85, constant.py:74,
uniform_integer.py:117, uniform_float.py:102). -/
def size : Kind → Option Nat
  | .cat cs => some cs.length
  | .ord cs => some cs.length
  | .const _ => some 1
  | .int l u => some (u - l + 1).toNat
  | .flt _ _ => none

/-- Class attribute `ORDERABLE` (ordinal.py, hyperparameter.py NumericalHyperparameter: True;
categorical.py, constant.py: False). -/
def orderable : Kind → Bool
  | .cat _ => false
  | .const _ => false
  | .ord _ => true
  | .int _ _ => true
  | .flt _ _ => true

/-- `isinstance(hp, OrdinalHyperparameter)` (conditions.py:147). -/
def isOrdinal : Kind → Bool
  | .ord _ => true
  | _ => false

/-- `isinstance(hp, FloatHyperparameter)` (configuration.py:120). -/
def isFloat : Kind → Bool
  | .flt _ _ => true
  | _ => false

end Kind

/-- `Hyperparameter._normalized_default_value` (hyperparameters/hyperparameter.py:138).
The constructor has checked that the default is legal, so the conversion succeeds; `0` is a filler
for data that no constructor builds. -/
def HP.defVec (h : HP) : Rat := (h.kind.toVec h.default).getD 0

/-- No two elements compare equal (`Counter` check, categorical.py:175-196; ordinal.py:78-83). -/
def distinctVals : List Val → Bool
  | [] => true
  | x :: xs => !(x.pyIn xs) && distinctVals xs

/-- What the constructors establish and the rest of the model relies on: non-empty and duplicate free
choices (categorical.py:175-196, hp_components.py:151-152, ordinal.py:78-83), `lower < upper`
(hp_components.py:281-285), bounds and default of a float range rounded to `ROUND_PLACES`
(uniform_float.py:93-94, 110-118), an integer default of an integer range (uniform_integer.py:134-141) and a legal
default (hyperparameter.py:132-136).  `Constant` takes its value as default (constant.py:75). -/
def HP.wf (h : HP) : Bool :=
  (match h.kind with
    | .cat cs => !cs.isEmpty && distinctVals cs
    | .ord cs => !cs.isEmpty && distinctVals cs
    | .const v => decide (h.default = v)
    | .int l u => decide (l < u) && (match h.default with
      | .int _ => true
      | _ => false)
    | .flt l u => decide (l < u) && (decide (roundPlaces l = l) && decide (roundPlaces u = u)) &&
      (match h.default with
      | .flt q => decide (roundPlaces q = q)
      | _ => false)) && h.kind.legalValue h.default

end Verif
