import Verif.Model.Arrays

/-!
# Constants with any object as value, and densities of lists and arrays of values

`Constant.legal_value`, `to_vector`, `to_value` and `pdf_values` (hyperparameters/constant.py:108-178, hp_components.py:507-539), and
`pdf_values` of categorical and ordinal hyperparameters whose choices may be objects.
-/

set_option autoImplicit false

namespace Verif

/-- A constant hyperparameter: the attribute `value` (hyperparameters/constant.py:72-80; a numpy array as value raises ValueError). -/
structure Konst where
  value : Obj

/-- `_contains_sequence_as_value` (hyperparameters/constant.py:77-80). -/
def Konst.hasSeq (k : Konst) : Bool := k.value.isSeq

/-- `TransformerConstant.legal_value` (hyperparameters/hp_components.py:526-527). -/
def Konst.legalArr (k : Konst) (vs : List Obj) : List Bool := vs.map (fun v => v.pyEq k.value)

/-- `TransformerConstant.to_vector` (hyperparameters/hp_components.py:508-512): one for the value, zero for everything else. -/
def Konst.toVectorArr (k : Konst) (vs : List Obj) : List Rat := vs.map (fun v => if v.pyEq k.value then 1 else 0)

/-- The dispatch of `Constant.legal_value` and `Constant.to_vector` (hyperparameters/constant.py:109-131, 155-177), with the method `f`
of the transformer.  As in `Choices.dispatch`, an argument list that contains sequences is outside the model unless the value of
the constant is a sequence. -/
def Konst.dispatch {α : Type} (k : Konst) (f : List Obj → List α) : ValArg → Except Err (Res α)
  | .array vs => .ok (.many (f vs))
  | .obj (.seq t xs) => if k.hasSeq then Res.first (f [.seq t xs]) else .ok (.many (f (asarray xs)))
  | .obj o => Res.first (f [o])

/-- `Constant.legal_value` (hyperparameters/constant.py:108-131). -/
def Konst.legalValue (k : Konst) : ValArg → Except Err (Res Bool) := k.dispatch k.legalArr

/-- `Constant.to_vector` (hyperparameters/constant.py:154-177). -/
def Konst.toVector (k : Konst) : ValArg → Except Err (Res Rat) := k.dispatch k.toVectorArr

/-- `TransformerConstant.legal_vector` (hyperparameters/hp_components.py:530-531), for one entry. -/
def Konst.legalVector (_ : Konst) (x : Rat) : Bool := decide (x = 1)

/-- `TransformerConstant.to_value` (hyperparameters/hp_components.py:515-523): the value, whatever the entries are. -/
def Konst.toValueArr (k : Konst) (xs : List Rat) : List Obj := xs.map (fun _ => k.value)

/-- `Hyperparameter.pdf_vector` (hyperparameters/hyperparameter.py:492-505) with `ConstantVectorDistribution.pdf_vector`
(hyperparameters/distributions.py:1282-1292). -/
def Konst.pdfVector (k : Konst) (x : Rat) : Rat := (if x = 1 then 1 else 0) * (if k.legalVector x then 1 else 0)

/-- The arguments of `pdf_values`: a one-dimensional array, or a tuple or list. -/
inductive ListArg where
  | array (vs : List Obj)
  | seq (tuple : Bool) (vs : List Obj)

/-- The values that an argument of `pdf_values` lists. -/
def ListArg.values : ListArg → List Obj
  | .array vs => vs
  | .seq _ vs => vs

/-- The array that is handed to the transformer by `pdf_values` (hyperparameters/categorical.py:383-400, ordinal.py:228-245,
constant.py:134-151): lists are copied element by element if there are sequences among the values, and go through `np.asarray`
otherwise. -/
def ListArg.handed (hasSeq : Bool) : ListArg → List Obj
  | .array vs => vs
  | .seq _ vs => if hasSeq then vs else asarray vs

/-- `Constant.pdf_values` (hyperparameters/constant.py:134-151). -/
def Konst.pdfValues (k : Konst) (a : ListArg) : List Rat := (k.toVectorArr (a.handed k.hasSeq)).map k.pdfVector

/-- `CategoricalHyperparameter.pdf_values`, `OrdinalHyperparameter.pdf_values` (hyperparameters/categorical.py:383-400,
ordinal.py:228-245) where `p i` is the density that `pdf_vector` returns at position `i` (Model/Weights.lean, Model/Ordinal.lean). -/
def Choices.pdfValues (c : Choices) (p : Nat → Rat) (a : ListArg) : Except Err (List Rat) :=
  (c.toVectorArr (a.handed c.hasSeq)).map (fun is => is.map p)

end Verif
