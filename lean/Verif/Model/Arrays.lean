import Verif.Model.Space

/-!
# Values, lists of values and arrays of values

`legal_value` and `to_vector` of hyperparameters take a value, a list of values or a numpy array of values.  This file models
which of the three an argument is taken for, and what numpy makes of lists.  Choices may be objects here: besides numbers
and texts also tuples, lists and dictionaries.
-/

set_option autoImplicit false

namespace Verif

/-- Python objects that are used as choices.  `seq true` is a tuple, `seq false` a list; both are `Sequence`s. -/
inductive Obj where
  | val (v : Val)
  | seq (tuple : Bool) (xs : List Obj)
  | dict (items : List (String × Val))

mutual
/-- Python `==`: a tuple is never equal to a list; dictionaries are compared as mappings. -/
def Obj.pyEq : Obj → Obj → Bool
  | .val a, .val b => a.pyEq b
  | .seq t xs, .seq t' ys => decide (t = t') && Obj.listEq xs ys
  | .dict xs, .dict ys => decide (xs.length = ys.length) && xs.all (fun kv => match ys.lookup kv.1 with
      | some w => kv.2.pyEq w
      | none => false)
  | _, _ => false
/-- `==` of the elements of two sequences. -/
def Obj.listEq : List Obj → List Obj → Bool
  | [], [] => true
  | x :: xs, y :: ys => x.pyEq y && Obj.listEq xs ys
  | _, _ => false
end

mutual
/-- `hash(x)` does not raise: lists and dictionaries are not hashable, tuples are if their elements are. -/
def Obj.hashable : Obj → Bool
  | .val _ => true
  | .seq true xs => Obj.allHashable xs
  | .seq false _ => false
  | .dict _ => false
def Obj.allHashable : List Obj → Bool
  | [] => true
  | x :: xs => x.hashable && Obj.allHashable xs
end

/-- `isinstance(x, Sequence) and not isinstance(x, str)` -/
def Obj.isSeq : Obj → Bool
  | .seq _ _ => true
  | _ => false

/-- `isinstance(x, str)` -/
def Obj.isStr : Obj → Bool
  | .val (.str _) => true
  | _ => false

/-- `isinstance(x, dict)` -/
def Obj.isDict : Obj → Bool
  | .dict _ => true
  | _ => false

/-- The text that numpy makes of a number in an array of texts.  Simplification: floats are printed differently. -/
def Obj.toText : Obj → Obj
  | .val (.int n) => .val (.str (toString n))
  | .val (.flt q) => .val (.str (if q.den = 1 then toString q.num ++ ".0" else toString q))
  | o => o

/-- The elements of `np.asarray(xs)` for a list without sequences: with a dictionary the array has dtype object, otherwise numbers
become texts if there is a text.  Integers become floats if there is a float, which changes no comparison with `==`
(below `2**53`). -/
def asarray (xs : List Obj) : List Obj :=
  if xs.any Obj.isDict then xs
  else if xs.any Obj.isStr then xs.map Obj.toText
  else xs

/-- The choices of a categorical or ordinal hyperparameter.  `seq_choices` is a numpy array with the same elements unless a
choice is a sequence, and a list then (hyperparameters/categorical.py:250-267, ordinal.py:92-109): numpy makes an array with more
dimensions or raises ValueError; mixed numbers and texts are stored as objects. -/
structure Choices where
  items : List Obj

/-- `_contains_sequence_as_value` (hyperparameters/categorical.py:269-275, ordinal.py:113-119). -/
def Choices.hasSeq (c : Choices) : Bool := c.items.any Obj.isSeq

/-- `_lookup is not None` (hyperparameters/hp_components.py:154-157): all choices are hashable. -/
def Choices.hasLookup (c : Choices) : Bool := c.items.all Obj.hashable

/-- Position of the first choice equal to the object. -/
def Choices.index (c : Choices) (o : Obj) : Option Nat := c.items.findIdx? (fun x => x.pyEq o)

/-- An entry of the lookup table: KeyError if there is none, TypeError if the object is not hashable. -/
def Choices.lookup (c : Choices) (o : Obj) : Except Err Nat :=
  if o.hashable then match c.index o with
    | some i => .ok i
    | none => .error .keyError
  else .error .typeError

/-- `TransformerSeq.to_vector` (hyperparameters/hp_components.py:195-203): the lookup table if there is one; with an array of
choices the positions of the choices that occur in the argument; otherwise `list.index`, which raises ValueError. -/
def Choices.toVectorArr (c : Choices) (vs : List Obj) : Except Err (List Nat) :=
  if c.hasLookup then vs.mapM c.lookup
  else if !c.hasSeq then
    .ok ((List.range c.items.length).filter (fun i => match c.items[i]? with
      | some x => vs.any (fun v => x.pyEq v)
      | none => false))
  else vs.mapM (fun v => match c.index v with
    | some i => .ok i
    | none => .error .valueError)

/-- `TransformerSeq.legal_value` (hyperparameters/hp_components.py:205-212). -/
def Choices.legalArr (c : Choices) (vs : List Obj) : Except Err (List Bool) :=
  if c.hasLookup then vs.mapM (fun v => if v.hashable then .ok (c.index v).isSome else .error .typeError)
  else .ok (vs.map (fun v => (c.index v).isSome))

/-- An argument: a one-dimensional numpy array, or any other object. -/
inductive ValArg where
  | array (vs : List Obj)
  | obj (o : Obj)

/-- A result: one answer, or an array of answers. -/
inductive Res (α : Type) where
  | one (a : α)
  | many (as : List α)

/-- `result[0]` -/
def Res.first {α : Type} : List α → Except Err (Res α)
  | a :: _ => .ok (.one a)
  | [] => .error .indexError

/-- The dispatch of `to_vector` and `legal_value` of categorical and ordinal hyperparameters
(hyperparameters/categorical.py:333-380, ordinal.py:178-225), with the method `f` of the transformer.  An argument list that contains
sequences, for choices that do not, is outside the model: numpy makes an array with more dimensions or raises. -/
def Choices.dispatch {α : Type} (c : Choices) (f : List Obj → Except Err (List α)) : ValArg → Except Err (Res α)
  | .array vs => (f vs).map .many
  | .obj (.seq t xs) => if c.hasSeq then (f [.seq t xs]).bind Res.first else (f (asarray xs)).map .many
  | .obj o => (f [o]).bind Res.first

/-- `CategoricalHyperparameter.to_vector`, `OrdinalHyperparameter.to_vector` (hyperparameters/categorical.py:333-355,
ordinal.py:178-200). -/
def Choices.toVector (c : Choices) : ValArg → Except Err (Res Nat) := c.dispatch c.toVectorArr

/-- `CategoricalHyperparameter.legal_value`, `OrdinalHyperparameter.legal_value` (hyperparameters/categorical.py:358-380,
ordinal.py:203-225). -/
def Choices.legalValue (c : Choices) : ValArg → Except Err (Res Bool) := c.dispatch c.legalArr

/-- `legal_value_single` of a range (hyperparameters/hp_components.py:391-403) on any object. -/
def Kind.legalObj (k : Kind) : Obj → Bool
  | .val v => k.legalValue v
  | _ => false

/-- `Hyperparameter.legal_value` for integers and floats (hyperparameters/hyperparameter.py:281-287, hp_components.py:361-374): arrays
of numbers are checked by the same comparisons as single numbers, other arrays element by element. -/
def Kind.legalArg (k : Kind) : ValArg → Res Bool
  | .array vs => .many (vs.map k.legalObj)
  | .obj (.seq _ xs) => .many ((asarray xs).map k.legalObj)
  | .obj o => .one (k.legalObj o)

/-- `if not hp.legal_value(value): raise IllegalValueError` in the constructor of configurations and in `__setitem__`
(configuration.py:116-117, 188-189): the truth value of an array with one element is that of the element, with more elements
it raises ValueError. -/
def acceptRes (n : Name) : Res Bool → Except Err Unit
  | .one b => if b then .ok () else .error (.illegalValue n)
  | .many [b] => if b then .ok () else .error (.illegalValue n)
  | .many [] => .error (.illegalValue n)
  | .many _ => .error .valueError

end Verif
