import Verif.Model.Construct
import Verif.Model.Neighbors

/-!
# The order of ordinal hyperparameters

`hyperparameters/ordinal.py:151-165`.  `sequence` is the tuple given to the constructor.
-/

set_option autoImplicit false

namespace Verif

/-- `self.sequence.index(value)`: the first equal element, `ValueError` if there is none. -/
def tupleIndex (seq : List Val) (v : Val) : Except Err Nat :=
  match seq.findIdx? (fun x => x.pyEq v) with
  | some i => .ok i
  | none => .error .valueError

/-- `OrdinalHyperparameter.check_order` (hyperparameters/ordinal.py:151-153): the left side of `<` is evaluated first. -/
def checkOrder (seq : List Val) (value other : Val) : Except Err Bool :=
  match tupleIndex seq value with
  | .error e => .error e
  | .ok i => match tupleIndex seq other with
    | .error e => .error e
    | .ok j => .ok (decide (i < j))

/-- `OrdinalHyperparameter.get_order` (hyperparameters/ordinal.py:155-157). -/
def getOrder (seq : List Val) (v : Val) : Except Err Nat := tupleIndex seq v

/-- `OrdinalHyperparameter.get_value` (hyperparameters/ordinal.py:159-161): negative positions count from the end. -/
def getValue (seq : List Val) (i : Int) : Except Err Val :=
  match Kind.pyIndex seq i with
  | some v => .ok v
  | none => .error .indexError

/-- `OrdinalHyperparameter.get_seq_order` (hyperparameters/ordinal.py:163-165). -/
def getSeqOrder (seq : List Val) : List Nat := List.range seq.length

end Verif
