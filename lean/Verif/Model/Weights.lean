import Verif.Model.Construct
import Verif.Model.Neighbors
import Verif.Model.Space

/-!
# Categorical hyperparameters with weights

`hyperparameters/categorical.py` and the two distributions it uses, `hyperparameters/distributions.py:922-975` and `1099-1170`.
Exact rational numbers.  Choices are numbers and texts.
-/

set_option autoImplicit false

namespace Verif

/-- A categorical hyperparameter object: the attributes `name`, `choices`, `default_value` and `weights`
(hyperparameters/categorical.py:277-291). -/
structure WCat where
  name : Name
  choices : List Val
  default : Val
  weights : Option (List Rat)
deriving DecidableEq, Repr

/-- `CategoricalHyperparameter.__init__` (hyperparameters/categorical.py:133-291). -/
def mkWCat (name : Name) (choices : List Val) (default : Option Val) (weights : Option (List Rat)) : Except Err WCat :=
  match mkCat name choices default weights with
  | .error e => .error e
  | .ok h => .ok { name := name, choices := choices, default := h.default, weights := weights }

/-- The attribute `probabilities` (hyperparameters/categorical.py:222-227). -/
def WCat.probs (w : WCat) : List Rat := Num.probabilities w.choices.length w.weights

/-- `CategoricalHyperparameter.to_uniform` (hyperparameters/categorical.py:293-301). -/
def WCat.toUniform (w : WCat) : Except Err WCat := mkWCat w.name w.choices (some w.default) none

/-- One round of the loop of `__eq__`: the choice is a choice of the other one, with the same probability
(hyperparameters/categorical.py:314-323).  `other.choices.index` finds the first equal choice. -/
def WCat.sameProb (b : WCat) (cp : Val × Rat) : Bool :=
  match seqIndex b.choices cp.1 with
  | none => false
  | some i => decide (b.probs[i]? = some cp.2)

/-- `CategoricalHyperparameter.__eq__` (hyperparameters/categorical.py:303-325). -/
def WCat.eq (a b : WCat) : Bool :=
  if a.name ≠ b.name || !(a.default.pyEq b.default) || a.choices.length ≠ b.choices.length then false
  else (a.choices.zip a.probs).all b.sameProb

/-- The mask of `pdf_vector` of both distributions (hyperparameters/distributions.py:962-967, 1159-1164). -/
def choiceMask (size : Nat) (x : Rat) : Bool := decide (0 ≤ x) && decide (x ≤ (size : Rat) - 1) && closeToInt x

/-- `pdf_vector` of the distribution of the hyperparameter for one entry: without weights `UniformIntegerDistribution`
(hyperparameters/distributions.py:949-969), with weights `WeightedIntegerDiscreteDistribution`
(hyperparameters/distributions.py:1148-1171), which truncates the entry to an index. -/
def WCat.distPdf (w : WCat) (x : Rat) : Rat :=
  match w.weights with
  | none => if choiceMask w.choices.length x then 1 / (w.choices.length : Rat) else 0
  | some _ => if choiceMask w.choices.length x then
      w.probs.getD (trunc (clipQ x 0 ((w.choices.length : Rat) - 1))).toNat 0 else 0

/-- `Hyperparameter.pdf_vector` (hyperparameters/hyperparameter.py:492-505): zero where the entry is not legal. -/
def WCat.pdfVector (w : WCat) (x : Rat) : Rat :=
  w.distPdf x * if (Kind.cat w.choices).legalVec x then 1 else 0

/-- `self._lookup[v]` (hyperparameters/hp_components.py:195-197). -/
def WCat.entry (w : WCat) (v : Val) : Except Err Rat :=
  match (Kind.cat w.choices).toVec v with
  | some x => .ok x
  | none => .error .keyError

/-- `CategoricalHyperparameter.pdf_values` (hyperparameters/categorical.py:383-400, hp_components.py:195-197) for an array of
objects: an entry is looked up for every value first, which raises `KeyError`. -/
def WCat.pdfValues (w : WCat) (vs : List Val) : Except Err (List Rat) :=
  match mapExcept w.entry vs with
  | .error e => .error e
  | .ok xs => .ok (xs.map w.pdfVector)

/-- `np.cumsum`, with the sum of what was before. -/
def cumsum (acc : Rat) : List Rat → List Rat
  | [] => []
  | p :: ps => (acc + p) :: cumsum (acc + p) ps

/-- `RandomState.choice(size, p=ps)` for one uniform number `u` of `[0, 1)`, as numpy documents and implements it: the cumulated
probabilities are divided by the last one, and `searchsorted(u, side="right")` is the number of those that are at most `u`. -/
def numpyChoice (ps : List Rat) (u : Rat) : Nat :=
  let cdf := cumsum 0 ps
  (cdf.map (· / cdf.getLastD 1)).countP (fun c => decide (c ≤ u))

/-- The random numbers of one sample: an integer below the size, or a number of `[0, 1)`. -/
inductive CatDraw where
  | index (i : Nat)
  | unit (u : Rat)
deriving DecidableEq, Repr

/-- What `RandomState` can return for this hyperparameter. -/
def WCat.canDraw (w : WCat) : CatDraw → Bool
  | .index i => w.weights.isNone && decide (i < w.choices.length)
  | .unit u => w.weights.isSome && decide (0 ≤ u) && decide (u < 1)

/-- `sample_vector` of the distribution of the hyperparameter for one sample (hyperparameters/distributions.py:938-946,
1126-1138). -/
def WCat.sampleVector (w : WCat) : CatDraw → Rat
  | .index i => i
  | .unit u => numpyChoice w.probs u

/-- `Hyperparameter.sample_value`, `rvs` (hyperparameters/hyperparameter.py:165-188, 303-334) for the draws of one call. -/
def WCat.sampleValues (w : WCat) (draws : List CatDraw) : Option (List Val) :=
  (draws.map w.sampleVector).mapM (Kind.cat w.choices).toVal

end Verif
