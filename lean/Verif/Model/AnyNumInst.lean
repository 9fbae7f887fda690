import Verif.Model.AnyNum
import Verif.Model.F64Space
import Verif.Model.Scaled

/-!
# The arithmetics of the other models

Exact numbers on linear scales, doubles on linear scales, and doubles on linear and logarithmic scales.
-/

set_option autoImplicit false

namespace Verif.AnyNum
open Verif

/-- Exact numbers, linear scales: the conversions of `Model/Hyper.lean`. -/
def exact : Arith Rat Val where
  toVec h v := (h.kind.toVec v).getD 0
  toVal h x := h.kind.toVal x
  legalVec h x := h.kind.legalVec x
  legalValue h v := h.kind.legalValue v
  lt x y := decide (x < y)
  onVals := RelOp.onVals
  width := Space.batchWidth

/-- Doubles, linear scales: the conversions of `Model/F64Space.lean`. -/
def linear64 : Arith Rat Val where
  toVec h v := (F64.toVec64 h.kind v).getD 0
  toVal h x := F64.toVal64 h.kind x
  legalVec h x := F64.legalVec64 h.kind x
  legalValue h v := F64.legalValue64 h.kind v
  lt x y := decide (x < y)
  onVals := RelOp.onVals
  width := Space.batchWidth

noncomputable section

open F64 Num

variable (lg ex : ℝ → ℝ)

/-- `Hyperparameter.to_vector` (hyperparameters/hp_components.py:195-202, 334-344, 509-513) in doubles; `log` says whether the range is
logarithmic, `lg` is `np.log`. -/
def toVecD (log : Bool) : Kind → Val → Option ℝ
  | .int l u, v => v.num?.map (fun q : Rat =>
      if log then toVecLog lg (rd (l : ℝ)) (rd (u : ℝ)) (rd (q : ℝ)) else F64.normalize (rd (q : ℝ)) (rd (l : ℝ)) (rd (u : ℝ)))
  | .flt l u, v => v.num?.map (fun q : Rat =>
      if log then toVecLog lg (rd (l : ℝ)) (rd (u : ℝ)) (rd (q : ℝ)) else toVecFlt (rd (l : ℝ)) (rd (u : ℝ)) (rd (q : ℝ)))
  | k, v => (k.toVec v).map (fun q : Rat => (q : ℝ))

open Classical in
/-- `Hyperparameter.to_value` (hyperparameters/hp_components.py:172-192, 299-311, 516-523) in doubles; `ex` is `np.exp`. -/
def toValD (log : Bool) : Kind → ℝ → Option Scaled.RVal
  | .int l u, x => some (.val (.int (if log then toValLogInt lg ex l u x else toValInt l u x)))
  | .flt l u, x => some (.num (if log then toValLogFlt lg ex (rd (l : ℝ)) (rd (u : ℝ)) x else toValFlt (rd (l : ℝ)) (rd (u : ℝ)) x))
  | k, x => Scaled.toVal log k x

open Classical in
/-- `legal_vector_single` (hyperparameters/hp_components.py:229-234, 405-416, 538-539) in doubles. -/
def legalVecD (log : Bool) : Kind → ℝ → Bool
  | .int l u, x => decide (if log then legalVecLog lg ex l u x else F64.legalVecSingle l u x)
  | k, x => decide (Scaled.legalVec log k x)

open Classical in
/-- `legal_value_single` (hyperparameters/hp_components.py:223-226, 391-403, 534-535) in doubles; the scale does not matter. -/
def legalValueD : Kind → Val → Bool
  | .int l u, v => match v.num? with
    | none => false
    | some q => decide (F64.legalInt l u (rd (q : ℝ)))
  | .flt l u, v => match v.num? with
    | none => false
    | some q => decide (rd (l : ℝ) ≤ rd (q : ℝ) ∧ rd (q : ℝ) ≤ rd (u : ℝ))
  | k, v => k.legalValue v

open Classical in
/-- Doubles, linear and logarithmic scales, with any functions for `np.log` and `np.exp`. -/
def doubles (log : Scaled.Scales) : Arith ℝ Scaled.RVal where
  toVec h v := (toVecD lg (log h) h.kind v).getD 0
  toVal h x := toValD lg ex (log h) h.kind x
  legalVec h x := legalVecD lg ex (log h) h.kind x
  legalValue h v := legalValueD h.kind v
  lt x y := decide (x < y)
  onVals := Scaled.onVals
  width := Space.batchWidth

end

end Verif.AnyNum
