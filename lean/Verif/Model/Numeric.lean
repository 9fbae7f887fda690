import Verif.Model.Hyper
import Mathlib.Algebra.Order.Floor.Ring
import Mathlib.Data.Rat.Floor
import Mathlib.Analysis.SpecialFunctions.Log.Basic

/-!
# Numeric helpers (`functional.py`) and scaled ranges (`UnitScaler` of `hp_components.py`)

The functions on numbers are written once for any ordered field with a floor function; the log scale uses the
real numbers.  `f64` is idealised as exact arithmetic.
-/

set_option autoImplicit false

namespace Verif.Num

/-! ## Integer ranges -/

/-- `ceil(a / b)` for integers, `b > 0`. -/
def ceilDiv (a b : Int) : Int := -((-a) / b)

/-- `np.arange(start, stop, step)` and `range(start, stop, step)` on integers, `step > 0`: `ceil((stop - start) / step)`
items. -/
def arange (start stop step : Int) : List Int :=
  (List.range (ceilDiv (stop - start) step).toNat).map (fun i : Nat => start + i * step)

/-- `range(start, stop, -step)` on integers, `step > 0`. -/
def arangeDown (start stop step : Int) : List Int :=
  (List.range (ceilDiv (start - stop) step).toNat).map (fun i : Nat => start - i * step)

/-- `more_itertools.roundrobin` of two iterables: alternate, and go on with the other one when one is exhausted. -/
def roundrobin {α : Type} : List α → List α → List α
  | [], bs => bs
  | a :: as, bs => a :: roundrobin bs as
termination_by as bs => as.length + bs.length
decreasing_by simp only [List.length_cons]; omega

/-- `center_range` (functional.py:16-42); `none` is the failing assertion.  `step` is positive. -/
def centerRange (center low high step : Int) : Option (List Int) :=
  if low ≤ center ∧ center ≤ high then
    some (roundrobin (arangeDown (center - step) (low - 1) step) (arange (center + step) (high + 1) step))
  else none

/-- `arange_chunked` (functional.py:45-79); `none` is a failing assertion. -/
def arangeChunked (start stop step chunk : Int) : Option (List (List Int)) :=
  if 0 < step ∧ 0 < chunk ∧ start < stop then
    let nItems := ceilDiv (stop - start) step
    let nChunks := ceilDiv nItems chunk
    some ((List.range nChunks.toNat).map (fun k : Nat =>
      let chunkStart := start + k * chunk
      let chunkStop := min (chunkStart + chunk) stop
      arange chunkStart chunkStop step))
  else none

/-- `split_arange` (functional.py:126-145). -/
def splitArange (frm upto pivot : Int) : List Int := arange frm pivot 1 ++ arange (pivot + 1) upto 1

/-! ## Scaling -/

section
variable {K : Type} [Field K] [LinearOrder K]

/-- `scale` (functional.py:248-268). -/
def scale (x lo hi : K) : K := x * (hi - lo) + lo

/-- `normalize` (functional.py:271-295). -/
def normalize (x lo hi : K) : K := if lo = 0 ∧ hi = 1 then x else (x - lo) / (hi - lo)

/-- `rescale` (functional.py:298-324). -/
def rescale (x flo fhi tlo thi : K) : K :=
  if flo = tlo ∧ fhi = thi then x else scale (normalize x flo fhi) tlo thi

/-- `np.clip`. -/
def clip (x lo hi : K) : K := if x < lo then lo else if hi < x then hi else x

/-- `np.linspace(start, stop, num, endpoint)`: the points `start + i * (stop - start) / div` with
`div = num - 1` or `num`; a single point (division by zero) is `start`. -/
def linspace (start stop : K) (num : Nat) (endpoint : Bool) : List K :=
  let div : Nat := if endpoint then num - 1 else num
  (List.range num).map (fun i : Nat => if div = 0 then start else start + i * ((stop - start) / div))

/-- `linspace_chunked` (functional.py:82-120) for an integral `num`; `none` is a failing assertion. -/
def linspaceChunked (start stop : K) (num chunk : Nat) (endpoint : Bool) : Option (List (List K)) :=
  if 0 < num ∧ 0 < chunk ∧ start < stop then
    if num ≤ chunk then some [linspace start stop num endpoint]
    else
      let div : K := if endpoint then (num : K) - 1 else num
      (arangeChunked 0 num 1 chunk).map (fun cs =>
        cs.map (fun c => c.map (fun i : Int => ((i : K) / div) * (stop - start) + start)))
  else none

variable [FloorRing K]

/-- `quantize` (functional.py:208-245). -/
def quantize (x l u : K) (bins : Nat) : K :=
  let unitnorm := if l = 0 ∧ u = 1 then x else (x - l) / (u - l)
  let level : K := clip ((⌊unitnorm * bins⌋ : Int) : K) 0 ((bins : K) - 1)
  let q := level / ((bins : K) - 1)
  if l = 0 ∧ u = 1 then q else q * (u - l) + l

/-- `np.rint`: round half to even. -/
def rintK (q : K) : Int :=
  let r := q - (⌊q⌋ : K)
  if r < 1 / 2 then ⌊q⌋ else if 1 / 2 < r then ⌊q⌋ + 1 else if ⌊q⌋ % 2 = 0 then ⌊q⌋ else ⌊q⌋ + 1

/-- `is_close_to_integer` with `atol=ATOL` and the default `rtol` (functional.py:345-390). -/
def closeToIntK (a : K) : Prop := |a - (rintK a : K)| ≤ 1 / 10000000000000 + 1 / 100000 * |(rintK a : K)|

/-- `legal_value` / `legal_value_single` of an integer range on a number
(hyperparameters/hp_components.py:366-372, 395-401). -/
def legalIntK (l u : Int) (a : K) : Prop := l ≤ rintK a ∧ rintK a ≤ u ∧ closeToIntK a

/-- `legal_vector` of an integer range on an array, linear scale: the entries are scaled back and checked as values
(hyperparameters/hp_components.py:377-386). -/
def legalVecArray (l u : Int) (x : K) : Prop := legalIntK l u (scale x (l : K) u)

/-- `legal_vector_single` of an integer range, linear scale (hyperparameters/hp_components.py:406-413). -/
def legalVecSingle (l u : Int) (x : K) : Prop := closeToIntK (x * ((u : K) - l)) ∧ 0 ≤ x ∧ x ≤ 1

end

/-! ## Logarithmic scale -/

noncomputable section

/-- `UnitScaler.to_vector` with `log=True` (hyperparameters/hp_components.py:337-342). -/
def toVecLog (l u v : ℝ) : ℝ := normalize (Real.log v) (Real.log l) (Real.log u)

/-- `UnitScaler._unsafe_to_value` with `log=True` (hyperparameters/hp_components.py:324-332; the variant for a
single value, 313-320, computes the same). -/
def unsafeLog (l u x : ℝ) : ℝ := Real.exp (scale x (Real.log l) (Real.log u))

/-- `UnitScaler.to_value` with `log=True` for floats (hyperparameters/hp_components.py:300-311). -/
def toValLogFlt (l u x : ℝ) : ℝ := clip (unsafeLog l u x) l u

/-- `UnitScaler.to_value` with `log=True` for integers (hyperparameters/hp_components.py:300-304). -/
def toValLogInt (l u : Int) (x : ℝ) : Int := rintK (unsafeLog l u x)

/-- `legal_vector` and `legal_vector_single` of an integer range with `log=True`
(hyperparameters/hp_components.py:377-386, 415-416). -/
def legalVecLogInt (l u : Int) (x : ℝ) : Prop := legalIntK l u (unsafeLog l u x)

/-- `quantize_log` (functional.py:148-192). -/
def quantizeLog (x blo bhi slo shi : ℝ) (bins : Nat) : ℝ :=
  let xlog := rescale x blo bhi (Real.log slo) (Real.log shi)
  let xorig := Real.exp xlog
  let qorig := quantize xorig slo shi bins
  rescale (Real.log qorig) (Real.log slo) (Real.log shi) blo bhi

end

end Verif.Num
