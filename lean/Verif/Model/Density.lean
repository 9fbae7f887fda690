import Verif.Model.Prior
import Verif.Model.Neighbors
import Mathlib.Analysis.SpecialFunctions.Pow.Real
import Mathlib.MeasureTheory.Integral.IntervalIntegral.Basic

/-!
# Densities of all hyperparameters

`hyperparameters/distributions.py` (`pdf_vector`, `max_density`), `hyperparameters/hyperparameter.py` (`pdf_vector`,
`get_max_density`) and the distributions that the constructors choose.  Exact real numbers.  The scipy distributions are
represented by their documented densities: `truncnorm` with the bounds chosen by the code is the normal density restricted to
`[0, 1]`, `beta` has the density `x ^ (a - 1) * (1 - x) ^ (b - 1)` on `[0, 1]`, both divided by their integrals; `uniform` is 1 on
`[0, 1]`.
-/

set_option autoImplicit false

namespace Verif.Dens

open Verif.Num

noncomputable section

/-- `pdf_vector` and `max_density` of a distribution object (`Distribution`, hyperparameters/distributions.py:288-340). -/
structure VDist where
  pdf : ℝ → ℝ
  maxDensity : ℝ

/-- Density of the normal distribution up to a constant. -/
def normalKernel (mu sigma x : ℝ) : ℝ := Real.exp (-(x - mu) ^ 2 / (2 * sigma ^ 2))

/-- Density of the beta distribution up to a constant. -/
def betaKernel (a b x : ℝ) : ℝ := x ^ (a - 1) * (1 - x) ^ (b - 1)

/-- `rv.pdf` of a scipy distribution on `[0, 1]` with this kernel. -/
def normed (k : ℝ → ℝ) (x : ℝ) : ℝ :=
  haveI := Classical.propDecidable; if 0 ≤ x ∧ x ≤ 1 then k x / ∫ y in (0 : ℝ)..1, k y else 0

/-- `ScipyContinuousDistribution` (hyperparameters/distributions.py:1174-1214) as made by normal and beta distributed floats: the
largest density is the density at the given point. -/
def scipyContinuous (rv : ℝ → ℝ) (point : ℝ) : VDist where
  pdf x := rv x / 1
  maxDensity := rv point

/-- `NormalFloatHyperparameter` (hyperparameters/normal_float.py:123-140). -/
def normalFloat (l u : ℝ) (log : Bool) (mu sigma : ℝ) : VDist :=
  scipyContinuous (normed (normalKernel (vecMu l u log mu) (vecSigma l u log sigma))) (clip (vecMu l u log mu) 0 1)

/-- `BetaFloatHyperparameter` (hyperparameters/beta_float.py:122-140). -/
def betaFloat (a b : Rat) : VDist := scipyContinuous (normed (betaKernel a b)) (betaMode a b : Rat)

/-- `UniformFloatHyperparameter`: `UnitUniformContinuousDistribution` (hyperparameters/uniform_float.py:102-104,
distributions.py:851-896). -/
def uniformFloat (l u : ℝ) : VDist where
  pdf x := haveI := Classical.propDecidable; if 0 ≤ x ∧ x ≤ 1 then 1 / (u - l) else 0
  maxDensity := 1 / (u - l)

/-- `UniformIntegerHyperparameter`, linear scale: `UniformIntegerNormalizedDistribution`
(hyperparameters/uniform_integer.py:117-118, distributions.py:781-824). -/
def uniformInteger (size : Nat) : VDist where
  pdf := uniformIntPdf size
  maxDensity := 1 / size

/-- `UniformIntegerHyperparameter`, logarithmic scale: `DiscretizedContinuousScipyDistribution` of `uniform()` with the constants
given by the constructor (hyperparameters/uniform_integer.py:119-129, distributions.py:437-440, 543-561). -/
def uniformLogInteger (size : Nat) : VDist where
  pdf x := haveI := Classical.propDecidable; if 0 ≤ x ∧ x ≤ 1 then 1 / (size : ℝ) else 0
  maxDensity := 1 / size

/-- Normal and beta distributed integers: `DiscretizedContinuousScipyDistribution` of a scipy distribution with density `rv`
(hyperparameters/normal_integer.py:140-152, beta_integer.py:143-148, distributions.py:437-466, 543-561), with at most
`ARANGE_CHUNKSIZE` values. -/
def discretized (rv : ℝ → ℝ) (steps : Nat) : VDist where
  pdf x := haveI := Classical.propDecidable; if 0 ≤ x ∧ x ≤ 1 then discretizedPdf rv steps x else 0
  maxDensity := ((pdfPoints steps).map rv).foldl max 0

/-- Categorical hyperparameters without weights and ordinal ones: `UniformIntegerDistribution`
(hyperparameters/categorical.py:249, ordinal.py:128, distributions.py:922-970). -/
def choices (size : Nat) : VDist where
  pdf x := haveI := Classical.propDecidable; if 0 ≤ x ∧ x ≤ (size : ℝ) - 1 ∧ closeToIntK x then 1 / (size : ℝ) else 0
  maxDensity := 1 / size

/-- Categorical hyperparameters with weights: `WeightedIntegerDiscreteDistribution` (hyperparameters/categorical.py:242-247,
distributions.py:1100-1171). -/
def weighted (size : Nat) (weights : List ℝ) : VDist where
  pdf := weightedPdf (probabilities size (some weights))
  maxDensity := (probabilities size (some weights)).foldl max 0

/-- Constants: `ConstantVectorDistribution` (hyperparameters/constant.py:90-92, distributions.py:1254-1292). -/
def constant : VDist where
  pdf x := haveI := Classical.propDecidable; if x = 1 then 1 else 0
  maxDensity := 1

/-- `Hyperparameter.pdf_vector` (hyperparameters/hyperparameter.py:492-505) with the legal entries `legal`. -/
def pdfVector (legal : ℝ → Prop) (d : VDist) (x : ℝ) : ℝ := haveI := Classical.propDecidable; d.pdf x * if legal x then 1 else 0

/-- `Hyperparameter.get_max_density` (hyperparameters/hyperparameter.py:445-447). -/
def getMaxDensity (d : VDist) : ℝ := d.maxDensity

end

end Verif.Dens
