import Verif.Model.Density

/-!
# Distribution objects that remember their constants

A `DiscretizedContinuousScipyDistribution` computes the largest density and the constant of normalisation when one of them is
first asked for and keeps both (hyperparameters/distributions.py:378-389, 437-455).  So a normally or beta distributed integer is
an object with a state.  Model/Density.lean describes the numbers; this file describes the calls.
-/

set_option autoImplicit false

namespace Verif.Dens

open Verif.Num

noncomputable section

/-- A frozen scipy distribution, by the parameters that `_compare_rv` compares (hyperparameters/distributions.py:54-66):
`truncnorm` (in the unit interval), `beta`, `uniform`. -/
inductive RV where
  | normal (mu sigma : ℝ)
  | beta (a b : ℝ)
  | uniform

/-- `rv.pdf` -/
def RV.pdf : RV → ℝ → ℝ
  | .normal mu sigma => normed (normalKernel mu sigma)
  | .beta a b => normed (betaKernel a b)
  | .uniform => normed (fun _ => 1)

/-- `DiscretizedContinuousScipyDistribution` (hyperparameters/distributions.py:343-394) on the unit interval; `none` is
`None`: not computed yet.  The fields for the logarithmic scale, which never change, are left out. -/
structure Disc where
  rv : RV
  steps : Nat
  maxDensity? : Option ℝ := none
  pdfNorm? : Option ℝ := none

/-- `_max_density_and_normalization_constant` (hyperparameters/distributions.py:456-466), for at most `ARANGE_CHUNKSIZE`
values on the linear scale. -/
def Disc.constants (d : Disc) : ℝ × ℝ :=
  (((pdfPoints d.steps).map d.rv.pdf).foldl max 0, ((pdfPoints d.steps).map d.rv.pdf).sum)

/-- `max_density` (hyperparameters/distributions.py:437-445): the object afterwards and the result. -/
def Disc.maxDensity (d : Disc) : Disc × ℝ :=
  match d.maxDensity? with
  | some m => (d, m)
  | none => ({ d with maxDensity? := some d.constants.1, pdfNorm? := some d.constants.2 }, d.constants.1)

/-- `_pdf_normalization_constant` (hyperparameters/distributions.py:447-455). -/
def Disc.pdfNorm (d : Disc) : Disc × ℝ :=
  match d.pdfNorm? with
  | some s => (d, s)
  | none => ({ d with maxDensity? := some d.constants.1, pdfNorm? := some d.constants.2 }, d.constants.2)

/-- `pdf_vector` of the distribution (hyperparameters/distributions.py:543-561), then the mask of
`Hyperparameter.pdf_vector` (hyperparameters/hyperparameter.py:492-505). -/
def Disc.pdfVector (legal : ℝ → Prop) (d : Disc) (xs : List ℝ) : Disc × List ℝ :=
  haveI := Classical.propDecidable
  (d.pdfNorm.1, xs.map (fun x =>
    (if 0 ≤ x ∧ x ≤ 1 then d.rv.pdf x / d.pdfNorm.2 else 0) * if legal x then 1 else 0))

/-- What can be asked: `get_max_density()` and `pdf_vector(xs)` (`pdf_values` is `pdf_vector` of the vectors,
hyperparameters/hyperparameter.py:507-526). -/
inductive Query where
  | maxDensity
  | pdf (xs : List ℝ)

/-- One call: the object afterwards and the answer. -/
def Disc.ask (legal : ℝ → Prop) (d : Disc) : Query → Disc × List ℝ
  | .maxDensity => (d.maxDensity.1, [d.maxDensity.2])
  | .pdf xs => d.pdfVector legal xs

/-- The object after a history of calls. -/
def Disc.after (legal : ℝ → Prop) (d : Disc) (qs : List Query) : Disc := qs.foldl (fun e q => (e.ask legal q).1) d

/-- `__eq__` (hyperparameters/distributions.py:424-435): all fields, the constants among them. -/
def Disc.eq (d e : Disc) : Prop :=
  d.rv = e.rv ∧ d.steps = e.steps ∧ d.maxDensity? = e.maxDensity? ∧ d.pdfNorm? = e.pdfNorm?

/-- A normally or beta distributed integer, as far as its densities and its equality are concerned: `__eq__` of hyperparameters
compares name, bounds, parameters, default, … and the distribution object (hyperparameters/hyperparameter.py:30-72,
normal_integer.py:22-71, beta_integer.py:23-92).  `fields` stands for all fields but the distribution object. -/
structure DiscHP (F : Type) where
  fields : F
  dist : Disc

/-- `==` of two hyperparameters of one class. -/
def DiscHP.eq {F : Type} (a b : DiscHP F) : Prop := a.fields = b.fields ∧ a.dist.eq b.dist

/-- A hyperparameter after a history of calls. -/
def DiscHP.after {F : Type} (legal : ℝ → Prop) (a : DiscHP F) (qs : List Query) : DiscHP F :=
  { a with dist := a.dist.after legal qs }

/-- The distribution object of a normally or beta distributed integer as its constructor leaves it
(hyperparameters/normal_integer.py:147-152, beta_integer.py:143-148). -/
def freshDisc (rv : RV) (steps : Nat) : Disc := { rv := rv, steps := steps }

/-- The distribution object of a uniform integer on the logarithmic scale: the constants are given
(hyperparameters/uniform_integer.py:119-129). -/
def givenDisc (steps : Nat) : Disc :=
  { rv := .uniform, steps := steps, maxDensity? := some (1 / steps), pdfNorm? := some steps }

end

end Verif.Dens
