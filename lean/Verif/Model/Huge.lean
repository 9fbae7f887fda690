import Verif.Model.Density

/-!
# Densities of integers with any number of values

The normalisation of normal and beta distributed integers also for more than `ARANGE_CHUNKSIZE` values, where only the middle
part of the distribution is summed (hyperparameters/distributions.py:456-495).  Linear scale, exact real numbers.
-/

set_option autoImplicit false

namespace Verif.Huge

open Verif.Num Verif.Dens

noncomputable section

/-- `ARANGE_CHUNKSIZE` (hyperparameters/distributions.py:33). -/
def chunkSize : Nat := 10000000

/-- `CONFIDENCE_FOR_NORMALIZATION_OF_DISCRETE` (hyperparameters/distributions.py:35). -/
def confidence : ℝ := 999999 / 1000000

/-- `linspace_chunked(start, stop, num, chunk_size=chunk)` (functional.py:45-79, 82-120), where `num` need not be an integer:
`int(num)` points if they fit into one chunk, otherwise the points of `np.arange` up to `num`.  `none` is a failing
assertion. -/
def linspaceReal (start stop num : ℝ) (chunk : Nat) : Option (List (List ℝ)) :=
  haveI := Classical.propDecidable
  if 0 < num ∧ 0 < chunk ∧ start < stop then
    if num ≤ chunk then some [linspace start stop ⌊num⌋.toNat false]
    else
      let nItems : ℝ := ⌈num⌉
      let nChunks := ⌈nItems / chunk⌉.toNat
      some ((List.range nChunks).map fun c : Nat =>
        let chunkStart : ℝ := c * chunk
        let chunkStop : ℝ := min (chunkStart + chunk) num
        (List.range ⌈chunkStop - chunkStart⌉.toNat).map fun i : Nat => ((chunkStart + i) / num) * (stop - start) + start)
  else none

/-- The part of the unit interval that is summed: all of it for at most `chunk` steps, otherwise the middle part that has the
probability `confidence` (hyperparameters/distributions.py:472-480).  `ppf` is the inverse of the distribution function. -/
def middle (ppf : ℝ → ℝ) (steps chunk : Nat) : ℝ × ℝ :=
  if chunk < steps then (max (ppf ((1 - confidence) / 2)) 0, min (ppf ((1 + confidence) / 2)) 1) else (0, 1)

/-- `_meaningful_pdf_values` without log scale on the unit interval (hyperparameters/distributions.py:468-495). -/
def points (ppf : ℝ → ℝ) (steps chunk : Nat) : Option (List (List ℝ)) :=
  let (lower, upper) := middle ppf steps chunk
  let qlow := quantize lower 0 1 steps
  let qhigh := quantize upper 0 1 steps
  let stepsize := (upper - lower) / ((steps : ℝ) - 1)
  linspaceReal qlow qhigh ((qhigh - qlow) / stepsize + 1) chunk

/-- The sum by which the densities are divided (hyperparameters/distributions.py:456-466). -/
def norm (rv ppf : ℝ → ℝ) (steps chunk : Nat) : Option ℝ :=
  (points ppf steps chunk).map fun cs => (cs.map fun c => (c.map rv).sum).sum

/-- `pdf_vector` at an entry (hyperparameters/distributions.py:543-561); `none` is an exception. -/
def pdf (rv ppf : ℝ → ℝ) (steps chunk : Nat) (x : ℝ) : Option ℝ :=
  haveI := Classical.propDecidable
  (norm rv ppf steps chunk).map fun n => if 0 ≤ x ∧ x ≤ 1 then rv x / n else 0

end

end Verif.Huge
