import Verif.Model.Config

/-!
# `ConfigurationSpace.sample_configuration` (configuration_space.py:545-637) and `estimate_size`

The random generator is a parameter: it gives, for the number of the batch and the number of columns, the
matrix with one row per hyperparameter (configuration_space.py:600-609).
-/

set_option autoImplicit false

namespace Verif

/-- A row of `matrix[:, mask]`. -/
def keepRow (mask : List Bool) (row : List NV) : List NV :=
  ((row.zip mask).filter (fun p => p.2)).map (fun p => p.1)

/-- `matrix[:, mask]`: selection of columns by a boolean mask. -/
def Mat.keepCols (m : Mat) (mask : List Bool) : Mat := m.map (keepRow mask)

/-- The columns of a matrix with `w` columns: `matrix.T`. -/
def Mat.cols (w : Nat) (m : Mat) : List Vec := (List.range w).map (fun j => m.map (fun row => row.getD j none))

/-- `mask = zeros; for clause in clauses: mask |= clause.is_forbidden_vector_array(matrix)`
(configuration_space.py:614-616, 626-628). -/
def forbMask (s : Space) (w : Nat) (m : Mat) (fs : List Forb) : List Bool :=
  fs.foldl (fun acc f => List.zipWith (· || ·) acc (f.onArr s.idx w m)) (List.replicate w false)

/-- `valid_configs[np.ix_(cnode.children_indices, ~satisfied)] = np.nan` (configuration_space.py:623). -/
def maskKids (s : Space) (m : Mat) (c : CNode) (sat : List Bool) : Mat :=
  m.mapIdx (fun i row => if i ∈ c.kids.map s.idx then List.zipWith (fun e b => if b then e else none) row sat
    else row)

/-- Number of `True` entries of a mask. -/
def numTrue (mask : List Bool) : Nat := (mask.filter (fun b => b)).length

/-- What one batch of random values contributes: forbidden columns dropped, inactive values removed
(configuration_space.py:611-634). -/
def Space.sampleBatch (s : Space) (w : Nat) (m : Mat) : List Vec :=
  let keep1 := (forbMask s w m s.dag.uncond).map not
  let m1 := m.keepCols keep1
  let w1 := numTrue keep1
  let m2 := s.minConds.foldl (fun m c => maskKids s m c (c.cond.satArr s.idx w1 m)) m1
  let keep2 := (forbMask s w1 m2 s.dag.condF).map not
  Mat.cols (numTrue keep2) (m2.keepCols keep2)

/-- `MULT` (configuration_space.py:586-588).  Simplification: exact rationals for floats. -/
def Space.mult (s : Space) : Rat := ((s.forbs.length + s.condNames.length : Nat) : Rat) / (s.len : Rat)

/-- `max(int(MULT**2 * sample_size), 5)` (configuration_space.py:591). -/
def Space.batchWidth (s : Space) (need : Nat) : Nat := max (s.mult * s.mult * (need : Rat)).floor.toNat 5

/-- The `while` loop (configuration_space.py:589-635); `none` if it does not end within `fuel` batches. -/
def Space.sampleLoop (s : Space) (rng : Nat → Nat → Mat) (size : Nat) : Nat → Nat → Nat → List Vec → Option (List Vec)
  | 0, _, _, acc => if size ≤ acc.length then some acc else none
  | fuel + 1, b, need, acc =>
    if size ≤ acc.length then some acc
    else
      let w := s.batchWidth need
      let acc' := acc ++ s.sampleBatch w (rng b w)
      s.sampleLoop rng size fuel (b + 1) (size - acc'.length) acc'

/-- A single configuration or a list of configurations. -/
inductive Sampled where
  | one (c : Config)
  | many (cs : List Config)
deriving Repr

/-- The configurations that were returned. -/
def Sampled.all : Sampled → List Config
  | .one c => [c]
  | .many cs => cs

/-- `sample_configuration` (configuration_space.py:545-637); `size` is an `int` or `None`.  `Configuration(self,
vector=vec)` succeeds because the columns have one entry per hyperparameter. -/
def Space.sampleConfiguration (s : Space) (rng : Nat → Nat → Mat) (fuel : Nat) (size : Option Int) : Option Sampled :=
  if s.len = 0 then
    match size with
    | none => some (.one { vec := [] })
    | some n => some (.many (List.replicate n.toNat { vec := [] }))
  else
    let n := size.getD 1
    if n < 1 then some (.many [])
    else match s.sampleLoop rng n.toNat fuel 0 n.toNat [] with
      | none => none
      | some acc =>
        if n ≤ 1 then acc.head?.map (fun v => .one { vec := v })
        else some (.many ((acc.take n.toNat).map (fun v => { vec := v })))

end Verif
