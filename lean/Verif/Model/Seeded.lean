import Verif.Model.Sample

/-!
# The random generator of a space, and programs that use a space

`ConfigurationSpace` owns a `RandomState`, which `seed` replaces and which `sample_configuration` advances.  Here the
generator is a state that is passed through the draws one after the other, and a program is a list of calls on one space.

Also here: the one place in which the order of a Python `set` enters a stored structure.
-/

set_option autoImplicit false

namespace Verif

/-- `np.random.RandomState` together with the distributions of the hyperparameters: `seeded n` is the state of
`RandomState(n)`, and `draw h w st` gives what `h._vector_dist.sample_vector(n=w, seed=st)` returns, and the state it leaves
(configuration_space.py:199, 602-606, 645).  Nothing else is assumed about it. -/
structure Rng (σ : Type) where
  seeded : Int → σ
  draw : HP → Nat → σ → List Rat × σ

/-- `for i, hp in enumerate(self.values()): config_matrix[i] = hp._vector_dist.sample_vector(n=sample_size, seed=self.random)`
(configuration_space.py:601-606): one row after the other, from one generator. -/
def Rng.rows {σ : Type} (g : Rng σ) : List HP → Nat → σ → Mat × σ
  | [], _, st => ([], st)
  | h :: hs, w, st =>
    let r := g.draw h w st
    let m := g.rows hs w r.2
    (r.1.map some :: m.1, m.2)

/-- The `while` loop of `sample_configuration` (configuration_space.py:589-633) with the generator; `none` if it does not end within `fuel`
batches. -/
def Space.drawLoop {σ : Type} (s : Space) (g : Rng σ) (size : Nat) : Nat → σ → Nat → List Vec → Option (List Vec × σ)
  | 0, st, _, acc => if size ≤ acc.length then some (acc, st) else none
  | fuel + 1, st, need, acc =>
    if size ≤ acc.length then some (acc, st)
    else
      let w := s.batchWidth need
      let r := g.rows (s.com.map Node.hp) w st
      let acc' := acc ++ s.sampleBatch w r.1
      s.drawLoop g size fuel r.2 (size - acc'.length) acc'

/-- `sample_configuration` (configuration_space.py:545-638) with the generator: what is returned, and the state afterwards.  Without
hyperparameters, and for sizes below 1, nothing is drawnRows. -/
def Space.draw {σ : Type} (s : Space) (g : Rng σ) (fuel : Nat) (st : σ) (size : Option Int) : Option (Sampled × σ) :=
  if s.len = 0 then
    match size with
    | none => some (.one { vec := [] }, st)
    | some n => some (.many (List.replicate n.toNat { vec := [] }), st)
  else
    let n := size.getD 1
    if n < 1 then some (.many [], st)
    else match s.drawLoop g n.toNat fuel st n.toNat [] with
      | none => none
      | some (acc, st') =>
        if n ≤ 1 then acc.head?.map (fun v => (.one { vec := v }, st'))
        else some (.many ((acc.take n.toNat).map (fun v => { vec := v })), st')

/-- A space with its generator. -/
structure RSpace (σ : Type) where
  space : Space := {}
  random : σ

/-- Calls on a space: `add` (configuration_space.py:288-350), `seed` (639-645), `sample_configuration` (545-638), `check_configuration`
(util.py:570-614), `Configuration(space, values=...)`, assignment to an item of a configuration of the space, and
`get_default_configuration`. -/
inductive Cmd where
  | add (k : Call)
  | seed (n : Int)
  | sample (size : Option Int)
  | check (v : Vec) (allow : Bool)
  | config (d : Dict) (allow : Bool)
  | assign (c : Config) (n : Name) (w : Val)
  | default

/-- Answers of these calls. -/
inductive Ans where
  | added (e : Option Err)
  | done
  | sampled (r : Sampled)
  | checked (e : Option Err)
  | config (r : Except Err Config)
  | assigned (r : Config × Option Err)

/-- One call.  Only `seed` and `sample_configuration` touch the generator (`self.random` occurs in configuration_space.py:199, 604 and
645 only). -/
def RSpace.step {σ : Type} (g : Rng σ) (fuel : Nat) (x : RSpace σ) : Cmd → Option (RSpace σ × Ans)
  | .add k =>
    let r := x.space.add k.hps k.conds k.forbs
    some (⟨r.1, x.random⟩, .added r.2)
  | .seed n => some (⟨x.space, g.seeded n⟩, .done)
  | .sample size => match x.space.draw g fuel x.random size with
    | none => none
    | some (r, st) => some (⟨x.space, st⟩, .sampled r)
  | .check v allow => some (x, .checked (x.space.check v allow))
  | .config d allow => some (x, .config (Config.ofValues x.space d allow))
  | .assign c n w => some (x, .assigned (c.setItem x.space n w))
  | .default => some (x, .config x.space.defaultConfig)

/-- A program: one call after the other; `none` if one of them does not return. -/
def RSpace.run {σ : Type} (g : Rng σ) (fuel : Nat) : List Cmd → RSpace σ → Option (RSpace σ × List Ans)
  | [], x => some (x, [])
  | c :: cs, x => match x.step g fuel c with
    | none => none
    | some (y, a) => match RSpace.run g fuel cs y with
      | none => none
      | some (z, as) => some (z, a :: as)

/-! ## The order of sets -/

/-- One step of the loop that fills `forbidden_lookup` (_condition_tree.py:553-557). -/
def noteClause (m : List (Name × List Forb)) (f : Forb) (n : Name) : List (Name × List Forb) :=
  match m.lookup n with
  | none => m ++ [(n, [f])]
  | some fs => dictSet m n (fs ++ [f])

/-- The loops that fill `forbidden_lookup` (_condition_tree.py:537-559).  `order f` is `_parents(f)`: for a conjunction
`list(set(...))`, whose order changes from one run of Python to the next. -/
def noteClauses (order : Forb → List Name) (fast : List Forb) : List (Name × List Forb) :=
  fast.foldl (fun m f => (order f).foldl (fun m n => noteClause m f n) m) []

end Verif
