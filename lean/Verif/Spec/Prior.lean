import Verif.Model.Prior
import Mathlib.Analysis.SpecialFunctions.Pow.Real

/-!
# Settings of numerical hyperparameters

What a user asks for with `Integer(name, bounds, distribution=..., default=..., log=...)` and `Float(...)`, and what the object
they get must look like.
-/

set_option autoImplicit false

namespace Verif.Spec

/-- The number at the fraction `x` of the way from `l` to `u`, on a linear or a logarithmic scale. -/
noncomputable def fractionOf (l u : ℝ) (log : Bool) (x : ℝ) : ℝ := if log then l * (u / l) ^ x else l + x * (u - l)

/-- `x` is the mode of the beta distribution with parameters `a, b ≥ 1` (the middle, if it is uniform). -/
def Mode (a b x : ℝ) : Prop := if a = 1 ∧ b = 1 then x = 1 / 2 else x * (a + b - 2) = a - 1

/-- The distribution makes sense on this scale. -/
def SaneDist (log : Bool) : ApiDist → Prop
  | .none => True
  | .uniform => True
  | .normal mu _ => log = true → 0 < mu
  | .beta a b => 1 ≤ a ∧ 1 ≤ b
  | .other => False

/-- The integer that is made of a given default that is close to an integer: uniform integers cut it off, normal and beta
distributed ones take the nearest integer.  (The same for a default that is an integer.) -/
def integerOf (dist : ApiDist) (d : Rat) : Int :=
  match dist with
  | .none | .uniform => trunc d
  | _ => rint d

/-- Settings for an integer hyperparameter on `l..u`. -/
structure SaneInt (l u : Int) (dist : ApiDist) (default : Option Rat) (log : Bool) : Prop where
  order : l < u
  positive : log = true → 0 < l
  sane : SaneDist log dist
  given : ∀ d, default = some d → closeToInt d = true ∧ l ≤ integerOf dist d ∧ integerOf dist d ≤ u

/-- Settings for a float hyperparameter on `[l, u]` (after rounding to 13 places). -/
structure SaneFlt (l u : Rat) (dist : ApiDist) (default : Option Rat) (log : Bool) : Prop where
  order : l < u
  positive : log = true → 0 < l
  sane : SaneDist log dist
  given : ∀ d, default = some d → l ≤ roundPlaces d ∧ roundPlaces d ≤ u

/-- The distribution an object has is the one asked for. -/
def SamePrior (exact : Bool) : ApiDist → Prior → Prop
  | .none, .uniform => True
  | .uniform, .uniform => True
  | .normal mu sigma, .normal m s =>
    if exact then m = mu ∧ s = sigma else m = roundPlaces mu ∧ s = roundPlaces sigma
  | .beta a b, .beta a' b' => if exact then a' = a ∧ b' = b else a' = roundPlaces a ∧ b' = roundPlaces b
  | _, _ => False

/-- `d` is an integer nearest to the real number `y`. -/
def NearestInt (y : ℝ) (d : Int) : Prop := ∀ m : Int, |y - d| ≤ |y - m|

/-- The default of an integer hyperparameter on `l..u` when none is given: the middle, a legal value closest to the mean, or the
mode. -/
def DefaultInt (l u : Int) (log : Bool) : Prior → Int → Prop
  | .uniform, d => NearestInt (fractionOf l u log (1 / 2)) d
  | .normal mu _, d => ∀ m : Int, l ≤ m → m ≤ u → |mu - d| ≤ |mu - m|
  | .beta a b, d => ∀ x : ℝ, Mode a b x → NearestInt (fractionOf l u log x) d

/-- The default of a float hyperparameter on `[l, u]` when none is given. -/
def DefaultFlt (l u : Rat) (log : Bool) : Prior → Rat → Prop
  | .uniform, d => |fractionOf l u log (1 / 2) - d| ≤ 1 / (2 * 10 ^ 13)
  | .normal mu _, d => ∀ v : Rat, l ≤ v → v ≤ u → |mu - d| ≤ |mu - v|
  | .beta a b, d => ∀ x : ℝ, Mode a b x → |fractionOf l u log x - d| ≤ 1 / (2 * 10 ^ 13)

/-- The integer hyperparameter a user gets. -/
structure BuiltInt (name : Name) (l u : Int) (dist : ApiDist) (default : Option Rat) (log : Bool) (r : NumHP) : Prop where
  wf : r.hp.wf = true
  name : r.hp.name = name
  kind : r.hp.kind = .int l u
  scale : r.log = log
  prior : SamePrior true dist r.prior
  value : ∃ d, r.hp.default = .int d ∧ l ≤ d ∧ d ≤ u ∧ (∀ q, default = some q → d = integerOf dist q) ∧
    (default = none → DefaultInt l u log r.prior d)

/-- The float hyperparameter a user gets. -/
structure BuiltFlt (name : Name) (l u : Rat) (dist : ApiDist) (default : Option Rat) (log : Bool) (r : NumHP) : Prop where
  wf : r.hp.wf = true
  name : r.hp.name = name
  kind : r.hp.kind = .flt l u
  scale : r.log = log
  prior : SamePrior false dist r.prior
  value : ∃ d, r.hp.default = .flt d ∧ l ≤ d ∧ d ≤ u ∧ (∀ q, default = some q → d = roundPlaces q) ∧
    (default = none → DefaultFlt l u log r.prior d)

/-- The objects that the constructors make. -/
def Made (r : NumHP) : Prop :=
  (∃ name bounds dist default log, apiInteger name bounds dist default log = .ok r) ∨
    ∃ name bounds dist default log, apiFloat name bounds dist default log = .ok r

end Verif.Spec
