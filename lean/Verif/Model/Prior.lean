import Verif.Model.Construct
import Verif.Model.Numeric

/-!
# Numerical hyperparameters with a distribution, and the functions of `ConfigSpace.api`

`hyperparameters/{uniform,normal,beta}_{integer,float}.py`, `hyperparameters/hyperparameter.py` (`to_uniform`),
`hyperparameters/hp_components.py` (`UnitScaler`), `api/types/{integer,float,categorical}.py`, `api/distributions.py`, on both
scales.  The scipy objects that are made at the end of the constructors are not modelled here; only their parameters are.  The
logarithmic scale uses exact real numbers.  Exceptions are values; meta data are not modelled.
-/

set_option autoImplicit false

namespace Verif

/-- The distribution of a numerical hyperparameter with the attributes that the object keeps (`mu`, `sigma`, `alpha`, `beta`). -/
inductive Prior where
  | uniform
  | normal (mu sigma : Rat)
  | beta (alpha beta : Rat)
deriving DecidableEq, Repr

/-- A numerical hyperparameter object: name, bounds and default as in `HP`, and its distribution and scale. -/
structure NumHP where
  hp : HP
  prior : Prior
  log : Bool
deriving DecidableEq

/-- The end of `Hyperparameter.__init__` (hyperparameters/hyperparameter.py:132-138). -/
def finishNum (r : NumHP) : Except Err NumHP := (finishHP r.hp).map (fun h => { r with hp := h })

/-- The bounds `UnitScaler.__post_init__` rejects (hyperparameters/hp_components.py:280-291). -/
def badBounds (l u : Rat) (log : Bool) : Bool := decide (u ≤ l) || (log && decide (l ≤ 0))

/-- `np.round(·, ROUND_PLACES)` of a real number. -/
noncomputable def roundReal (q : ℝ) : Rat := (Num.rintK (q * 10000000000000) : Rat) / 10000000000000

/-- `rint(scaler.to_value([x])[0])` for integers (hyperparameters/hp_components.py:300-311, 324-334). -/
noncomputable def intAt (l u : Int) (log : Bool) (x : Rat) : Int :=
  if log then Num.toValLogInt l u (x : ℝ) else rint (scaleQ x l u)

/-- `round(scaler.to_value([x])[0], ROUND_PLACES)` for floats (hyperparameters/hp_components.py:300-311, 324-334). -/
noncomputable def fltAt (l u : Rat) (log : Bool) (x : Rat) : Rat :=
  if log then roundReal (Num.toValLogFlt l u (x : ℝ)) else roundPlaces (clipQ (scaleQ x l u) l u)

/-- `UniformIntegerHyperparameter.__init__` (hyperparameters/uniform_integer.py:97-146). -/
noncomputable def mkUniformInt (name : Name) (lower upper : Rat) (default : Option Rat) (log : Bool) : Except Err NumHP :=
  let l := rint lower
  let u := rint upper
  if badIntDefault default then .error .typeError
  else if badBounds l u log then .error .valueError
  else
    let d := match default with
      | some d => trunc d
      | none => intAt l u log (1 / 2)
    finishNum { hp := { name := name, kind := .int l u, default := .int d }, prior := .uniform, log := log }

/-- `UniformFloatHyperparameter.__init__` (hyperparameters/uniform_float.py:93-122). -/
noncomputable def mkUniformFlt (name : Name) (lower upper : Rat) (default : Option Rat) (log : Bool) : Except Err NumHP :=
  let l := roundPlaces lower
  let u := roundPlaces upper
  if badBounds l u log then .error .valueError
  else
    let d := match default with
      | some d => roundPlaces d
      | none => fltAt l u log (1 / 2)
    finishNum { hp := { name := name, kind := .flt l u, default := .flt d }, prior := .uniform, log := log }

/-- `NormalIntegerHyperparameter.__init__` (hyperparameters/normal_integer.py:102-163). -/
def mkNormalInt (name : Name) (mu sigma lower upper : Rat) (default : Option Rat) (log : Bool) : Except Err NumHP :=
  if decide (mu ≤ 0) && log then .error .valueError
  else
    let l := rint lower
    let u := rint upper
    if badBounds l u log then .error .valueError
    else
      match (match default with
        | some d => mkRoundedDefault d
        | none => .ok (rint (clipQ mu l u))) with
      | .error e => .error e
      | .ok d =>
        finishNum { hp := { name := name, kind := .int l u, default := .int d }, prior := .normal mu sigma, log := log }

/-- `NormalFloatHyperparameter.__init__` (hyperparameters/normal_float.py:99-151); the mean and the standard deviation are
rounded. -/
def mkNormalFlt (name : Name) (mu sigma lower upper : Rat) (default : Option Rat) (log : Bool) : Except Err NumHP :=
  if decide (mu ≤ 0) && log then .error .valueError
  else
    let l := roundPlaces lower
    let u := roundPlaces upper
    let m := roundPlaces mu
    if badBounds l u log then .error .valueError
    else
      let d := match default with
        | some d => d
        | none => clipQ m l u
      finishNum { hp := { name := name, kind := .flt l u, default := .flt (roundPlaces d) },
                  prior := .normal m (roundPlaces sigma), log := log }

/-- The normalised mode of a beta distribution (hyperparameters/beta_float.py:122-126, beta_integer.py:124-128). -/
def betaMode (alpha beta : Rat) : Rat :=
  if 1 < alpha ∨ 1 < beta then (alpha - 1) / (alpha + beta - 2) else 1 / 2

/-- `BetaIntegerHyperparameter.__init__` (hyperparameters/beta_integer.py:107-160). -/
noncomputable def mkBetaInt (name : Name) (alpha beta lower upper : Rat) (default : Option Rat) (log : Bool) :
    Except Err NumHP :=
  if alpha < 1 ∨ beta < 1 then .error .valueError
  else
    let l := rint lower
    let u := rint upper
    if badBounds l u log then .error .valueError
    else
      match (match default with
        | some d => mkRoundedDefault d
        | none => .ok (intAt l u log (betaMode alpha beta))) with
      | .error e => .error e
      | .ok d =>
        finishNum { hp := { name := name, kind := .int l u, default := .int d }, prior := .beta alpha beta, log := log }

/-- `BetaFloatHyperparameter.__init__` (hyperparameters/beta_float.py:105-152); the parameters are rounded. -/
noncomputable def mkBetaFlt (name : Name) (alpha beta lower upper : Rat) (default : Option Rat) (log : Bool) :
    Except Err NumHP :=
  if alpha < 1 ∨ beta < 1 then .error .valueError
  else
    let a := roundPlaces alpha
    let b := roundPlaces beta
    let l := roundPlaces lower
    let u := roundPlaces upper
    if badBounds l u log then .error .valueError
    else
      let d := match default with
        | some d => roundPlaces d
        | none => fltAt l u log (betaMode a b)
      finishNum { hp := { name := name, kind := .flt l u, default := .flt d }, prior := .beta a b, log := log }

/-- `to_uniform` (hyperparameters/hyperparameter.py:741-756, 765-780); `none` stands for objects without this method (and for
defaults of another type, which no constructor makes). -/
noncomputable def toUniform (r : NumHP) : Option (Except Err NumHP) :=
  match r.hp.kind, r.hp.default with
  | .int l u, .int d => some (mkUniformInt r.hp.name l u (some d) r.log)
  | .flt l u, .flt d => some (mkUniformFlt r.hp.name l u (some d) r.log)
  | _, _ => none

/-- `to_float` of the three kinds of integers (hyperparameters/uniform_integer.py:148-163, normal_integer.py:165-177,
beta_integer.py:162-184). -/
noncomputable def toFloat (r : NumHP) : Option (Except Err NumHP) :=
  match r.hp.kind, r.hp.default with
  | .int l u, .int d => some <| match r.prior with
    | .uniform => mkUniformFlt r.hp.name l u (some d) r.log
    | .normal m s => mkNormalFlt r.hp.name m s l u (some d) r.log
    | .beta a b => mkBetaFlt r.hp.name a b l u (some d) r.log
  | _, _ => none

/-- `to_integer` of the three kinds of floats (hyperparameters/uniform_float.py:124-144, normal_float.py:153-174,
beta_float.py:154-183). -/
noncomputable def toInteger (r : NumHP) : Option (Except Err NumHP) :=
  match r.hp.kind, r.hp.default with
  | .flt l u, .flt d => some <| match r.prior with
    | .uniform => mkUniformInt r.hp.name (l.ceil : Rat) (u.floor : Rat) (some (rint d : Rat)) r.log
    | .normal m s => mkNormalInt r.hp.name m s (l.ceil : Rat) (u.floor : Rat) (some (rint d : Rat)) r.log
    | .beta a b => mkBetaInt r.hp.name a b (l.ceil : Rat) (u.floor : Rat) (some (rint d : Rat)) r.log
  | _, _ => none

/-! ## `ConfigSpace.api` -/

/-- The `distribution` argument of `Integer` and `Float`: `None`, one of the classes of api/distributions.py, or something
else. -/
inductive ApiDist where
  | none
  | uniform
  | normal (mu sigma : Rat)
  | beta (alpha beta : Rat)
  | other
deriving DecidableEq

/-- `Integer` (api/types/integer.py:115-157); unpacking `None` raises `TypeError`. -/
noncomputable def apiInteger (name : Name) (bounds : Option (Rat × Rat)) (dist : ApiDist) (default : Option Rat) (log : Bool) :
    Except Err NumHP :=
  let dist := if dist = .none then .uniform else dist
  match bounds with
  | none => if dist = .uniform then .error .valueError else .error .typeError
  | some (lower, upper) => match dist with
    | .uniform => mkUniformInt name lower upper default log
    | .normal mu sigma => mkNormalInt name mu sigma lower upper default log
    | .beta alpha beta => mkBetaInt name alpha beta lower upper default log
    | _ => .error .valueError

/-- `Float` (api/types/float.py:111-150). -/
noncomputable def apiFloat (name : Name) (bounds : Rat × Rat) (dist : ApiDist) (default : Option Rat) (log : Bool) :
    Except Err NumHP :=
  let dist := if dist = .none then .uniform else dist
  match dist with
  | .uniform => mkUniformFlt name bounds.1 bounds.2 default log
  | .normal mu sigma => mkNormalFlt name mu sigma bounds.1 bounds.2 default log
  | .beta alpha beta => mkBetaFlt name alpha beta bounds.1 bounds.2 default log
  | _ => .error .valueError

/-- `Categorical` (api/types/categorical.py:114-131). -/
def apiCategorical (name : Name) (items : List Val) (default : Option Val) (weights : Option (List Rat)) (ordered : Bool) :
    Except Err HP :=
  if ordered && weights.isSome then .error .valueError
  else if ordered then mkOrd name items default
  else mkCat name items default weights

/-! ## Parameters of the truncated normal distribution -/

/-- `scaler.to_vector([mu])[0]` (hyperparameters/hp_components.py:337-344; normal_integer.py:137, normal_float.py:123). -/
noncomputable def vecMu (l u : ℝ) (log : Bool) (mu : ℝ) : ℝ := if log then Num.toVecLog l u mu else Num.normalize mu l u

/-- `UnitScaler.vectorize_size` (hyperparameters/hp_components.py:346-358), used for the standard deviation
(normal_integer.py:138, normal_float.py:124). -/
noncomputable def vecSigma (l u : ℝ) (log : Bool) (size : ℝ) : ℝ :=
  if log then |Real.log (l + size) / (Real.log u - Real.log l)| else size / (u - l)

end Verif
