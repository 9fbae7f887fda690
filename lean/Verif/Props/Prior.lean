import Verif.Lemmas.Prior

/-!
# Numerical hyperparameters with distributions, and the functions of `ConfigSpace.api`: C77 and C80
-/

set_option autoImplicit false

namespace Verif
open Verif.Spec

/-- **C77**, integers: `Integer(...)` succeeds exactly when bounds are given and the settings are sane: the rounded bounds are in
order, positive on a logarithmic scale, the distribution is known and makes sense on the scale, and a given default is an integer
within the bounds. -/
theorem C77_integer_accepted_iff {n : Name} {bounds : Option (Rat × Rat)} {dist : ApiDist} {default : Option Rat} {log : Bool} :
    (∃ r, apiInteger n bounds dist default log = .ok r) ↔
      ∃ lo up, bounds = some (lo, up) ∧ SaneInt (rint lo) (rint up) dist default log := by
  cases bounds with
  | none =>
    constructor
    · rintro ⟨r, h⟩
      unfold apiInteger at h
      simp only at h
      split at h <;> split at h <;> cases h
    · rintro ⟨_, _, h, _⟩; cases h
  | some b =>
    obtain ⟨lo, up⟩ := b
    constructor
    · rintro ⟨r, h⟩; exact ⟨lo, up, rfl, (apiInteger_ok.1 h).1⟩
    · rintro ⟨_, _, h, hs⟩; cases h; exact ⟨_, apiInteger_ok.2 ⟨hs, rfl⟩⟩

theorem samePrior_priorOf {exact : Bool} {log : Bool} {dist : ApiDist} (h : SaneDist log dist) :
    SamePrior exact dist (priorOf exact dist) := by
  cases dist with
  | none => exact trivial
  | uniform => exact trivial
  | normal mu s => cases exact <;> exact ⟨rfl, rfl⟩
  | beta a b => cases exact <;> exact ⟨rfl, rfl⟩
  | other => exact absurd h id

/-- **C77**, integers: what `Integer(...)` makes has the rounded bounds, the given scale and distribution, and the given default;
without one the default is the middle of the range, a legal value closest to the mean, or the mode of the beta distribution. -/
theorem C77_integer_built {n : Name} {lo up : Rat} {dist : ApiDist} {default : Option Rat} {log : Bool} {r : NumHP}
    (h : apiInteger n (some (lo, up)) dist default log = .ok r) :
    BuiltInt n (rint lo) (rint up) dist default log r ∧ |lo - rint lo| ≤ 1 / 2 ∧ |up - rint up| ≤ 1 / 2 := by
  obtain ⟨hs, rfl⟩ := apiInteger_ok.1 h
  have hm := intDefault_mem hs
  refine ⟨⟨wf_int hs.order hm.1 hm.2, rfl, rfl, rfl, samePrior_priorOf hs.sane, _, rfl, hm.1, hm.2, ?_, ?_⟩, ?_, ?_⟩
  · rintro q rfl; rfl
  · rintro rfl
    cases dist with
    | normal mu s => exact fun m h1 h2 => rint_clipQ_nearest h1 h2
    | beta a b =>
      intro x hx
      rw [betaMode_mode hs.sane.1 hs.sane.2 hx]
      exact intAt_nearest hs.order hs.positive
    | none =>
      have := intAt_nearest (x := 1 / 2) hs.order hs.positive
      push_cast at this
      exact this
    | uniform =>
      have := intAt_nearest (x := 1 / 2) hs.order hs.positive
      push_cast at this
      exact this
    | other => exact absurd hs.sane id
  · rw [rint_eq_rintK]; exact Num.rintK_dist lo
  · rw [rint_eq_rintK]; exact Num.rintK_dist up

/-- **C77**, floats: `Float(...)` succeeds exactly on sane settings. -/
theorem C77_float_accepted_iff {n : Name} {lo up : Rat} {dist : ApiDist} {default : Option Rat} {log : Bool} :
    (∃ r, apiFloat n (lo, up) dist default log = .ok r) ↔ SaneFlt (roundPlaces lo) (roundPlaces up) dist default log := by
  constructor
  · rintro ⟨r, h⟩; exact (apiFloat_ok.1 h).1
  · intro hs; exact ⟨_, apiFloat_ok.2 ⟨hs, rfl⟩⟩

/-- **C77**, floats: what `Float(...)` makes has the bounds rounded to 13 places, the given scale, the given distribution with its
parameters rounded in the same way, and the given default; without one the middle, a legal value closest to the mean, or the mode
of the beta distribution. -/
theorem C77_float_built {n : Name} {lo up : Rat} {dist : ApiDist} {default : Option Rat} {log : Bool} {r : NumHP}
    (h : apiFloat n (lo, up) dist default log = .ok r) :
    BuiltFlt n (roundPlaces lo) (roundPlaces up) dist default log r ∧
      |lo - roundPlaces lo| ≤ 1 / (2 * 10 ^ 13) ∧ |up - roundPlaces up| ≤ 1 / (2 * 10 ^ 13) := by
  obtain ⟨hs, rfl⟩ := apiFloat_ok.1 h
  have hm := fltDefault_mem hs
  refine ⟨⟨wf_flt hs.order (roundPlaces_idem _) (roundPlaces_idem _) fltDefault_fix hm.1 hm.2, rfl, rfl, rfl,
    samePrior_priorOf hs.sane, _, rfl, hm.1, hm.2, ?_, ?_⟩, roundPlaces_near' lo, roundPlaces_near' up⟩
  · rintro q rfl; rfl
  · rintro rfl
    cases dist with
    | normal mu s =>
      intro v h1 h2
      have e : roundPlaces (clipQ (roundPlaces mu) (roundPlaces lo) (roundPlaces up)) =
          clipQ (roundPlaces mu) (roundPlaces lo) (roundPlaces up) := by
        unfold clipQ
        split_ifs <;> exact roundPlaces_idem _
      simp only [fltDefault, e]
      exact clipQ_nearest h1 h2
    | beta a b =>
      intro x hx
      have ha := one_le_roundPlaces hs.sane.1
      have hb := one_le_roundPlaces hs.sane.2
      rw [betaMode_mode ha hb hx]
      exact fltAt_near hs.order hs.positive (betaMode_mem ha hb).1 (betaMode_mem ha hb).2
    | none =>
      have := fltAt_near (x := 1 / 2) hs.order hs.positive (by norm_num) (by norm_num)
      push_cast at this
      exact this
    | uniform =>
      have := fltAt_near (x := 1 / 2) hs.order hs.positive (by norm_num) (by norm_num)
      push_cast at this
      exact this
    | other => exact absurd hs.sane id

/-- **C77**: a given default that is an integer within the bounds is the default of the object, whatever the distribution. -/
theorem C77_given_default_kept {n : Name} {lo up : Rat} {dist : ApiDist} {d : Int} {log : Bool} {r : NumHP}
    (h : apiInteger n (some (lo, up)) dist (some (d : Rat)) log = .ok r) : r.hp.default = .int d := by
  obtain ⟨_, rfl⟩ := apiInteger_ok.1 h
  have : integerOf dist (d : Rat) = d := by
    have ht : trunc (d : Rat) = d := by
      unfold trunc
      split
      · exact Rat.floor_intCast d
      · exact Rat.ceil_intCast d
    cases dist <;> first | exact ht | exact rint_int d
  simp only [intDefault, this]

/-- **C77**: the exceptions.  `Integer(...)` and `Float(...)` raise `ValueError` or `TypeError`; the latter only if there are no
bounds or the default of an integer hyperparameter is not close to an integer. -/
theorem C77_errors {n : Name} {bounds : Option (Rat × Rat)} {lo up : Rat} {dist : ApiDist} {default : Option Rat} {log : Bool}
    {e : Err} :
    (apiInteger n bounds dist default log = .error e →
      e = .valueError ∨ e = .typeError ∧ (bounds = none ∨ ∃ d, default = some d ∧ closeToInt d = false)) ∧
    (apiFloat n (lo, up) dist default log = .error e → e = .valueError) := by
  have hfin : ∀ {x : NumHP}, finishNum x = .error e → e = .valueError := by
    intro x hx
    unfold finishNum finishHP at hx
    split at hx
    · cases hx
    · cases hx; rfl
  constructor
  · intro h
    unfold apiInteger at h
    simp only at h
    generalize (if dist = .none then ApiDist.uniform else dist) = D at h
    split at h
    · split at h
      · cases h; exact .inl rfl
      · cases h; exact .inr ⟨rfl, .inl rfl⟩
    · split at h
      · unfold mkUniformInt at h
        simp only at h
        split at h
        · rename_i hb
          cases h
          cases default with
          | none => cases hb
          | some d => exact .inr ⟨rfl, .inr ⟨d, rfl, by simpa [badIntDefault] using hb⟩⟩
        · split at h
          · cases h; exact .inl rfl
          · exact .inl (hfin h)
      · unfold mkNormalInt at h
        simp only at h
        split at h
        · cases h; exact .inl rfl
        · split at h
          · cases h; exact .inl rfl
          · cases default with
            | none => exact .inl (hfin h)
            | some d =>
              unfold mkRoundedDefault at h
              by_cases hd : closeToInt d = true
              · simp only [if_pos hd] at h
                exact .inl (hfin h)
              · simp only [if_neg hd] at h
                cases h
                exact .inr ⟨rfl, .inr ⟨d, rfl, by simpa using hd⟩⟩
      · unfold mkBetaInt at h
        simp only at h
        split at h
        · cases h; exact .inl rfl
        · split at h
          · cases h; exact .inl rfl
          · cases default with
            | none => exact .inl (hfin h)
            | some d =>
              unfold mkRoundedDefault at h
              by_cases hd : closeToInt d = true
              · simp only [if_pos hd] at h
                exact .inl (hfin h)
              · simp only [if_neg hd] at h
                cases h
                exact .inr ⟨rfl, .inr ⟨d, rfl, by simpa using hd⟩⟩
      · cases h; exact .inl rfl
  · intro h
    unfold apiFloat at h
    simp only at h
    generalize (if dist = .none then ApiDist.uniform else dist) = D at h
    split at h
    · unfold mkUniformFlt at h
      simp only at h
      split at h
      · cases h; rfl
      · exact hfin h
    · unfold mkNormalFlt at h
      simp only at h
      split at h
      · cases h; rfl
      · split at h
        · cases h; rfl
        · exact hfin h
    · unfold mkBetaFlt at h
      simp only at h
      split at h
      · cases h; rfl
      · split at h
        · cases h; rfl
        · exact hfin h
    · cases h; rfl

/-! ## Conversions -/

/-- What the objects that the constructors make look like. -/
theorem made_cases {r : NumHP} (h : Made r) :
    (∃ (l u d : Int) (dist : ApiDist), r.hp.kind = .int l u ∧ r.hp.default = .int d ∧ l < u ∧ (r.log = true → 0 < l) ∧
      l ≤ d ∧ d ≤ u ∧ SaneDist r.log dist ∧ r.prior = priorOf true dist) ∨
    (∃ (l u d : Rat) (dist : ApiDist), r.hp.kind = .flt l u ∧ r.hp.default = .flt d ∧ l < u ∧ (r.log = true → 0 < l) ∧
      l ≤ d ∧ d ≤ u ∧ roundPlaces l = l ∧ roundPlaces u = u ∧ roundPlaces d = d ∧ SaneDist r.log dist ∧
      r.prior = priorOf false dist) := by
  rcases h with ⟨n, b, dist, default, log, h⟩ | ⟨n, b, dist, default, log, h⟩
  · obtain ⟨lo, up, rfl, _⟩ := C77_integer_accepted_iff.1 ⟨r, h⟩
    obtain ⟨hs, rfl⟩ := apiInteger_ok.1 h
    have hm := intDefault_mem hs
    exact .inl ⟨_, _, _, dist, rfl, rfl, hs.order, hs.positive, hm.1, hm.2, hs.sane, rfl⟩
  · obtain ⟨lo, up⟩ := b
    obtain ⟨hs, rfl⟩ := apiFloat_ok.1 h
    have hm := fltDefault_mem hs
    exact .inr ⟨_, _, _, dist, rfl, rfl, hs.order, hs.positive, hm.1, hm.2, roundPlaces_idem _, roundPlaces_idem _,
      fltDefault_fix, hs.sane, rfl⟩

theorem trunc_int (d : Int) : trunc (d : Rat) = d := by
  unfold trunc
  split
  · exact Rat.floor_intCast d
  · exact Rat.ceil_intCast d

/-- **C77**: `to_uniform` of every numerical hyperparameter succeeds and only changes the distribution. -/
theorem C77_to_uniform {r : NumHP} (h : Made r) : toUniform r = some (.ok { r with prior := .uniform }) := by
  rcases made_cases h with ⟨l, u, d, dist, hk, hd, hlu, hp, h1, h2, hs, hpr⟩ |
    ⟨l, u, d, dist, hk, hd, hlu, hp, h1, h2, rl, ru, rd, hs, hpr⟩
  · obtain ⟨⟨n, k, df⟩, pr, log⟩ := r
    simp only at hk hd hp hs hpr
    subst hk hd
    simp only [toUniform, Option.some.injEq]
    have : apiInteger n (some ((l : Rat), (u : Rat))) .uniform (some (d : Rat)) log =
        mkUniformInt n l u (some (d : Rat)) log := rfl
    rw [← this, apiInteger_ok]
    simp only [rint_int]
    refine ⟨⟨hlu, hp, trivial, ?_⟩, ?_⟩
    · rintro _ ⟨⟩
      simp only [closeToInt_int, integerOf, trunc_int]
      exact ⟨trivial, h1, h2⟩
    · simp only [intDefault, integerOf, trunc_int, priorOf]
  · obtain ⟨⟨n, k, df⟩, pr, log⟩ := r
    simp only at hk hd hp hs hpr
    subst hk hd
    simp only [toUniform, Option.some.injEq]
    have : apiFloat n (l, u) .uniform (some d) log = mkUniformFlt n l u (some d) log := rfl
    rw [← this, apiFloat_ok]
    simp only [rl, ru]
    refine ⟨⟨hlu, hp, trivial, ?_⟩, ?_⟩
    · rintro _ ⟨⟩
      rw [rd]
      exact ⟨h1, h2⟩
    · simp only [fltDefault, rd, priorOf]

theorem toFloat_eq {n : Name} {l u d : Int} {log : Bool} {dist : ApiDist} (hs : SaneDist log dist) :
    toFloat { hp := { name := n, kind := .int l u, default := .int d }, prior := priorOf true dist, log := log } =
      some (apiFloat n ((l : Rat), (u : Rat)) dist (some (d : Rat)) log) := by
  cases dist with
  | other => exact absurd hs id
  | none => rfl
  | uniform => rfl
  | normal _ _ => rfl
  | beta _ _ => rfl

/-- **C77**: `to_float` of every integer hyperparameter succeeds and keeps name, bounds, scale and default; the parameters of the
distribution are rounded to 13 places. -/
theorem C77_to_float {r : NumHP} (h : Made r) {l u d : Int} (hk : r.hp.kind = .int l u) (hd : r.hp.default = .int d) :
    ∃ r', toFloat r = some (.ok r') ∧ Made r' ∧ r'.hp.name = r.hp.name ∧ r'.hp.kind = .flt l u ∧
      r'.hp.default = .flt d ∧ r'.log = r.log ∧
      r'.prior = match r.prior with
        | .uniform => .uniform
        | .normal mu s => .normal (roundPlaces mu) (roundPlaces s)
        | .beta a b => .beta (roundPlaces a) (roundPlaces b) := by
  rcases made_cases h with ⟨l', u', d', dist, hk', hd', hlu, hp, h1, h2, hs, hpr⟩ | ⟨l', u', d', dist, hk', _⟩
  · rw [hk] at hk'; cases hk'
    rw [hd] at hd'; cases hd'
    obtain ⟨⟨n, k, df⟩, pr, log⟩ := r
    simp only at hk hd hp hs hpr
    subst hk hd hpr
    rw [toFloat_eq hs]
    have hlu' : (l : Rat) < u := by exact_mod_cast hlu
    have hp' : log = true → (0 : Rat) < l := fun hl => by exact_mod_cast hp hl
    have h1' : (l : Rat) ≤ d := by exact_mod_cast h1
    have h2' : (d : Rat) ≤ u := by exact_mod_cast h2
    have hok : apiFloat n ((l : Rat), (u : Rat)) dist (some (d : Rat)) log =
        .ok { hp := { name := n, kind := .flt l u, default := .flt d }, prior := priorOf false dist, log := log } := by
      rw [apiFloat_ok]
      simp only [roundPlaces_int, fltDefault, and_true]
      exact ⟨hlu', hp', hs, by rintro _ ⟨⟩; rw [roundPlaces_int]; exact ⟨h1', h2'⟩⟩
    refine ⟨_, by rw [hok], .inr ⟨_, _, _, _, _, hok⟩, rfl, rfl, rfl, rfl, ?_⟩
    cases dist <;> rfl
  · rw [hk] at hk'; cases hk'

/-- The distribution of a float, as an argument of `Integer(...)`. -/
def distOf : Prior → ApiDist
  | .uniform => .uniform
  | .normal mu s => .normal mu s
  | .beta a b => .beta a b

theorem toInteger_eq {n : Name} {l u d : Rat} {log : Bool} {p : Prior} :
    toInteger { hp := { name := n, kind := .flt l u, default := .flt d }, prior := p, log := log } =
      some (apiInteger n (some ((l.ceil : Rat), (u.floor : Rat))) (distOf p) (some (rint d : Rat)) log) := by
  cases p <;> rfl

/-- **C77**: `to_integer` of a float hyperparameter succeeds exactly if there are two integers between the bounds, the nearest
integer to the default is between the bounds, and (normal distributions on a logarithmic scale) the mean was not rounded to
zero. -/
theorem C77_to_integer_iff {r : NumHP} (h : Made r) {l u d : Rat} (hk : r.hp.kind = .flt l u) (hd : r.hp.default = .flt d) :
    (∃ r', toInteger r = some (.ok r')) ↔
      l.ceil < u.floor ∧ l.ceil ≤ rint d ∧ rint d ≤ u.floor ∧
        (∀ mu s, r.prior = .normal mu s → r.log = true → 0 < mu) := by
  rcases made_cases h with ⟨l', u', d', dist, hk', _⟩ | ⟨l', u', d', dist, hk', hd', hlu, hp, h1, h2, rl, ru, rd, hs, hpr⟩
  · rw [hk] at hk'; cases hk'
  · rw [hk] at hk'; cases hk'
    rw [hd] at hd'; cases hd'
    obtain ⟨⟨n, k, df⟩, pr, log⟩ := r
    simp only at hk hd hp hs hpr
    subst hk hd hpr
    rw [toInteger_eq]
    have hint : ∀ q : Rat, integerOf (distOf (priorOf false dist)) ((rint q : Int) : Rat) = rint q := by
      intro q
      cases dist <;> first | exact trunc_int _ | exact rint_int _
    constructor
    · rintro ⟨r', h⟩
      rw [Option.some.injEq, apiInteger_ok] at h
      obtain ⟨hs', _⟩ := h
      have ho := hs'.order
      have hg := (hs'.given _ rfl).2
      rw [hint] at hg
      simp only [rint_int] at ho hg
      refine ⟨ho, hg.1, hg.2, ?_⟩
      intro mu s e hl
      simp only at e hl
      have := hs'.sane
      rw [e] at this
      exact this hl
    · rintro ⟨a, b, c, e⟩
      refine ⟨_, congrArg some (apiInteger_ok.2 ⟨⟨?_, ?_, ?_, ?_⟩, rfl⟩)⟩
      · simpa only [rint_int] using a
      · intro hl
        simp only [rint_int]
        have h0 : (0 : Rat) < l := hp hl
        have h3 : l ≤ (l.ceil : Rat) := Rat.le_ceil
        have h4 : (0 : Rat) < (l.ceil : Rat) := h0.trans_le h3
        exact_mod_cast h4
      · cases dist with
        | none => trivial
        | uniform => trivial
        | normal mu s => exact fun hl => e _ _ rfl hl
        | beta x y => exact ⟨one_le_roundPlaces hs.1, one_le_roundPlaces hs.2⟩
        | other => exact absurd hs id
      · rintro _ ⟨⟩
        rw [hint]
        simp only [rint_int]
        exact ⟨closeToInt_int _, b, c⟩

/-- **C77**: an integer hyperparameter turned into a float and back has the same name, bounds, scale and default, and its
distribution with parameters rounded to 13 places; this always succeeds, except for normal distributions on a logarithmic scale
with a mean that is rounded to zero. -/
theorem C77_int_float_int {r : NumHP} (h : Made r) {l u d : Int} (hk : r.hp.kind = .int l u) (hd : r.hp.default = .int d)
    (hmu : ∀ mu s, r.prior = .normal mu s → r.log = true → 0 < roundPlaces mu) :
    ∃ r' r'', toFloat r = some (.ok r') ∧ toInteger r' = some (.ok r'') ∧ r''.hp = r.hp ∧ r''.log = r.log ∧
      r''.prior = r'.prior := by
  obtain ⟨r', h1, hm, hn, hk', hd', hl, hp⟩ := C77_to_float h hk hd
  rcases made_cases h with ⟨l', u', d', dist, hk2, hd2, hlu, hpos, b1, b2, hs, hpr⟩ | ⟨l', u', d', dist, hk2, _⟩
  · rw [hk] at hk2; cases hk2
    rw [hd] at hd2; cases hd2
    have c1 : (Rat.ceil (l : Rat)) = l := Rat.ceil_intCast l
    have c2 : (Rat.floor (u : Rat)) = u := Rat.floor_intCast u
    have hi := (C77_to_integer_iff hm hk' hd').2 (by
      rw [c1, c2, rint_int]
      refine ⟨hlu, b1, b2, ?_⟩
      intro mu s e hlog
      rw [hp] at e
      rw [hl] at hlog
      cases hpp : r.prior with
      | uniform => rw [hpp] at e; cases e
      | beta a b => rw [hpp] at e; cases e
      | normal m t =>
        rw [hpp] at e
        cases e
        exact hmu m t hpp hlog)
    obtain ⟨r'', h2⟩ := hi
    refine ⟨r', r'', h1, h2, ?_⟩
    obtain ⟨⟨n, k, df⟩, pr, log⟩ := r'
    simp only at hn hk' hd' hl hp
    subst hn hk' hd' hl
    rw [toInteger_eq, Option.some.injEq, apiInteger_ok] at h2
    obtain ⟨_, rfl⟩ := h2
    obtain ⟨⟨n, k, df⟩, pr2, log⟩ := r
    simp only at hk hd ⊢
    subst hk hd
    simp only [rint_int, c1, c2, intDefault]
    refine ⟨?_, trivial, ?_⟩
    · have : integerOf (distOf pr) (d : Rat) = d := by
        cases pr <;> first | exact trunc_int _ | exact rint_int _
      rw [this]
    · cases pr <;> rfl
  · rw [hk] at hk2; cases hk2

/-! ## Categorical -/

/-- **C77**: `Categorical(...)` succeeds exactly if the items are different and there is at least one, the default (if given) is one
of them, and weights (if given) are as many as the items, not negative, not all zero, and the items are not ordered; the result
has these items in this order, and the given default. -/
theorem C77_categorical {n : Name} {items : List Val} {default : Option Val} {weights : Option (List Rat)} {ordered : Bool} :
    (∀ h, apiCategorical n items default weights ordered = .ok h →
      h.wf = true ∧ h.name = n ∧ h.kind = (if ordered then .ord items else .cat items) ∧ h.default.pyIn items = true ∧
      (∀ v, default = some v → h.default = v)) ∧
    ((∃ h, apiCategorical n items default weights ordered = .ok h) ↔
      items ≠ [] ∧ distinctVals items = true ∧ (∀ v, default = some v → v.pyIn items = true) ∧
      (∀ ws, weights = some ws → ordered = false ∧ ws.length = items.length ∧ (∀ w ∈ ws, 0 ≤ w) ∧ ∃ w ∈ ws, w ≠ 0)) := by
  have hdef : ∀ h, mkCat n items default weights = .ok h → (∀ v, default = some v → v.pyIn items = true) ∧
      badWeights items weights = false := by
    intro h hb
    unfold mkCat at hb
    split at hb; · cases hb
    split at hb; · cases hb
    rename_i hw
    split at hb; · cases hb
    rename_i hd
    refine ⟨?_, by simpa using hw⟩
    rintro v rfl
    simpa [badDefault] using hd
  unfold apiCategorical
  cases ordered with
  | true =>
    simp only [Bool.true_and, if_true]
    cases weights with
    | some ws =>
      simp only [Option.isSome_some, if_true]
      refine ⟨by rintro h ⟨⟩, ⟨by rintro ⟨h, ⟨⟩⟩, ?_⟩⟩
      rintro ⟨_, _, _, h⟩
      cases (h ws rfl).1
    | none =>
      simp only [Option.isSome_none, Bool.false_eq_true, if_false]
      obtain ⟨k1, k2⟩ := C48_ordinal (n := n) (seq := items) (d := default)
      refine ⟨?_, ?_⟩
      · intro h hb
        obtain ⟨a, b, c, d, e⟩ := k1 h hb
        refine ⟨a, b, c, d, ?_⟩
        rintro v rfl
        rcases e with ⟨w, hw, e⟩ | ⟨e, _⟩
        · cases hw; exact e
        · cases e
      · rw [k2]
        constructor
        · rintro ⟨a, b, c⟩; exact ⟨b, a, c, by rintro ws ⟨⟩⟩
        · rintro ⟨a, b, c, _⟩; exact ⟨b, a, c⟩
  | false =>
    simp only [Bool.false_and, Bool.false_eq_true, if_false]
    refine ⟨fun h hb => C48_categorical hb, ?_⟩
    constructor
    · rintro ⟨h, hb⟩
      obtain ⟨hw, _, hk, _⟩ := C48_categorical hb
      obtain ⟨hne, hd⟩ := HP.wf_distinct hw (.inl hk)
      obtain ⟨h1, h2⟩ := hdef h hb
      refine ⟨hne, hd, h1, ?_⟩
      rintro ws rfl
      simp only [badWeights, Bool.or_eq_false_iff, decide_eq_false_iff_not, not_not] at h2
      obtain ⟨⟨a, b⟩, c⟩ := h2
      refine ⟨trivial, a, ?_, ?_⟩
      · intro w hw
        rw [List.any_eq_false] at b
        simpa using b w hw
      · by_contra hc
        rw [Bool.eq_false_iff] at c
        apply c
        rw [List.all_eq_true]
        intro w hw
        rw [decide_eq_true_eq]
        by_contra hn
        exact hc ⟨w, hw, hn⟩
    · rintro ⟨a, b, c, d⟩
      obtain ⟨h, hh, _⟩ := C48_categorical_accepts (n := n) a b c (fun w hw => (d w hw).2)
      exact ⟨h, hh⟩

/-! ## The standard deviation -/

/-- C80, false of the code: the standard deviation is not looked at.  Whether `Integer(...)` and `Float(...)` accept a normal
distribution does not depend on it; zero and negative numbers are accepted. -/
theorem C80_sigma_unchecked :
    (∀ n bounds mu default log (s s' : Rat), (∃ r, apiInteger n bounds (.normal mu s) default log = .ok r) ↔
      ∃ r, apiInteger n bounds (.normal mu s') default log = .ok r) ∧
    (∀ n bounds mu default log (s s' : Rat), (∃ r, apiFloat n bounds (.normal mu s) default log = .ok r) ↔
      ∃ r, apiFloat n bounds (.normal mu s') default log = .ok r) ∧
    apiFloat "x" (0, 1) (.normal (1 / 2) (-1)) none false =
      .ok { hp := { name := "x", kind := .flt 0 1, default := .flt (1 / 2) }, prior := .normal (1 / 2) (-1), log := false } := by
  refine ⟨?_, ?_, by decide +kernel⟩
  · intro n bounds mu default log s s'
    rw [C77_integer_accepted_iff, C77_integer_accepted_iff]
    constructor
    · rintro ⟨lo, up, h, hs⟩; exact ⟨lo, up, h, hs.order, hs.positive, hs.sane, hs.given⟩
    · rintro ⟨lo, up, h, hs⟩; exact ⟨lo, up, h, hs.order, hs.positive, hs.sane, hs.given⟩
  · intro n bounds mu default log s s'
    obtain ⟨lo, up⟩ := bounds
    rw [C77_float_accepted_iff, C77_float_accepted_iff]
    constructor
    · intro hs; exact ⟨hs.order, hs.positive, hs.sane, hs.given⟩
    · intro hs; exact ⟨hs.order, hs.positive, hs.sane, hs.given⟩

/-- C80, false of the code: on a logarithmic scale the mean must be positive, but this is checked before it is rounded: a mean of
`1e-14` is accepted and kept as zero, and then `to_integer` fails. -/
theorem C80_log_mean_rounded_to_zero :
    ∃ r, apiFloat "x" (1, 10) (.normal (1 / 10 ^ 14) 1) none true = .ok r ∧ r.prior = .normal 0 1 ∧
      toInteger r = some (.error .valueError) ∧
      ∃ r', apiInteger "x" (some (1, 10)) (.normal (1 / 10 ^ 14) 1) none true = .ok r' := by
  refine ⟨{ hp := { name := "x", kind := .flt 1 10, default := .flt 1 }, prior := .normal 0 1, log := true },
    by decide +kernel, rfl, by decide +kernel,
    { hp := { name := "x", kind := .int 1 10, default := .int 1 }, prior := .normal (1 / 10 ^ 14) 1, log := true },
    by decide +kernel⟩

/-- **C80**, units (partial: linear scale).  Measuring the values in another unit - multiplying the bounds, the mean and the
standard deviation with a positive number - does not change the distribution of the vectors; a positive standard deviation stays
positive, and larger ones are larger. -/
theorem C80_units_partial {l u mu s c : ℝ} (hlu : l < u) (hc : 0 < c) :
    vecSigma (c * l) (c * u) false (c * s) = vecSigma l u false s ∧
    vecMu l u false mu = (mu - l) / (u - l) ∧ vecMu (c * l) (c * u) false (c * mu) = (mu - l) / (u - l) ∧
    (0 < s → 0 < vecSigma l u false s) ∧ (∀ t, s < t → vecSigma l u false s < vecSigma l u false t) := by
  have h : 0 < u - l := sub_pos.2 hlu
  have e : c * u - c * l = c * (u - l) := by ring
  unfold vecSigma vecMu
  simp only [Bool.false_eq_true, if_false]
  refine ⟨?_, Num.normalize_def .., ?_, fun hs => div_pos hs h, fun t ht => div_lt_div_of_pos_right ht h⟩
  · rw [e, mul_div_mul_left _ _ hc.ne']
  · rw [Num.normalize_def, e, ← mul_sub, mul_div_mul_left _ _ hc.ne']

/-- **C80**, units, logarithmic scale: the mean does not depend on the unit. -/
theorem C80_units_log_mean {l u mu c : ℝ} (hl : 0 < l) (hu : 0 < u) (hm : 0 < mu) (hc : 0 < c) :
    vecMu (c * l) (c * u) true (c * mu) = vecMu l u true mu := by
  unfold vecMu Num.toVecLog
  simp only [if_true]
  rw [Num.normalize_def, Num.normalize_def, Real.log_mul hc.ne' hl.ne', Real.log_mul hc.ne' hu.ne', Real.log_mul hc.ne' hm.ne']
  congr 1 <;> ring

/-- C80, false of the code on a logarithmic scale: for every range that starts below 1 there is a positive standard deviation that
becomes zero, so that the distribution is degenerate; the standard deviation of the vectors is the logarithm of `lower + sigma`
instead of a difference of logarithms. -/
theorem C80_log_sigma_vanishes {l u : ℝ} (hl : 0 < l) (h1 : l < 1) (hu : l < u) :
    ∃ s, 0 < s ∧ vecSigma l u true s = 0 ∧ ∀ t, t ≠ s → 0 < t → 0 < vecSigma l u true t := by
  refine ⟨1 - l, by linarith, ?_, ?_⟩
  · simp [vecSigma]
  · intro t ht h0
    unfold vecSigma
    simp only [if_true]
    have hd : Real.log u - Real.log l ≠ 0 := by
      have := Real.log_lt_log hl hu
      linarith
    have hn : Real.log (l + t) ≠ 0 := by
      apply Real.log_ne_zero_of_pos_of_ne_one (by linarith)
      intro h
      exact ht (by linarith)
    exact abs_pos.2 (div_ne_zero hn hd)

/-- C80, false of the code on a logarithmic scale: a larger standard deviation may become smaller, and measuring everything in
another unit changes the distribution. -/
theorem C80_log_sigma_wrong :
    (∃ s t : ℝ, 0 < s ∧ s < t ∧ vecSigma (1 / 4) 4 true t < vecSigma (1 / 4) 4 true s) ∧
    vecSigma (1 / 2) 2 true (1 / 2) ≠ vecSigma (2 * (1 / 2)) (2 * 2) true (2 * (1 / 2)) := by
  have l2 : 0 < Real.log 2 := Real.log_pos (by norm_num)
  constructor
  · refine ⟨1 / 4, 3 / 4, by norm_num, by norm_num, ?_⟩
    have e1 : vecSigma (1 / 4) 4 true (3 / 4) = 0 := by
      simp only [vecSigma, if_true]
      norm_num
    rw [e1]
    unfold vecSigma
    simp only [if_true]
    apply abs_pos.2
    have h1 : Real.log (1 / 4 + 1 / 4 : ℝ) = - Real.log 2 := by
      rw [show (1 / 4 + 1 / 4 : ℝ) = 2⁻¹ by norm_num, Real.log_inv]
    have h2 : Real.log (1 / 4 : ℝ) = - Real.log 4 := by
      rw [show (1 / 4 : ℝ) = 4⁻¹ by norm_num, Real.log_inv]
    have h4 : 0 < Real.log 4 := Real.log_pos (by norm_num)
    rw [h1, h2]
    apply div_ne_zero
    · linarith
    · linarith
  · have e1 : vecSigma (1 / 2) 2 true (1 / 2) = 0 := by
      simp only [vecSigma, if_true]
      norm_num
    rw [e1]
    unfold vecSigma
    simp only [if_true]
    apply ne_of_lt
    apply abs_pos.2
    rw [show (2 * (1 / 2) + 2 * (1 / 2) : ℝ) = 2 by norm_num, show (2 * (1 / 2) : ℝ) = 1 by norm_num, Real.log_one]
    apply div_ne_zero l2.ne'
    have : 0 < Real.log (2 * 2 : ℝ) := Real.log_pos (by norm_num)
    linarith

/-- **C80**, logarithmic scale (partial: ranges that start at 1 or above): positive standard deviations stay positive and larger ones
are larger. -/
theorem C80_log_sigma_partial {l u s t : ℝ} (hl : 1 ≤ l) (hu : l < u) (hs : 0 < s) (ht : s < t) :
    0 < vecSigma l u true s ∧ vecSigma l u true s < vecSigma l u true t := by
  have hd : 0 < Real.log u - Real.log l := sub_pos.2 (Real.log_lt_log (by linarith) hu)
  have h1 : 0 < Real.log (l + s) := Real.log_pos (by linarith)
  have h2 : Real.log (l + s) < Real.log (l + t) := Real.log_lt_log (by linarith) (by linarith)
  unfold vecSigma
  simp only [if_true]
  rw [abs_of_pos (div_pos h1 hd), abs_of_pos (div_pos (h1.trans h2) hd)]
  exact ⟨div_pos h1 hd, div_lt_div_of_pos_right h2 hd⟩

/-! ## Concrete cases -/

example : apiInteger "i" (some (0, 10)) (.normal (36 / 5) 3) none false =
    .ok { hp := { name := "i", kind := .int 0 10, default := .int 7 }, prior := .normal (36 / 5) 3, log := false } ∧
    apiInteger "i" (some (0, 10)) (.normal 12 3) none false =
    .ok { hp := { name := "i", kind := .int 0 10, default := .int 10 }, prior := .normal 12 3, log := false } ∧
    apiInteger "i" (some (0, 10)) (.beta 3 2) none false =
    .ok { hp := { name := "i", kind := .int 0 10, default := .int 7 }, prior := .beta 3 2, log := false } ∧
    apiInteger "i" (some (0, 10)) (.beta (1 / 2) 2) none false = .error .valueError ∧
    apiInteger "i" (some (0, 10)) (.normal 5 2) (some (1 / 2)) false = .error .typeError ∧
    apiInteger "i" none (.normal 5 2) none false = .error .typeError ∧
    apiInteger "i" (some (0, 10)) .none none true = .error .valueError ∧
    apiFloat "f" (0, 1) (.beta 3 2) none false =
    .ok { hp := { name := "f", kind := .flt 0 1, default := .flt (6666666666667 / 10000000000000) },
          prior := .beta 3 2, log := false } ∧
    apiCategorical "c" [.str "a", .str "b"] (some (.str "b")) none true =
    .ok { name := "c", kind := .ord [.str "a", .str "b"], default := .str "b" } ∧
    apiCategorical "c" [.str "a", .str "b"] none (some [1, 2]) true = .error .valueError := by decide +kernel

/-- On a logarithmic scale the default of a uniform range is the geometric mean of the bounds. -/
example : ∃ r, apiInteger "i" (some (1, 100)) .uniform none true = .ok r ∧ r.hp.default = .int 10 := by
  obtain ⟨r, h⟩ := C77_integer_accepted_iff.2 ⟨1, 100, rfl, show SaneInt (rint 1) (rint 100) .uniform none true from
    ⟨by decide +kernel, fun _ => by decide +kernel, trivial, by rintro d ⟨⟩⟩⟩
  refine ⟨r, h, ?_⟩
  obtain ⟨hb, _⟩ := C77_integer_built h
  obtain ⟨d, hd, _, _, _, h2⟩ := hb.value
  have h3 := h2 rfl
  rw [hd]
  have hp : r.prior = .uniform := by
    have := hb.prior
    cases hp : r.prior <;> simp [hp, SamePrior] at this
    rfl
  rw [hp] at h3
  have e1 : rint 1 = 1 := by decide +kernel
  have e2 : rint 100 = 100 := by decide +kernel
  have h4 := h3 10
  simp only [fractionOf, if_true, e1, e2] at h4
  have e3 : ((1 : Int) : ℝ) * (((100 : Int) : ℝ) / ((1 : Int) : ℝ)) ^ (1 / 2 : ℝ) = 10 := by
    push_cast
    rw [one_mul, div_one, show (100 : ℝ) = 10 ^ (2 : ℝ) by norm_num, ← Real.rpow_mul (by norm_num)]
    norm_num
  rw [e3] at h4
  push_cast at h4
  rw [sub_self, abs_zero, abs_nonpos_iff] at h4
  have : (d : ℝ) = (10 : Int) := by push_cast; linarith
  have : d = 10 := by exact_mod_cast this
  rw [this]

/-! ## The theorems applied to hyperparameters that are made -/

namespace ExPr

/-- `Integer("i", (0, 10), distribution=Normal(7.2, 3))` -/
def normal : NumHP := { hp := { name := "i", kind := .int 0 10, default := .int 7 }, prior := .normal (36 / 5) 3, log := false }

theorem normal_ok : apiInteger "i" (some (0, 10)) (.normal (36 / 5) 3) none false = .ok normal := by decide +kernel
theorem normal_made : Made normal := .inl ⟨_, _, _, _, _, normal_ok⟩

/-- `Float("f", (0.5, 10), distribution=Beta(3, 2), default=4)` -/
def beta : NumHP := { hp := { name := "f", kind := .flt (1 / 2) 10, default := .flt 4 }, prior := .beta 3 2, log := false }

theorem beta_ok : apiFloat "f" (1 / 2, 10) (.beta 3 2) (some 4) false = .ok beta := by decide +kernel
theorem beta_made : Made beta := .inr ⟨_, _, _, _, _, beta_ok⟩

example := C77_float_built beta_ok
example := C77_given_default_kept (n := "i") (lo := 0) (up := 10) (dist := .normal (36 / 5) 3) (d := 2) (log := false)
  (r := { hp := { name := "i", kind := .int 0 10, default := .int 2 }, prior := .normal (36 / 5) 3, log := false }) (by decide +kernel)
example := C77_to_float normal_made rfl rfl
example := (C77_to_integer_iff beta_made rfl rfl).2 (by
  refine ⟨by decide +kernel, by decide +kernel, by decide +kernel, ?_⟩
  intro mu s h
  cases h)
example := C77_int_float_int normal_made rfl rfl (by
  intro mu s _ h
  cases h)
example := C80_units_partial (l := 1) (u := 3) (mu := 2) (s := 1) (c := 10) (by norm_num) (by norm_num)
example := C80_units_log_mean (l := 1) (u := 3) (mu := 2) (c := 10) (by norm_num) (by norm_num) (by norm_num) (by norm_num)
example := C80_log_sigma_vanishes (l := 1 / 2) (u := 8) (by norm_num) (by norm_num) (by norm_num)
example := C80_log_sigma_partial (l := 1) (u := 8) (s := 1) (t := 2) (by norm_num) (by norm_num) (by norm_num) (by norm_num)

end ExPr

end Verif
