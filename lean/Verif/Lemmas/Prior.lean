import Verif.Spec.Prior
import Verif.Lemmas.F64
import Verif.Props.Numeric
import Verif.Props.Construct

/-!
# Lemmas about the constructors of numerical hyperparameters
-/

set_option autoImplicit false

namespace Verif
open Verif.Spec

theorem rint_eq_rintK (q : Rat) : rint q = Num.rintK q := rfl

theorem rint_mem {l u : Int} {q : Rat} (h1 : (l : Rat) ≤ q) (h2 : q ≤ u) : l ≤ rint q ∧ rint q ≤ u := by
  rw [rint_eq_rintK]; exact Num.rintK_mem h1 h2

theorem clipQ_mem {x l u : Rat} (h : l ≤ u) : l ≤ clipQ x l u ∧ clipQ x l u ≤ u := by
  unfold clipQ
  split_ifs <;> constructor <;> linarith

/-- The clipped value is a closest one of the range. -/
theorem clipQ_nearest {x l u v : Rat} (h1 : l ≤ v) (h2 : v ≤ u) : |x - clipQ x l u| ≤ |x - v| := by
  unfold clipQ
  split_ifs with a b
  · rw [abs_of_neg (by linarith), abs_of_neg (by linarith)]; linarith
  · rw [abs_of_pos (by linarith), abs_of_pos (by linarith)]; linarith
  · rw [sub_self, abs_zero]; exact abs_nonneg _

/-- The nearest integer to the clipped value is a closest integer of the range. -/
theorem rint_clipQ_nearest {x : Rat} {l u m : Int} (h1 : l ≤ m) (h2 : m ≤ u) :
    |x - rint (clipQ x l u)| ≤ |x - m| := by
  have h1' : (l : Rat) ≤ m := by exact_mod_cast h1
  have h2' : (m : Rat) ≤ u := by exact_mod_cast h2
  have := clipQ_nearest (x := x) h1' h2'
  unfold clipQ at this ⊢
  split_ifs at this ⊢
  · rwa [rint_int]
  · rwa [rint_int]
  · exact rint_nearest x m

/-! ## Rounding to 13 places -/

theorem roundPlaces_fix {l : Rat} (h : roundPlaces l = l) : ∃ k : Int, l = (k : Rat) / 10000000000000 :=
  ⟨rint (l * 10000000000000), h.symm⟩

theorem roundReal_mem {l u : Rat} (hl : roundPlaces l = l) (hu : roundPlaces u = u) {q : ℝ} (h1 : (l : ℝ) ≤ q) (h2 : q ≤ u) :
    l ≤ roundReal q ∧ roundReal q ≤ u := by
  obtain ⟨k, rfl⟩ := roundPlaces_fix hl
  obtain ⟨m, rfl⟩ := roundPlaces_fix hu
  push_cast at h1 h2
  have ha : (k : ℝ) ≤ q * 10000000000000 := by
    rw [div_le_iff₀ (by norm_num)] at h1
    exact h1
  have hb : q * 10000000000000 ≤ m := by
    rw [le_div_iff₀ (by norm_num)] at h2
    exact h2
  obtain ⟨c, d⟩ := Num.rintK_mem ha hb
  unfold roundReal
  have c' : (k : Rat) ≤ (Num.rintK (q * 10000000000000) : Int) := by exact_mod_cast c
  have d' : ((Num.rintK (q * 10000000000000) : Int) : Rat) ≤ m := by exact_mod_cast d
  exact ⟨by gcongr, by gcongr⟩

theorem roundReal_fix (q : ℝ) : roundPlaces (roundReal q) = roundReal q := by
  unfold roundReal roundPlaces
  rw [div_mul_cancel₀ _ (by norm_num), rint_int]

theorem roundReal_near (q : ℝ) : |q - (roundReal q : ℝ)| ≤ 1 / (2 * 10 ^ 13) := by
  have h := Num.rintK_dist (q * 10000000000000)
  unfold roundReal
  push_cast
  have e : q - ((Num.rintK (q * 10000000000000) : Int) : ℝ) / 10000000000000 =
      (q * 10000000000000 - ((Num.rintK (q * 10000000000000) : Int) : ℝ)) / 10000000000000 := by field_simp
  rw [e, abs_div, abs_of_pos (by norm_num : (0 : ℝ) < 10000000000000), div_le_iff₀ (by norm_num)]
  norm_num at h ⊢
  exact h

theorem roundPlaces_near' (q : Rat) : |q - roundPlaces q| ≤ 1 / (2 * 10 ^ 13) := by
  have h := Num.rintK_dist (q * 10000000000000)
  unfold roundPlaces
  rw [rint_eq_rintK]
  have e : q - ((Num.rintK (q * 10000000000000) : Int) : Rat) / 10000000000000 =
      (q * 10000000000000 - ((Num.rintK (q * 10000000000000) : Int) : Rat)) / 10000000000000 := by field_simp
  rw [e, abs_div, abs_of_pos (by norm_num : (0 : Rat) < 10000000000000), div_le_iff₀ (by norm_num)]
  norm_num at h ⊢
  exact h

theorem roundPlaces_mem {l u q : Rat} (hl : roundPlaces l = l) (hu : roundPlaces u = u) (h1 : l ≤ q) (h2 : q ≤ u) :
    l ≤ roundPlaces q ∧ roundPlaces q ≤ u := by
  have a := roundPlaces_mono h1
  have b := roundPlaces_mono h2
  rw [hl] at a
  rw [hu] at b
  exact ⟨a, b⟩

theorem one_le_roundPlaces {q : Rat} (h : 1 ≤ q) : 1 ≤ roundPlaces q := by
  have h1 : roundPlaces 1 = 1 := by have := roundPlaces_int 1; exact_mod_cast this
  have := roundPlaces_mono h
  rwa [h1] at this

/-! ## The point of the scale -/

theorem unsafeLog_eq {l u : ℝ} (hl : 0 < l) (hu : 0 < u) (x : ℝ) : Num.unsafeLog l u x = l * (u / l) ^ x := by
  unfold Num.unsafeLog Num.scale
  rw [Real.exp_add, Real.exp_log hl, Real.rpow_def_of_pos (div_pos hu hl), Real.log_div hu.ne' hl.ne', mul_comm,
    mul_comm x]

theorem unsafeLog_mem {l u : ℝ} (hl : 0 < l) (h : l < u) {x : ℝ} (h0 : 0 ≤ x) (h1 : x ≤ 1) :
    l ≤ Num.unsafeLog l u x ∧ Num.unsafeLog l u x ≤ u := by
  have hlog : Real.log l < Real.log u := Real.log_lt_log hl h
  unfold Num.unsafeLog Num.scale
  constructor
  · calc l = Real.exp (Real.log l) := (Real.exp_log hl).symm
      _ ≤ _ := Real.exp_le_exp.2 (by nlinarith)
  · calc _ ≤ Real.exp (Real.log u) := Real.exp_le_exp.2 (by nlinarith)
      _ = u := Real.exp_log (hl.trans h)

theorem scaleQ_mem {l u x : Rat} (h : l ≤ u) (h0 : 0 ≤ x) (h1 : x ≤ 1) : l ≤ scaleQ x l u ∧ scaleQ x l u ≤ u := by
  unfold scaleQ
  constructor <;> nlinarith

theorem intAt_mem {l u : Int} {log : Bool} {x : Rat} (h : l < u) (hp : log = true → 0 < l) (h0 : 0 ≤ x) (h1 : x ≤ 1) :
    l ≤ intAt l u log x ∧ intAt l u log x ≤ u := by
  unfold intAt
  cases log with
  | true =>
    have hl : (0 : ℝ) < l := by exact_mod_cast hp rfl
    have hlu : (l : ℝ) < u := by exact_mod_cast h
    have h0' : (0 : ℝ) ≤ x := by exact_mod_cast h0
    have h1' : (x : ℝ) ≤ 1 := by exact_mod_cast h1
    rw [if_pos rfl]
    obtain ⟨a, b⟩ := unsafeLog_mem hl hlu h0' h1'
    exact Num.rintK_mem a b
  | false =>
    have hlu : (l : Rat) ≤ u := by exact_mod_cast h.le
    obtain ⟨a, b⟩ := scaleQ_mem hlu h0 h1
    exact rint_mem a b

theorem intAt_nearest {l u : Int} {log : Bool} {x : Rat} (h : l < u) (hp : log = true → 0 < l) :
    NearestInt (fractionOf l u log x) (intAt l u log x) := by
  intro m
  unfold intAt fractionOf
  cases log with
  | true =>
    have hl : (0 : ℝ) < l := by exact_mod_cast hp rfl
    have hu : (0 : ℝ) < u := by exact_mod_cast (hp rfl).trans h
    simp only [if_true]
    rw [← unsafeLog_eq hl hu]
    exact F64.rintK_nearest _ m
  | false =>
    have e : ((l : ℝ) + (x : ℝ) * ((u : ℝ) - l)) = ((scaleQ x l u : Rat) : ℝ) := by unfold scaleQ; push_cast; ring
    simp only [Bool.false_eq_true, if_false]
    rw [e]
    have := rint_nearest (scaleQ x l u) m
    exact_mod_cast this

theorem fltAt_fix {l u : Rat} {log : Bool} {x : Rat} : roundPlaces (fltAt l u log x) = fltAt l u log x := by
  unfold fltAt
  cases log with
  | true => exact roundReal_fix _
  | false => exact roundPlaces_idem _

theorem fltAt_mem {l u : Rat} {log : Bool} {x : Rat} (hl : roundPlaces l = l) (hu : roundPlaces u = u) (h : l < u) :
    l ≤ fltAt l u log x ∧ fltAt l u log x ≤ u := by
  unfold fltAt
  cases log with
  | true =>
    rw [if_pos rfl]
    have hlu : (l : ℝ) ≤ u := by exact_mod_cast h.le
    obtain ⟨a, b⟩ := Num.clip_mem (x := Num.unsafeLog l u x) hlu
    exact roundReal_mem hl hu a b
  | false =>
    obtain ⟨a, b⟩ := clipQ_mem (x := scaleQ x l u) h.le
    exact roundPlaces_mem hl hu a b

theorem fltAt_near {l u : Rat} {log : Bool} {x : Rat} (h : l < u) (hp : log = true → 0 < l) (h0 : 0 ≤ x) (h1 : x ≤ 1) :
    |fractionOf l u log x - fltAt l u log x| ≤ 1 / (2 * 10 ^ 13) := by
  unfold fltAt fractionOf
  cases log with
  | true =>
    have hl : (0 : ℝ) < l := by exact_mod_cast hp rfl
    have hlu : (l : ℝ) < u := by exact_mod_cast h
    have h0' : (0 : ℝ) ≤ x := by exact_mod_cast h0
    have h1' : (x : ℝ) ≤ 1 := by exact_mod_cast h1
    simp only [if_true]
    rw [← unsafeLog_eq hl (hl.trans hlu)]
    obtain ⟨a, b⟩ := unsafeLog_mem hl hlu h0' h1'
    unfold Num.toValLogFlt
    rw [Num.clip_id a b]
    exact roundReal_near _
  | false =>
    have e : ((l : ℝ) + (x : ℝ) * ((u : ℝ) - l)) = ((scaleQ x l u : Rat) : ℝ) := by unfold scaleQ; push_cast; ring
    simp only [Bool.false_eq_true, if_false]
    obtain ⟨a, b⟩ := scaleQ_mem h.le h0 h1
    rw [e, show clipQ (scaleQ x l u) l u = scaleQ x l u by
      simp only [clipQ, if_neg (not_lt.2 a), if_neg (not_lt.2 b)]]
    have := roundPlaces_near' (scaleQ x l u)
    have h2 : ((|scaleQ x l u - roundPlaces (scaleQ x l u)| : Rat) : ℝ) ≤ ((1 / (2 * 10 ^ 13) : Rat) : ℝ) := by
      exact_mod_cast this
    push_cast at h2
    exact h2

/-! ## The mode -/

theorem betaMode_mem {a b : Rat} (ha : 1 ≤ a) (hb : 1 ≤ b) : 0 ≤ betaMode a b ∧ betaMode a b ≤ 1 := by
  unfold betaMode
  split_ifs with h
  · have hs : 0 < a + b - 2 := by rcases h with h | h <;> linarith
    exact ⟨div_nonneg (by linarith) hs.le, (div_le_one hs).2 (by linarith)⟩
  · norm_num

theorem betaMode_mode {a b : Rat} (ha : 1 ≤ a) (hb : 1 ≤ b) {x : ℝ} (h : Mode a b x) : x = (betaMode a b : Rat) := by
  unfold Mode at h
  unfold betaMode
  split_ifs at h with h1
  · have e1 : a = 1 := by exact_mod_cast h1.1
    have e2 : b = 1 := by exact_mod_cast h1.2
    rw [if_neg (by rw [e1, e2]; norm_num), h]
    push_cast; rfl
  · have h2 : 1 < a ∨ 1 < b := by
      by_contra hc
      rw [not_or, not_lt, not_lt] at hc
      apply h1
      have e1 : a = 1 := le_antisymm hc.1 ha
      have e2 : b = 1 := le_antisymm hc.2 hb
      rw [e1, e2]; norm_num
    have hs : 0 < a + b - 2 := by rcases h2 with h | h <;> linarith
    have hs' : (0 : ℝ) < (a : ℝ) + b - 2 := by exact_mod_cast hs
    rw [if_pos h2]
    push_cast
    rw [eq_div_iff hs'.ne', h]

theorem Mode_betaMode {a b : Rat} (ha : 1 ≤ a) (hb : 1 ≤ b) : Mode a b (betaMode a b : Rat) := by
  unfold Mode betaMode
  split_ifs with h1 h2 h2
  · have e1 : a = 1 := by exact_mod_cast h1.1
    have e2 : b = 1 := by exact_mod_cast h1.2
    rw [e1, e2] at h2; norm_num at h2
  · push_cast; rfl
  · have hs : 0 < a + b - 2 := by rcases h2 with h | h <;> linarith
    have hs' : (0 : ℝ) < (a : ℝ) + b - 2 := by exact_mod_cast hs
    push_cast
    rw [div_mul_cancel₀ _ hs'.ne']
  · rw [not_or, not_lt, not_lt] at h2
    exfalso; apply h1
    rw [le_antisymm h2.1 ha, le_antisymm h2.2 hb]; norm_num

/-! ## Ends of the constructors -/

theorem badBounds_false {l u : Rat} {log : Bool} : badBounds l u log = false ↔ l < u ∧ (log = true → 0 < l) := by
  unfold badBounds
  cases log <;> simp

theorem badBounds_true {l u : Rat} {log : Bool} : badBounds l u log = true ↔ ¬ (l < u ∧ (log = true → 0 < l)) := by
  rw [← badBounds_false, Bool.not_eq_false]

theorem finishNum_int {n : Name} {l u d : Int} {p : Prior} {log : Bool} {r : NumHP} :
    finishNum { hp := { name := n, kind := .int l u, default := .int d }, prior := p, log := log } = .ok r ↔
      r = { hp := { name := n, kind := .int l u, default := .int d }, prior := p, log := log } ∧ l ≤ d ∧ d ≤ u := by
  unfold finishNum finishHP
  simp only
  by_cases h : (Kind.int l u).legalValue (.int d) = true
  · rw [if_pos h]
    have := (C52_integer l u d "").1.1 h
    simp [Except.map, this, eq_comm]
  · rw [if_neg h]
    have := fun hh => h ((C52_integer l u d "").1.2 hh)
    constructor
    · intro hh; cases hh
    · rintro ⟨_, hh⟩; exact absurd hh this

theorem finishNum_flt {n : Name} {l u d : Rat} {p : Prior} {log : Bool} {r : NumHP} :
    finishNum { hp := { name := n, kind := .flt l u, default := .flt d }, prior := p, log := log } = .ok r ↔
      r = { hp := { name := n, kind := .flt l u, default := .flt d }, prior := p, log := log } ∧ l ≤ d ∧ d ≤ u := by
  unfold finishNum finishHP
  simp only
  by_cases h : (Kind.flt l u).legalValue (.flt d) = true
  · rw [if_pos h]
    have := (C52_float l u d 0 "").1.1 h
    simp [Except.map, this, eq_comm]
  · rw [if_neg h]
    have := fun hh => h ((C52_float l u d 0 "").1.2 hh)
    constructor
    · intro hh; cases hh
    · rintro ⟨_, hh⟩; exact absurd hh this

theorem wf_int {n : Name} {l u d : Int} (h : l < u) (h1 : l ≤ d) (h2 : d ≤ u) :
    HP.wf { name := n, kind := .int l u, default := .int d } = true := by
  unfold HP.wf
  simp only [Bool.and_eq_true, decide_eq_true_eq]
  exact ⟨⟨h, trivial⟩, (C52_integer l u d "").1.2 ⟨h1, h2⟩⟩

theorem wf_flt {n : Name} {l u d : Rat} (h : l < u) (hl : roundPlaces l = l) (hu : roundPlaces u = u)
    (hd : roundPlaces d = d) (h1 : l ≤ d) (h2 : d ≤ u) : HP.wf { name := n, kind := .flt l u, default := .flt d } = true := by
  unfold HP.wf
  simp only [Bool.and_eq_true, decide_eq_true_eq]
  exact ⟨⟨⟨h, hl, hu⟩, hd⟩, (C52_float l u d 0 "").1.2 ⟨h1, h2⟩⟩

/-- The default of an integer hyperparameter with settings that were accepted. -/
noncomputable def intDefault (l u : Int) (log : Bool) (dist : ApiDist) (default : Option Rat) : Int :=
  match default with
  | some d => integerOf dist d
  | none => match dist with
    | .normal mu _ => rint (clipQ mu l u)
    | .beta a b => intAt l u log (betaMode a b)
    | _ => intAt l u log (1 / 2)

/-- The default of a float hyperparameter with settings that were accepted. -/
noncomputable def fltDefault (l u : Rat) (log : Bool) (dist : ApiDist) (default : Option Rat) : Rat :=
  match default with
  | some d => roundPlaces d
  | none => match dist with
    | .normal mu _ => roundPlaces (clipQ (roundPlaces mu) l u)
    | .beta a b => fltAt l u log (betaMode (roundPlaces a) (roundPlaces b))
    | _ => fltAt l u log (1 / 2)

/-- The distribution that is kept. -/
def priorOf (exact : Bool) : ApiDist → Prior
  | .normal mu sigma => if exact then .normal mu sigma else .normal (roundPlaces mu) (roundPlaces sigma)
  | .beta a b => if exact then .beta a b else .beta (roundPlaces a) (roundPlaces b)
  | _ => .uniform

theorem badIntDefault_false {d : Option Rat} : badIntDefault d = false ↔ ∀ q, d = some q → closeToInt q = true := by
  cases d with
  | none => simp [badIntDefault]
  | some q => simp [badIntDefault]

theorem intDefault_mem {l u : Int} {log : Bool} {dist : ApiDist} {default : Option Rat} (h : SaneInt l u dist default log) :
    l ≤ intDefault l u log dist default ∧ intDefault l u log dist default ≤ u := by
  unfold intDefault
  cases default with
  | some d => exact (h.given d rfl).2
  | none =>
    have hlu : (l : Rat) ≤ u := by exact_mod_cast h.order.le
    cases dist with
    | normal mu s =>
      obtain ⟨a, b⟩ := clipQ_mem (x := mu) hlu
      exact rint_mem a b
    | beta a b => exact intAt_mem h.order h.positive (betaMode_mem h.sane.1 h.sane.2).1 (betaMode_mem h.sane.1 h.sane.2).2
    | none => exact intAt_mem h.order h.positive (by norm_num) (by norm_num)
    | uniform => exact intAt_mem h.order h.positive (by norm_num) (by norm_num)
    | other => exact intAt_mem h.order h.positive (by norm_num) (by norm_num)

theorem fltDefault_mem {lo up : Rat} {log : Bool} {dist : ApiDist} {default : Option Rat}
    (h : SaneFlt (roundPlaces lo) (roundPlaces up) dist default log) :
    roundPlaces lo ≤ fltDefault (roundPlaces lo) (roundPlaces up) log dist default ∧
      fltDefault (roundPlaces lo) (roundPlaces up) log dist default ≤ roundPlaces up := by
  unfold fltDefault
  cases default with
  | some d => exact h.given d rfl
  | none =>
    cases dist with
    | normal mu s =>
      obtain ⟨a, b⟩ := clipQ_mem (x := roundPlaces mu) h.order.le
      exact roundPlaces_mem (roundPlaces_idem _) (roundPlaces_idem _) a b
    | beta a b => exact fltAt_mem (roundPlaces_idem _) (roundPlaces_idem _) h.order
    | none => exact fltAt_mem (roundPlaces_idem _) (roundPlaces_idem _) h.order
    | uniform => exact fltAt_mem (roundPlaces_idem _) (roundPlaces_idem _) h.order
    | other => exact fltAt_mem (roundPlaces_idem _) (roundPlaces_idem _) h.order

theorem fltDefault_fix {l u : Rat} {log : Bool} {dist : ApiDist} {default : Option Rat} :
    roundPlaces (fltDefault l u log dist default) = fltDefault l u log dist default := by
  unfold fltDefault
  cases default with
  | some d => exact roundPlaces_idem _
  | none =>
    cases dist with
    | normal mu s => exact roundPlaces_idem _
    | beta a b => exact fltAt_fix
    | none => exact fltAt_fix
    | uniform => exact fltAt_fix
    | other => exact fltAt_fix

/-- `Integer` succeeds exactly on sane settings, with this result. -/
theorem apiInteger_ok {n : Name} {lo up : Rat} {dist : ApiDist} {default : Option Rat} {log : Bool} {r : NumHP} :
    apiInteger n (some (lo, up)) dist default log = .ok r ↔
      SaneInt (rint lo) (rint up) dist default log ∧
      r = { hp := { name := n, kind := .int (rint lo) (rint up),
                    default := .int (intDefault (rint lo) (rint up) log dist default) },
            prior := priorOf true dist, log := log } := by
  have hcast : ((rint lo : Rat) < (rint up : Rat) ∧ (log = true → (0 : Rat) < (rint lo : Rat))) ↔
      (rint lo < rint up ∧ (log = true → 0 < rint lo)) := by
    constructor
    · rintro ⟨a, b⟩; exact ⟨by exact_mod_cast a, fun h => by exact_mod_cast b h⟩
    · rintro ⟨a, b⟩; exact ⟨by exact_mod_cast a, fun h => by exact_mod_cast b h⟩
  have huni : ∀ dist, dist = .uniform ∨ dist = .none →
      (mkUniformInt n lo up default log = .ok r ↔ SaneInt (rint lo) (rint up) dist default log ∧
      r = { hp := { name := n, kind := .int (rint lo) (rint up),
                    default := .int (intDefault (rint lo) (rint up) log dist default) },
            prior := priorOf true dist, log := log }) := by
    intro dist hd
    have hp : priorOf true dist = .uniform := by rcases hd with rfl | rfl <;> rfl
    have hs : SaneDist log dist := by rcases hd with rfl | rfl <;> trivial
    have hdef : intDefault (rint lo) (rint up) log dist default =
        (match default with | some d => trunc d | none => intAt (rint lo) (rint up) log (1 / 2)) := by
      rcases hd with rfl | rfl <;> cases default <;> rfl
    have hio : ∀ d, integerOf dist d = trunc d := by rcases hd with rfl | rfl <;> intro d <;> rfl
    unfold mkUniformInt
    simp only
    split
    · rename_i hb
      constructor
      · intro h; cases h
      · rintro ⟨h, _⟩
        have := badIntDefault_false.2 (fun q hq => (h.given q hq).1)
        rw [this] at hb; cases hb
    · rename_i hb
      rw [Bool.not_eq_true] at hb
      have hb' := badIntDefault_false.1 hb
      split
      · rename_i hc
        rw [badBounds_true, hcast] at hc
        constructor
        · intro h; cases h
        · rintro ⟨h, _⟩; exact absurd ⟨h.order, h.positive⟩ hc
      · rename_i hc
        rw [Bool.not_eq_true, badBounds_false, hcast] at hc
        rw [finishNum_int, hp, hdef]
        constructor
        · rintro ⟨h, h1⟩
          refine ⟨⟨hc.1, hc.2, hs, ?_⟩, h⟩
          rintro d rfl
          exact ⟨hb' d rfl, by rw [hio]; exact h1⟩
        · rintro ⟨h, h1⟩
          have := intDefault_mem h
          rw [hdef] at this
          exact ⟨h1, this⟩
  cases dist with
  | none => exact huni .none (.inr rfl)
  | uniform => exact huni .uniform (.inl rfl)
  | normal mu sigma =>
    show mkNormalInt n mu sigma lo up default log = .ok r ↔ _
    unfold mkNormalInt
    simp only
    split
    · rename_i hm
      rw [Bool.and_eq_true, decide_eq_true_eq] at hm
      constructor
      · intro h; cases h
      · rintro ⟨h, _⟩; exact absurd (h.sane hm.2) (not_lt.2 hm.1)
    · rename_i hm
      rw [Bool.and_eq_true, decide_eq_true_eq] at hm
      have hs : SaneDist log (.normal mu sigma) := fun hl => not_le.1 fun hh => hm ⟨hh, hl⟩
      split
      · rename_i hc
        rw [badBounds_true, hcast] at hc
        constructor
        · intro h; cases h
        · rintro ⟨h, _⟩; exact absurd ⟨h.order, h.positive⟩ hc
      · rename_i hc
        rw [Bool.not_eq_true, badBounds_false, hcast] at hc
        cases default with
        | none =>
          simp only [finishNum_int]
          constructor
          · rintro ⟨h, h1⟩
            exact ⟨⟨hc.1, hc.2, hs, by rintro d ⟨⟩⟩, h⟩
          · rintro ⟨h, h1⟩
            exact ⟨h1, intDefault_mem h⟩
        | some d =>
          unfold mkRoundedDefault
          by_cases hd : closeToInt d = true
          · simp only [if_pos hd, finishNum_int]
            constructor
            · rintro ⟨h, h1⟩
              refine ⟨⟨hc.1, hc.2, hs, ?_⟩, h⟩
              rintro _ ⟨⟩; exact ⟨hd, h1⟩
            · rintro ⟨h, h1⟩
              exact ⟨h1, intDefault_mem h⟩
          · simp only [if_neg hd]
            constructor
            · intro h; cases h
            · rintro ⟨h, _⟩; exact absurd (h.given d rfl).1 hd
  | beta a b =>
    show mkBetaInt n a b lo up default log = .ok r ↔ _
    unfold mkBetaInt
    simp only
    split
    · rename_i hm
      constructor
      · intro h; cases h
      · rintro ⟨h, _⟩
        rcases hm with hm | hm
        · exact absurd h.sane.1 (not_le.2 hm)
        · exact absurd h.sane.2 (not_le.2 hm)
    · rename_i hm
      rw [not_or, not_lt, not_lt] at hm
      have hs : SaneDist log (.beta a b) := hm
      split
      · rename_i hc
        rw [badBounds_true, hcast] at hc
        constructor
        · intro h; cases h
        · rintro ⟨h, _⟩; exact absurd ⟨h.order, h.positive⟩ hc
      · rename_i hc
        rw [Bool.not_eq_true, badBounds_false, hcast] at hc
        cases default with
        | none =>
          simp only [finishNum_int]
          constructor
          · rintro ⟨h, h1⟩
            exact ⟨⟨hc.1, hc.2, hs, by rintro d ⟨⟩⟩, h⟩
          · rintro ⟨h, h1⟩
            exact ⟨h1, intDefault_mem h⟩
        | some d =>
          unfold mkRoundedDefault
          by_cases hd : closeToInt d = true
          · simp only [if_pos hd, finishNum_int]
            constructor
            · rintro ⟨h, h1⟩
              refine ⟨⟨hc.1, hc.2, hs, ?_⟩, h⟩
              rintro _ ⟨⟩; exact ⟨hd, h1⟩
            · rintro ⟨h, h1⟩
              exact ⟨h1, intDefault_mem h⟩
          · simp only [if_neg hd]
            constructor
            · intro h; cases h
            · rintro ⟨h, _⟩; exact absurd (h.given d rfl).1 hd
  | other =>
    constructor
    · intro h; cases h
    · rintro ⟨h, _⟩; exact absurd h.sane id

/-- `Float` succeeds exactly on sane settings, with this result. -/
theorem apiFloat_ok {n : Name} {lo up : Rat} {dist : ApiDist} {default : Option Rat} {log : Bool} {r : NumHP} :
    apiFloat n (lo, up) dist default log = .ok r ↔
      SaneFlt (roundPlaces lo) (roundPlaces up) dist default log ∧
      r = { hp := { name := n, kind := .flt (roundPlaces lo) (roundPlaces up),
                    default := .flt (fltDefault (roundPlaces lo) (roundPlaces up) log dist default) },
            prior := priorOf false dist, log := log } := by
  have huni : ∀ dist, dist = .uniform ∨ dist = .none →
      (mkUniformFlt n lo up default log = .ok r ↔ SaneFlt (roundPlaces lo) (roundPlaces up) dist default log ∧
      r = { hp := { name := n, kind := .flt (roundPlaces lo) (roundPlaces up),
                    default := .flt (fltDefault (roundPlaces lo) (roundPlaces up) log dist default) },
            prior := priorOf false dist, log := log }) := by
    intro dist hd
    have hp : priorOf false dist = .uniform := by rcases hd with rfl | rfl <;> rfl
    have hs : SaneDist log dist := by rcases hd with rfl | rfl <;> trivial
    have hdef : fltDefault (roundPlaces lo) (roundPlaces up) log dist default =
        (match default with
          | some d => roundPlaces d
          | none => fltAt (roundPlaces lo) (roundPlaces up) log (1 / 2)) := by
      rcases hd with rfl | rfl <;> cases default <;> rfl
    unfold mkUniformFlt
    simp only
    split
    · rename_i hc
      rw [badBounds_true] at hc
      constructor
      · intro h; cases h
      · rintro ⟨h, _⟩; exact absurd ⟨h.order, h.positive⟩ hc
    · rename_i hc
      rw [Bool.not_eq_true, badBounds_false] at hc
      rw [finishNum_flt, hp, hdef]
      constructor
      · rintro ⟨h, h1⟩
        refine ⟨⟨hc.1, hc.2, hs, ?_⟩, h⟩
        rintro d rfl
        exact h1
      · rintro ⟨h, h1⟩
        have := fltDefault_mem h
        rw [hdef] at this
        exact ⟨h1, this⟩
  cases dist with
  | none => exact huni .none (.inr rfl)
  | uniform => exact huni .uniform (.inl rfl)
  | normal mu sigma =>
    show mkNormalFlt n mu sigma lo up default log = .ok r ↔ _
    unfold mkNormalFlt
    simp only
    split
    · rename_i hm
      rw [Bool.and_eq_true, decide_eq_true_eq] at hm
      constructor
      · intro h; cases h
      · rintro ⟨h, _⟩; exact absurd (h.sane hm.2) (not_lt.2 hm.1)
    · rename_i hm
      rw [Bool.and_eq_true, decide_eq_true_eq] at hm
      have hs : SaneDist log (.normal mu sigma) := fun hl => not_le.1 fun hh => hm ⟨hh, hl⟩
      split
      · rename_i hc
        rw [badBounds_true] at hc
        constructor
        · intro h; cases h
        · rintro ⟨h, _⟩; exact absurd ⟨h.order, h.positive⟩ hc
      · rename_i hc
        rw [Bool.not_eq_true, badBounds_false] at hc
        rw [finishNum_flt]
        cases default with
        | none =>
          constructor
          · rintro ⟨h, h1⟩
            exact ⟨⟨hc.1, hc.2, hs, by rintro d ⟨⟩⟩, h⟩
          · rintro ⟨h, h1⟩
            exact ⟨h1, fltDefault_mem h⟩
        | some d =>
          constructor
          · rintro ⟨h, h1⟩
            refine ⟨⟨hc.1, hc.2, hs, ?_⟩, h⟩
            rintro _ ⟨⟩; exact h1
          · rintro ⟨h, h1⟩
            exact ⟨h1, fltDefault_mem h⟩
  | beta a b =>
    show mkBetaFlt n a b lo up default log = .ok r ↔ _
    unfold mkBetaFlt
    simp only
    split
    · rename_i hm
      constructor
      · intro h; cases h
      · rintro ⟨h, _⟩
        rcases hm with hm | hm
        · exact absurd h.sane.1 (not_le.2 hm)
        · exact absurd h.sane.2 (not_le.2 hm)
    · rename_i hm
      rw [not_or, not_lt, not_lt] at hm
      have hs : SaneDist log (.beta a b) := hm
      split
      · rename_i hc
        rw [badBounds_true] at hc
        constructor
        · intro h; cases h
        · rintro ⟨h, _⟩; exact absurd ⟨h.order, h.positive⟩ hc
      · rename_i hc
        rw [Bool.not_eq_true, badBounds_false] at hc
        rw [finishNum_flt]
        cases default with
        | none =>
          constructor
          · rintro ⟨h, h1⟩
            exact ⟨⟨hc.1, hc.2, hs, by rintro d ⟨⟩⟩, h⟩
          · rintro ⟨h, h1⟩
            exact ⟨h1, fltDefault_mem h⟩
        | some d =>
          constructor
          · rintro ⟨h, h1⟩
            refine ⟨⟨hc.1, hc.2, hs, ?_⟩, h⟩
            rintro _ ⟨⟩; exact h1
          · rintro ⟨h, h1⟩
            exact ⟨h1, fltDefault_mem h⟩
  | other =>
    constructor
    · intro h; cases h
    · rintro ⟨h, _⟩; exact absurd h.sane id

end Verif
