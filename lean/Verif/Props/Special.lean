import Verif.Lemmas.Special
import Verif.Props.F64Log
import Mathlib.Analysis.Complex.ExponentialBounds

/-!
# C111: infinities and NaN

`UniformFloatHyperparameter` and `UniformIntegerHyperparameter` when arguments, values, entries or intermediate results are infinite or not
a number.
-/

set_option autoImplicit false

namespace Verif.F64

open Verif.Num

section
variable {K : Type} [Field K] [LinearOrder K] [IsStrictOrderedRing K] [FloorRing K] {lg ex : K → K} {log : Bool}

/-- **C111**: the constructor of floats refuses NaN as a bound and as a default value, with a `ValueError`. -/
theorem C111_nan_refused {lower upper : Dbl K} {d : Option (Dbl K)} (h : lower = .nan ∨ upper = .nan ∨ d = some .nan) :
    mkFloatX lg ex log lower upper d = .error .value := by
  unfold mkFloatX
  simp only
  split_ifs with h1 h2 h3
  · rfl
  · rfl
  · rfl
  · exfalso
    apply h3
    rcases h with h | h | h
    · subst h
      rw [round13X_nan]
      rfl
    · subst h
      rw [round13X_nan]
      unfold legalValX
      generalize round13X (d.getD _) = x
      cases x <;> simp [Dbl.le]
    · subst h
      simp only [Option.getD_some, round13X_nan]
      unfold legalValX
      generalize round13X lower = x
      cases x <;> simp [Dbl.le]

/-- **C111**: what the constructor of floats accepts has bounds in order, positive on a logarithmic scale, with the default value between them;
none of the three is NaN. -/
theorem C111_accepted {lower upper : Dbl K} {d : Option (Dbl K)} {h : FloatHP K} (hm : mkFloatX lg ex log lower upper d = .ok h) :
    h.upper.le h.lower = false ∧ (log = true → h.lower.le (.fin 0) = false) ∧ h.lower.le h.default = true ∧ h.default.le h.upper = true ∧
      h.lower ≠ .nan ∧ h.upper ≠ .nan ∧ h.default ≠ .nan ∧ h.lower = round13X lower ∧ h.upper = round13X upper ∧
      h.entry = toVecX lg log h.lower h.upper h.default := by
  unfold mkFloatX at hm
  simp only at hm
  split_ifs at hm with h1 h2 h3
  injection hm with hm
  subst hm
  simp only [Bool.not_eq_true, Bool.not_eq_false', legalValX, Bool.not_eq_false, Bool.and_eq_true] at h1 h2 h3
  simp only
  have n1 : ∀ {a b : Dbl K}, a.le b = true → a ≠ .nan := by
    rintro a b hab rfl
    simp [Dbl.le] at hab
  have n2 : ∀ {a b : Dbl K}, a.le b = true → b ≠ .nan := by
    rintro a b hab rfl
    cases a <;> simp [Dbl.le] at hab
  refine ⟨h1, fun hl => ?_, h3.1, h3.2, n1 h3.1, n2 h3.2, n2 h3.1, by trivial, by trivial, by trivial⟩
  subst hl
  simpa using h2

/-- **C111**: an infinite default value is accepted only together with an infinite bound. -/
theorem C111_infinite_default {lower upper : Dbl K} {h : FloatHP K} :
    (mkFloatX lg ex log lower upper (some .inf) = .ok h → h.upper = .inf) ∧
      (mkFloatX lg ex log lower upper (some .ninf) = .ok h → h.lower = .ninf) := by
  have hd : ∀ {d : Dbl K}, mkFloatX lg ex log lower upper (some d) = .ok h → h.default = round13X d := by
    intro d hm
    unfold mkFloatX at hm
    simp only [Option.getD_some] at hm
    split_ifs at hm
    injection hm with hm
    subst hm
    rfl
  constructor
  · intro hm
    obtain ⟨_, _, _, h4, _⟩ := C111_accepted hm
    rw [hd hm, round13X_inf] at h4
    cases hu : h.upper <;> simp [hu, Dbl.le] at h4
    rfl
  · intro hm
    obtain ⟨_, _, h3, _⟩ := C111_accepted hm
    rw [hd hm, round13X_ninf] at h3
    cases hl : h.lower <;> simp [hl, Dbl.le] at h3
    rfl

theorem bounds_of {lower upper : Dbl K} {d : Option (Dbl K)} {h : FloatHP K} (hm : mkFloatX lg ex log lower upper d = .ok h) {lo hi : K}
    (hlo : h.lower = .fin lo) (hhi : h.upper = .fin hi) :
    IsF64 lo ∧ IsF64 hi ∧ lo < hi ∧ |lo| ≤ 2 ^ 982 ∧ |hi| ≤ 2 ^ 982 ∧ (log = true → 0 < lo) := by
  obtain ⟨a1, a2, _, _, _, _, _, a8, a9, _⟩ := C111_accepted hm
  rw [hlo] at a8
  rw [hhi] at a9
  obtain ⟨f1, b1, _⟩ := round13X_eq_fin a8.symm
  obtain ⟨f2, b2, _⟩ := round13X_eq_fin a9.symm
  rw [hlo, hhi] at a1
  rw [hlo] at a2
  simp only [Dbl.le, decide_eq_false_iff_not, not_le] at a1 a2
  exact ⟨f1, f2, a1, b1, b2, a2⟩

theorem diff_small {lo hi : K} (h1 : |lo| ≤ 2 ^ 982) (h2 : |hi| ≤ 2 ^ 982) : rd (hi - lo) < 2 ^ 1024 := by
  have e : (2 : K) ^ 983 = 2 ^ 982 * 2 := by rw [← pow_succ]
  have : hi - lo ≤ 2 ^ 983 := by
    have a := abs_le.1 h1
    have b := abs_le.1 h2
    rw [e]
    linarith [a.1, b.2]
  exact (rd_le_of (isF64_two_pow 983) this).trans_lt (pow_lt_big (by norm_num))

/-- **C111**: if the constructor accepts, and keeps finite bounds, then on a linear scale everything stays finite.  Legal values are finite,
their entries are the finite numbers of C75, and legal; legal entries are finite, and are read as the finite numbers of C75, which are
legal. -/
theorem C111_finite_bounds {lower upper : Dbl K} {d : Option (Dbl K)} {h : FloatHP K} (hm : mkFloatX lg ex false lower upper d = .ok h)
    {lo hi : K} (hlo : h.lower = .fin lo) (hhi : h.upper = .fin hi) :
    (∀ x, legalValX h.lower h.upper x = true → ∃ y, x = .fin y ∧ toVecX lg false h.lower h.upper x = .fin (toVecFlt lo hi y) ∧
      legalVecX (toVecX lg false h.lower h.upper x) = true) ∧
    (∀ e, legalVecX e = true → ∃ y, e = .fin y ∧ toValX lg ex false h.lower h.upper e = .fin (toValFlt lo hi y) ∧
      legalValX h.lower h.upper (toValX lg ex false h.lower h.upper e) = true) := by
  obtain ⟨f1, f2, hlt, b1, b2, _⟩ := bounds_of hm hlo hhi
  have hd := diff_small b1 b2
  have big := pow_lt_big (K := K) (n := 982) (by norm_num)
  rw [hlo, hhi]
  constructor
  · intro x hx
    obtain ⟨y, rfl, h1, h2⟩ := legalValX_fin hx
    have e : toVecX lg false (.fin lo) (.fin hi) (.fin y) = .fin (toVecFlt lo hi y) := normalizeX_fin f1 f2 hlt hd h1 h2
    refine ⟨y, rfl, e, ?_⟩
    rw [e]
    have := C75_vector_in_unit f1 f2 hlt h1 h2
    simp [legalVecX, Dbl.le, this.1, this.2]
  · intro x hx
    obtain ⟨y, rfl, h1, h2⟩ := legalVecX_fin hx
    have e : toValX lg ex false (.fin lo) (.fin hi) (.fin y) = .fin (toValFlt lo hi y) :=
      clip_scaleX f1 ((neg_lt_neg big).trans_le (abs_le.1 b1).1) ((abs_le.1 b2).2.trans_lt big) hlt hd h1 h2
    refine ⟨y, rfl, e, ?_⟩
    rw [e]
    have := (C75_value_in_bounds f1 hlt y).1
    simp [legalValX, Dbl.le, this.1, this.2]

/-- **C111 is false of the code** for infinite bounds: a range from a number to infinity is accepted, its default value is infinity, and the
entry of the default value is NaN, which means "not set" in a vector. -/
theorem C111_infinite_bound_accepted {l : K} (h1 : -2 ^ 1024 < rd (l * 10 ^ 13)) (h2 : rd (l * 10 ^ 13) < 2 ^ 1024) :
    mkFloatX lg ex false (.fin l) .inf none = .ok ⟨.fin (round13 l), .inf, .inf, .nan⟩ := by
  have hh : (0 : K) < 2⁻¹ := by positivity
  have hv : toValX lg ex false (.fin (round13 l)) .inf (.fin (1 / 2)) = .inf := by
    simp [toValX, scaleX, Dbl.sub, Dbl.neg, Dbl.add, Dbl.mul, infTimes, clipX, Dbl.max, Dbl.min, Dbl.le]
  unfold mkFloatX
  simp only [Option.getD_none]
  rw [(round13X_fin h1 h2).1, round13X_inf, hv, round13X_inf]
  simp [Dbl.le, legalValX, toVecX, normalizeX, Dbl.sub, Dbl.neg, Dbl.add, Dbl.div]

/-- **C111 is false of the code** for infinite bounds: in a range from a number to infinity all finite values have the entry 0, so that no two
of them can be told apart, and every positive entry is read as infinity, the entry 0 as NaN. -/
theorem C111_infinite_bound_collapses {l : K} (hl : |l| ≤ 2 ^ 1022) :
    (∀ x, |x| ≤ 2 ^ 1022 → toVecX lg false (.fin l) .inf (.fin x) = .fin 0) ∧
    (∀ e : K, 0 < e → toValX lg ex false (.fin l) .inf (.fin e) = .inf) ∧ toValX lg ex false (.fin l) .inf (.fin 0) = .nan := by
  refine ⟨fun x hx => ?_, fun e he => ?_, ?_⟩
  · have : |x - l| ≤ 2 ^ 1023 := by
      have e : (2 : K) ^ 1023 = 2 ^ 1022 * 2 := by rw [← pow_succ]
      rw [e]
      calc |x - l| ≤ |x| + |l| := abs_sub _ _
        _ ≤ _ := by linarith
    simp only [toVecX, normalizeX, sub_fin, (ofExact_pow (by norm_num) this).1]
    simp [Dbl.sub, Dbl.neg, Dbl.add, Dbl.div]
  · simp [toValX, scaleX, Dbl.sub, Dbl.neg, Dbl.add, Dbl.mul, infTimes, clipX, Dbl.max, Dbl.min, Dbl.le, he, he.ne']
  · simp [toValX, scaleX, Dbl.sub, Dbl.neg, Dbl.add, Dbl.mul, infTimes, clipX, Dbl.max, Dbl.min, Dbl.le]

/-- A range that starts at minus infinity is refused unless a default value is given: the value in its middle would be infinity minus
infinity. -/
theorem C111_infinite_lower_refused (upper : Dbl K) : mkFloatX lg ex log .ninf upper none = .error .value := by
  have hh : (0 : K) < 2⁻¹ := by positivity
  unfold mkFloatX
  simp only [Option.getD_none, round13X_ninf]
  cases log with
  | true =>
    split
    · rfl
    · simp [Dbl.le]
  | false =>
    cases round13X upper with
    | fin u =>
      have hv : toValX lg ex false .ninf (.fin u) (.fin (1 / 2)) = .nan := by
        simp [toValX, scaleX, Dbl.sub, Dbl.neg, Dbl.add, Dbl.mul, infTimes, clipX, Dbl.max, Dbl.min]
      rw [hv, round13X_nan]
      simp [Dbl.le, legalValX]
    | inf =>
      have hv : toValX lg ex false .ninf .inf (.fin (1 / 2)) = .nan := by
        simp [toValX, scaleX, Dbl.sub, Dbl.neg, Dbl.add, Dbl.mul, infTimes, clipX, Dbl.max, Dbl.min]
      rw [hv, round13X_nan]
      simp [Dbl.le, legalValX]
    | ninf => simp [Dbl.le]
    | nan =>
      have hv : toValX lg ex false .ninf .nan (.fin (1 / 2)) = .nan := by
        simp [toValX, scaleX, Dbl.sub, Dbl.neg, Dbl.add, Dbl.mul, clipX, Dbl.max, Dbl.min]
      rw [hv, round13X_nan]
      simp [Dbl.le, legalValX]

/-- **C111 is false of the code** for infinite bounds: with a default value the whole real line is accepted, and the entry of the default
value is NaN. -/
theorem C111_both_infinite_accepted {d : K} (h1 : -2 ^ 1024 < rd (d * 10 ^ 13)) (h2 : rd (d * 10 ^ 13) < 2 ^ 1024) :
    mkFloatX lg ex false .ninf .inf (some (.fin d)) = .ok ⟨.ninf, .inf, .fin (round13 d), .nan⟩ := by
  unfold mkFloatX
  simp only [Option.getD_some, round13X_ninf, round13X_inf, (round13X_fin h1 h2).1]
  simp [Dbl.le, legalValX, toVecX, normalizeX, Dbl.sub, Dbl.neg, Dbl.add, Dbl.div]

/-- Both apply to the rationals: without default value the real line is refused, with the default value 0 it is accepted. -/
example : mkFloatX (K := Rat) id id false .ninf .inf none = .error .value ∧
    mkFloatX (K := Rat) id id false .ninf .inf (some (.fin 0)) = .ok ⟨.ninf, .inf, .fin (round13 0), .nan⟩ := by
  have e : rd ((0 : Rat) * 10 ^ 13) = 0 := by rw [zero_mul]; exact rd_zero
  exact ⟨C111_infinite_lower_refused _, C111_both_infinite_accepted (by rw [e]; norm_num) (by rw [e]; norm_num)⟩

/-- **C111 is false of the code** for large finite bounds: rounding to 13 places multiplies by `10 ^ 13`, so every bound of at least `2 ^ 981`
(about `2e295`) becomes infinite. -/
theorem C111_large_bound_becomes_infinite {x : K} (h : 2 ^ 981 ≤ x) : round13X (.fin x) = .inf := by
  refine round13X_big (le_rd_of (isF64_two_pow 1024) ?_)
  have e : (2 : K) ^ 1024 = 2 ^ 981 * 2 ^ 43 := by rw [← pow_add]
  rw [e]
  exact mul_le_mul h (by norm_num) (by positivity) ((by positivity : (0 : K) ≤ 2 ^ 981).trans h)

/-! ## Integers -/

/-- **C111**: what the constructor of integers accepts comes from finite arguments and has bounds in order that fit into 64 bits, positive on a
logarithmic scale. -/
theorem C111_int_accepted {a b : Arg K} {l u : Int} (h : mkIntX log a b = .ok (l, u)) :
    l < u ∧ -2 ^ 63 ≤ l ∧ u < 2 ^ 63 ∧ (log = true → 0 < l) ∧ keepInt a = .ok l ∧ keepInt b = .ok u := by
  unfold mkIntX at h
  cases ha : keepInt a with
  | error e => rw [ha] at h; cases h
  | ok l' =>
    cases hb : keepInt b with
    | error e => rw [ha, hb] at h; cases h
    | ok u' =>
      rw [ha, hb] at h
      simp only [i64] at h
      by_cases h1 : -2 ^ 63 ≤ l' ∧ l' < 2 ^ 63
      · by_cases h2 : -2 ^ 63 ≤ u' ∧ u' < 2 ^ 63
        · simp only [if_pos h1, if_pos h2] at h
          by_cases h3 : u' ≤ l'
          · rw [if_pos h3] at h
            cases h
          · rw [if_neg h3] at h
            by_cases h4 : (log && decide (l' ≤ 0)) = true
            · rw [if_pos h4] at h
              cases h
            · rw [if_neg h4] at h
              injection h with h
              injection h with e1 e2
              subst e1 e2
              refine ⟨by omega, h1.1, h2.2, fun hl => ?_, rfl, rfl⟩
              subst hl
              simpa using h4
        · simp only [if_pos h1, if_neg h2] at h
          cases h
      · simp only [if_neg h1] at h
        cases h

/-- **C111**: the constructor of integers refuses NaN with a `ValueError` and infinities with an `OverflowError`. -/
theorem C111_int_not_finite_refused (b : Arg K) :
    mkIntX log (.flt .nan) b = .error .value ∧ mkIntX log (.flt .inf) b = .error .overflow ∧ mkIntX log (.flt .ninf) b = .error .overflow ∧
      ∀ l, keepInt b = .ok l → mkIntX log b (.flt .nan) = .error .value ∧ mkIntX log b (.flt .inf) = .error .overflow ∧
        mkIntX log b (.flt .ninf) = .error .overflow := by
  refine ⟨rfl, rfl, rfl, fun l hb => ?_⟩
  unfold mkIntX
  rw [hb]
  exact ⟨rfl, rfl, rfl⟩

/-- **C111**: no infinity and no NaN is a legal value of an integer hyperparameter. -/
theorem C111_int_legal {l u : Int} {a : Dbl K} (h : legalIntX l u (.flt a) = .ok true) :
    ∃ x, a = .fin x ∧ rd (l : K) ≤ (rintK x : K) ∧ (rintK x : K) ≤ rd (u : K) := by
  cases a with
  | fin x =>
    simp only [legalIntX, Except.ok.injEq, decide_eq_true_eq] at h
    exact ⟨x, rfl, h.1, h.2.1⟩
  | inf => simp [legalIntX] at h
  | ninf => simp [legalIntX] at h
  | nan => simp [legalIntX] at h

/-- **C111**: bounds of at most 53 bits are kept as they are. -/
theorem C111_int_bounds_kept {n : Int} (h : |n| ≤ 2 ^ 53) : keepInt (K := K) (.int n) = .ok n := by
  obtain ⟨a, b⟩ := abs_le.1 h
  simp only [keepInt, rintInt]
  rw [if_pos ⟨by norm_num at *; omega, by norm_num at *; omega⟩, rd_int h, rintK_eq (n := n) (by simp)]

/-- **C111 is false of the code**: `legal_value` does not answer "no" for integers that do not fit into 64 bits but raises a `TypeError`. -/
theorem C111_int_huge_raises (l u : Int) {n : Int} (h : 2 ^ 64 ≤ n ∨ n < -2 ^ 63) : legalIntX (K := K) l u (.int n) = .error .type := by
  simp only [legalIntX]
  rw [if_neg (by omega)]

theorem rd_53_succ : rd (((2 ^ 53 + 1 : Int)) : K) = ((2 ^ 53 : Int) : K) := by
  have hr : rintK ((((2 ^ 53 + 1 : Int)) : K) / 2 ^ (1 : Int)) = 2 ^ 52 := by
    have : (((2 ^ 53 + 1 : Int)) : K) / 2 ^ (1 : Int) = ((2 ^ 52 : Int) : K) + 1 / 2 := by
      push_cast
      norm_num
    rw [this]
    unfold rintK
    have hf : ⌊((2 ^ 52 : Int) : K) + 1 / 2⌋ = 2 ^ 52 := by
      rw [Int.floor_eq_iff]
      constructor <;> linarith
    simp only [hf]
    norm_num
  have hu : ulp (((2 ^ 53 + 1 : Int)) : K) = 2 ^ (1 : Int) := by
    unfold ulp
    have : Int.log 2 |(((2 ^ 53 + 1 : Int)) : K)| = 53 := by
      rw [abs_of_pos (by positivity)]
      refine le_antisymm ?_ ?_
      · have : Int.log 2 (((2 ^ 53 + 1 : Int)) : K) < 54 := (Int.lt_zpow_iff_log_lt (by norm_num) (by positivity)).1 (by push_cast; norm_num)
        omega
      · exact (Int.zpow_le_iff_le_log (by norm_num) (by positivity)).1 (by push_cast; norm_num)
    rw [this]
    norm_num
  unfold rd
  rw [hu, hr]
  push_cast
  norm_num

/-- **C111 is false of the code**: larger bounds are changed silently. -/
theorem C111_int_bound_changed : keepInt (K := K) (.int (2 ^ 53 + 1)) = .ok (2 ^ 53) := by
  simp only [keepInt, rintInt]
  rw [if_pos (by norm_num), rd_53_succ, rintK_eq (n := 2 ^ 53) (by simp)]

end

/-! ## Logarithmic scales -/

section
variable {lg ex : ℝ → ℝ}

theorem log_pow_le {x : ℝ} {n : Nat} (h0 : 0 < x) (h : x ≤ 2 ^ n) : Real.log x ≤ n := by
  have h1 : Real.log x ≤ Real.log (2 ^ n) := Real.log_le_log h0 h
  rw [Real.log_pow] at h1
  have h2 : Real.log 2 ≤ 1 := by linarith [Real.log_two_lt_d9]
  have h3 : (0 : ℝ) ≤ n := by positivity
  nlinarith

theorem isF64_pos {x : ℝ} (hx : IsF64 x) (h : 0 < x) : (2 : ℝ) ^ (-1074 : Int) ≤ x := by
  obtain ⟨m, e, _, he, rfl⟩ := hx
  have h2 : (0 : ℝ) < 2 ^ e := by positivity
  have hm : (0 : ℝ) < m := (pos_iff_pos_of_mul_pos h).2 h2
  have hm' : (1 : ℝ) ≤ m := by exact_mod_cast (by exact_mod_cast hm : (0 : Int) < m)
  calc (2 : ℝ) ^ (-1074 : Int) ≤ 2 ^ e := zpow_le_zpow_right₀ (by norm_num) he
    _ ≤ (m : ℝ) * 2 ^ e := le_mul_of_one_le_left h2.le hm'

theorem log_of_double {x : ℝ} (hx : IsF64 x) (h : 0 < x) (hb : x ≤ 2 ^ 982) : |Real.log x| ≤ 1074 := by
  rw [abs_le]
  constructor
  · have h1 : Real.log x⁻¹ ≤ (1074 : Nat) := by
      refine log_pow_le (inv_pos.2 h) ?_
      rw [inv_le_comm₀ h (by positivity)]
      have := isF64_pos hx h
      rw [zpow_neg] at this
      exact_mod_cast this
    rw [Real.log_inv] at h1
    push_cast at h1
    linarith
  · have := log_pow_le h hb
    push_cast at this
    linarith

theorem tiny_le : (2 : ℝ) ^ (-400 : Int) ≤ 1 := by
  rw [← zpow_zero (2 : ℝ)]
  exact zpow_le_zpow_right₀ (by norm_num) (by norm_num)

theorem lg_of_double (ha : Accurate lg ex) {x : ℝ} (hx : IsF64 x) (h : 0 < x) (hb : x ≤ 2 ^ 982) : |lg x| ≤ 2 ^ 11 := by
  have h1 := log_of_double hx h hb
  have h2 := ha.log_near x h
  have h3 := tiny_le
  generalize (2 : ℝ) ^ (-400 : Int) = η at *
  have h4 : |lg x| ≤ |lg x - Real.log x| + |Real.log x| := by
    calc |lg x| = |(lg x - Real.log x) + Real.log x| := by congr 1; ring
      _ ≤ _ := abs_add_le _ _
  norm_num at *
  linarith

/-- **C111**: if the constructor accepts, and keeps finite bounds, then on a logarithmic scale everything stays finite, provided that the
logarithms of the bounds are different.  Legal values are finite, and their entries are finite and legal; legal entries are finite, and
are read as finite numbers, which are legal; all are those of C75. -/
theorem C111_finite_bounds_log_partial (ha : Accurate lg ex) {lower upper : Dbl ℝ} {d : Option (Dbl ℝ)} {h : FloatHP ℝ}
    (hm : mkFloatX lg ex true lower upper d = .ok h) {lo hi : ℝ} (hlo : h.lower = .fin lo) (hhi : h.upper = .fin hi) (hne : lg lo ≠ lg hi) :
    (∀ x, legalValX h.lower h.upper x = true → ∃ y, x = .fin y ∧ toVecX lg true h.lower h.upper x = .fin (toVecLog lg lo hi y) ∧
      legalVecX (toVecX lg true h.lower h.upper x) = true) ∧
    (∀ e, legalVecX e = true → ∃ y, e = .fin y ∧ toValX lg ex true h.lower h.upper e = .fin (toValLogFlt lg ex lo hi y) ∧
      legalValX h.lower h.upper (toValX lg ex true h.lower h.upper e) = true) := by
  obtain ⟨f1, f2, hlt, b1, b2, hp⟩ := bounds_of hm hlo hhi
  have hp := hp rfl
  have hp' := hp.trans hlt
  have big := pow_lt_big (K := ℝ) (n := 982) (by norm_num)
  have l1 := lg_of_double ha f1 hp (abs_le.1 b1).2
  have l2 := lg_of_double ha f2 hp' (abs_le.1 b2).2
  have g1 := ha.isF64 lo hp
  have g2 := ha.isF64 hi hp'
  have glt : lg lo < lg hi := lt_of_le_of_ne (ha.mono lo hi hp hlt.le) hne
  have hs : lg hi - lg lo ≤ 2 ^ 12 := by
    have a := abs_le.1 l1
    have b := abs_le.1 l2
    norm_num at *
    linarith [a.1, b.2]
  have hd : rd (lg hi - lg lo) ≤ 2 ^ 12 := rd_le_of (isF64_two_pow 12) hs
  have hd' : rd (lg hi - lg lo) < 2 ^ 1024 := hd.trans_lt (pow_lt_big (by norm_num))
  have elo : logX lg (.fin lo) = .fin (lg lo) := if_pos hp
  have ehi : logX lg (.fin hi) = .fin (lg hi) := if_pos hp'
  rw [hlo, hhi]
  constructor
  · intro x hx
    obtain ⟨y, rfl, h1, h2⟩ := legalValX_fin hx
    have hy : 0 < y := hp.trans_le h1
    have ey : logX lg (.fin y) = .fin (lg y) := if_pos hy
    have m1 := ha.mono lo y hp h1
    have m2 := ha.mono y hi hy h2
    have e : toVecX lg true (.fin lo) (.fin hi) (.fin y) = .fin (toVecLog lg lo hi y) := by
      unfold toVecX
      rw [if_pos rfl, elo, ehi, ey]
      exact normalizeX_fin g1 g2 glt hd' m1 m2
    refine ⟨y, rfl, e, ?_⟩
    rw [e]
    have := C75_vector_in_unit g1 g2 glt m1 m2
    have t : 0 ≤ toVecLog lg lo hi y ∧ toVecLog lg lo hi y ≤ 1 := this
    simp [legalVecX, Dbl.le, t.1, t.2]
  · intro x hx
    obtain ⟨y, rfl, h1, h2⟩ := legalVecX_fin hx
    have e : toValX lg ex true (.fin lo) (.fin hi) (.fin y) = .fin (toValLogFlt lg ex lo hi y) := by
      unfold toValX
      rw [if_pos rfl, elo, ehi]
      have nb : -2 ^ 1024 < lg lo := by
        have a := (abs_le.1 l1).1
        exact (neg_lt_neg (pow_lt_big (K := ℝ) (n := 11) (by norm_num))).trans_le a
      obtain ⟨a, b⟩ := scaleX_fin g1 nb glt hd' h1 h2
      have hs0 : 0 ≤ rd (lg hi - lg lo) := rd_nonneg (by linarith)
      have hm0 : 0 ≤ rd (y * rd (lg hi - lg lo)) := rd_nonneg (mul_nonneg h1 hs0)
      have hm1 : rd (y * rd (lg hi - lg lo)) ≤ rd (lg hi - lg lo) := rd_le_of (isF64_rd _) (mul_le_of_le_one_left hs0 h2)
      have hb : |rd (y * rd (lg hi - lg lo)) + lg lo| ≤ 2 ^ 13 := by
        have a := abs_le.1 l1
        rw [abs_le]
        norm_num at *
        constructor <;> linarith [a.1, a.2]
      rw [a, (ofExact_pow (by norm_num) hb).1]
      unfold toValLogFlt unsafeLog scale expX
      simp only
      split_ifs with hc
      · rw [clipX_inf]
        unfold clip
        rw [if_neg (not_lt.2 ((hlt.le.trans (abs_le.1 b2).2).trans (big.le.trans hc))), if_pos (((abs_le.1 b2).2.trans_lt big).trans_le hc)]
      · exact clipX_fin hlt.le
    refine ⟨y, rfl, e, ?_⟩
    rw [e]
    have := clip_mem (x := unsafeLog lg ex lo hi y) hlt.le
    have t : lo ≤ toValLogFlt lg ex lo hi y ∧ toValLogFlt lg ex lo hi y ≤ hi := this
    simp [legalValX, Dbl.le, t.1, t.2]

/-- On a logarithmic scale, if the logarithms of the bounds are equal, then the entry of every legal value is NaN. -/
theorem C111_equal_logs (ha : Accurate lg ex) {lo hi : ℝ} (h0 : 0 < lo) (he : lg lo = lg hi) {y : ℝ} (h1 : lo ≤ y) (h2 : y ≤ hi) :
    toVecX lg true (.fin lo) (.fin hi) (.fin y) = .nan := by
  have hy := h0.trans_le h1
  have ey : lg y = lg lo := le_antisymm ((ha.mono y hi hy h2).trans he.ge) (ha.mono lo y h0 h1)
  have elo : logX lg (.fin lo) = .fin (lg lo) := if_pos h0
  have ehi : logX lg (.fin hi) = .fin (lg hi) := if_pos (hy.trans_le h2)
  have ey' : logX lg (.fin y) = .fin (lg y) := if_pos hy
  unfold toVecX
  rw [if_pos rfl, elo, ehi, ey', ey, ← he]
  unfold normalizeX
  rw [if_neg (by
    rintro ⟨a, b⟩
    injection a with a
    injection b with b
    linarith), sub_fin, sub_self]
  have : ofExact (0 : ℝ) = .fin 0 := by
    have := (ofExact_pow (x := (0 : ℝ)) (n := 0) (by norm_num) (by norm_num)).1
    rwa [rd_zero] at this
  rw [this]
  simp [Dbl.div, infTimes]

/-- Doubles of size at least 4 are multiples of `2 ^ -50`. -/
theorem multiple_of_double {a : ℝ} (h : IsF64 a) (h4 : 4 ≤ a) : ∃ n : Int, a = n / 2 ^ 50 := by
  obtain ⟨m, e, hm, _, rfl⟩ := h
  rcases le_or_gt (-50) e with he | he
  · obtain ⟨k, hk⟩ := Int.eq_ofNat_of_zero_le (by omega : 0 ≤ e + 50)
    refine ⟨m * 2 ^ k, ?_⟩
    have : e = (k : Int) - 50 := by omega
    rw [this, zpow_sub₀ (by norm_num), zpow_natCast]
    push_cast
    rw [mul_div_assoc]
    norm_num
  · have h1 : (m : ℝ) ≤ 2 ^ 53 := by exact_mod_cast (abs_le.1 hm).2
    have h2 : (2 : ℝ) ^ e ≤ 2 ^ (-51 : Int) := zpow_le_zpow_right₀ (by norm_num) (by omega)
    have h3 : (0 : ℝ) < 2 ^ e := by positivity
    have h5 : (m : ℝ) * 2 ^ e ≤ 2 ^ 53 * 2 ^ (-51 : Int) := by
      calc (m : ℝ) * 2 ^ e ≤ 2 ^ 53 * 2 ^ e := mul_le_mul_of_nonneg_right h1 h3.le
        _ ≤ _ := mul_le_mul_of_nonneg_left h2 (by positivity)
    have h6 : (2 : ℝ) ^ 53 * 2 ^ (-51 : Int) = 4 := by norm_num
    refine ⟨2 ^ 52, ?_⟩
    have : (m : ℝ) * 2 ^ e = 4 := le_antisymm (h6 ▸ h5) h4
    rw [this]
    push_cast
    norm_num

theorem gap_of_doubles {a b : ℝ} (ha : IsF64 a) (hb : IsF64 b) (h4 : 4 ≤ a) (h : a < b) : a + 1 / 2 ^ 50 ≤ b := by
  obtain ⟨m, rfl⟩ := multiple_of_double ha h4
  obtain ⟨n, rfl⟩ := multiple_of_double hb (h4.trans h.le)
  have h1 : (m : ℝ) < n := by
    have := (div_lt_div_iff_of_pos_right (by positivity : (0 : ℝ) < 2 ^ 50)).1 h
    exact this
  have h2 : (m : ℝ) + 1 ≤ n := by exact_mod_cast (by exact_mod_cast h1 : m < n)
  rw [← add_div]
  exact div_le_div_of_nonneg_right h2 (by positivity)

/-- Decimals with 13 places up to 200 are kept by the constructor. -/
theorem round13_decimal_real {d : Int} (h0 : 0 ≤ d) (hd : d ≤ 2 * 10 ^ 15) : round13 (rd ((d : ℝ) / 10 ^ 13)) = rd ((d : ℝ) / 10 ^ 13) := by
  have hη : (2 : ℝ) ^ (-400 : Int) ≤ 1 / 2 ^ 100 := by
    have : (1 : ℝ) / 2 ^ 100 = 2 ^ (-100 : Int) := by
      rw [zpow_neg, one_div]
      norm_cast
    rw [this]
    exact zpow_le_zpow_right₀ (by norm_num) (by norm_num)
  have e1 := rd_err' ((d : ℝ) / 10 ^ 13)
  have e2 := rd_err' (rd ((d : ℝ) / 10 ^ 13) * 10 ^ 13)
  have hd0 : (0 : ℝ) ≤ d := by exact_mod_cast h0
  have hd1 : (d : ℝ) ≤ 2 * 10 ^ 15 := by exact_mod_cast hd
  have hq : (0 : ℝ) ≤ (d : ℝ) / 10 ^ 13 := by positivity
  have hr : 0 ≤ rd ((d : ℝ) / 10 ^ 13) := rd_nonneg hq
  rw [abs_of_nonneg hq] at e1
  rw [abs_of_nonneg (mul_nonneg hr (by positivity) : 0 ≤ rd ((d : ℝ) / 10 ^ 13) * 10 ^ 13)] at e2
  conv_lhs => unfold round13
  rw [rintK_eq (n := d) ?_]
  have hdd : (d : ℝ) = (d : ℝ) / 10 ^ 13 * 10 ^ 13 := by field_simp
  have hq1 : (d : ℝ) / 10 ^ 13 ≤ 200 := by
    rw [div_le_iff₀ (by positivity)]
    linarith
  generalize (2 : ℝ) ^ (-400 : Int) = η at *
  obtain ⟨a1, a2⟩ := abs_le.1 e1
  obtain ⟨b1, b2⟩ := abs_le.1 e2
  rw [show |rd (rd ((d : ℝ) / 10 ^ 13) * 10 ^ 13) - (d : ℝ)| = |rd (rd ((d : ℝ) / 10 ^ 13) * 10 ^ 13) - (d : ℝ) / 10 ^ 13 * 10 ^ 13| by rw [← hdd]]
  generalize rd (rd ((d : ℝ) / 10 ^ 13) * 10 ^ 13) = Y at *
  generalize rd ((d : ℝ) / 10 ^ 13) = r at *
  generalize (d : ℝ) / 10 ^ 13 = q at *
  rw [abs_lt]
  norm_num at *
  constructor <;> linarith

theorem round13_mono_real {x y : ℝ} (h : x ≤ y) : round13 x ≤ round13 y := by
  have hm : ∀ {x y : ℝ}, x ≤ y → rintK x ≤ rintK y := by
    intro x y h
    by_contra hc
    have hlt : rintK y + 1 ≤ rintK x := by omega
    have h1 := abs_le.1 (Num.rintK_dist x)
    have h2 := abs_le.1 (Num.rintK_dist y)
    have h3 : ((rintK y + 1 : Int) : ℝ) ≤ (rintK x : Int) := by exact_mod_cast hlt
    push_cast at h3
    have : x = y := by linarith
    rw [this] at hc
    exact hc le_rfl
  unfold round13
  refine rd_mono (div_le_div_of_nonneg_right ?_ (by norm_num))
  have := hm (rd_mono (mul_le_mul_of_nonneg_right h (by norm_num : (0 : ℝ) ≤ 10 ^ 13)))
  exact_mod_cast this

/-- The number `199.9999999999936 + k * 1e-13`. -/
noncomputable def near200 (k : Nat) : ℝ := rd (((1999999999999936 + k : Int) : ℝ) / 10 ^ 13)

theorem near200_bounds {k : Nat} (hk : k ≤ 64) :
    |near200 k - ((1999999999999936 + k : Int) : ℝ) / 10 ^ 13| ≤ 23 / 10 ^ 15 ∧ 199 ≤ near200 k ∧ near200 k ≤ 200 := by
  have hη : (2 : ℝ) ^ (-400 : Int) ≤ 1 / 2 ^ 100 := by
    have : (1 : ℝ) / 2 ^ 100 = 2 ^ (-100 : Int) := by
      rw [zpow_neg, one_div]
      norm_cast
    rw [this]
    exact zpow_le_zpow_right₀ (by norm_num) (by norm_num)
  have hk' : (k : ℝ) ≤ 64 := by exact_mod_cast hk
  have hk0 : (0 : ℝ) ≤ k := by positivity
  have q1 : ((1999999999999936 + k : Int) : ℝ) / 10 ^ 13 ≤ 200 := by
    rw [div_le_iff₀ (by positivity)]
    push_cast
    linarith
  have q2 : (199 : ℝ) ≤ ((1999999999999936 + k : Int) : ℝ) / 10 ^ 13 := by
    rw [le_div_iff₀ (by positivity)]
    push_cast
    linarith
  refine ⟨?_, ?_, ?_⟩
  · refine (rd_err' _).trans ?_
    rw [abs_of_nonneg (by linarith)]
    generalize (2 : ℝ) ^ (-400 : Int) = η at *
    norm_num at *
    linarith
  · have := rd_mono q2
    rwa [show (199 : ℝ) = ((199 : Int) : ℝ) by norm_num, rd_int (by norm_num)] at this
  · have := rd_mono q1
    rwa [show (200 : ℝ) = ((200 : Int) : ℝ) by norm_num, rd_int (by norm_num)] at this

theorem log_near200 {x : ℝ} (h1 : 199 ≤ x) (h2 : x ≤ 200) : 4.8 ≤ Real.log x ∧ Real.log x ≤ 5.6 := by
  have a : Real.log (2 ^ 7) ≤ Real.log x := Real.log_le_log (by norm_num) (by linarith)
  have b : Real.log x ≤ Real.log (2 ^ 8) := Real.log_le_log (by linarith) (by linarith)
  rw [Real.log_pow] at a b
  push_cast at a b
  have := Real.log_two_gt_d9
  have := Real.log_two_lt_d9
  constructor <;> linarith

theorem lg_near200 (ha : Accurate lg ex) {x : ℝ} (h1 : 199 ≤ x) (h2 : x ≤ 200) :
    |lg x - Real.log x| ≤ 5 / 10 ^ 15 ∧ 4 ≤ lg x := by
  obtain ⟨a, b⟩ := log_near200 h1 h2
  have h := ha.log_near x (by linarith)
  have hη : (2 : ℝ) ^ (-400 : Int) ≤ 1 / 2 ^ 100 := by
    have : (1 : ℝ) / 2 ^ 100 = 2 ^ (-100 : Int) := by
      rw [zpow_neg, one_div]
      norm_cast
    rw [this]
    exact zpow_le_zpow_right₀ (by norm_num) (by norm_num)
  rw [abs_of_nonneg (by linarith : 0 ≤ Real.log x)] at h
  generalize (2 : ℝ) ^ (-400 : Int) = η at *
  have h' : |lg x - Real.log x| ≤ 5 / 10 ^ 15 := by
    norm_num at *
    linarith
  refine ⟨h', ?_⟩
  have := (abs_le.1 h').1
  norm_num at *
  linarith

/-- Every accurate logarithm gives two neighbouring decimals of 13 places near 200 the same logarithm. -/
theorem exists_equal_logs (ha : Accurate lg ex) : ∃ k < 64, lg (near200 k) = lg (near200 (k + 1)) := by
  by_contra hc
  push Not at hc
  have step : ∀ k ≤ 64, lg (near200 0) + k / 2 ^ 50 ≤ lg (near200 k) := by
    intro k hk
    induction k with
    | zero => simp
    | succ k ih =>
      have ih := ih (by omega)
      obtain ⟨_, a1, a2⟩ := near200_bounds (k := k) (by omega)
      obtain ⟨_, b1, b2⟩ := near200_bounds hk
      have hle : near200 k ≤ near200 (k + 1) := by
        refine rd_mono (div_le_div_of_nonneg_right ?_ (by positivity))
        push_cast
        linarith
      have hlt : lg (near200 k) < lg (near200 (k + 1)) := lt_of_le_of_ne (ha.mono _ _ (by linarith) hle) (hc k (by omega))
      have := gap_of_doubles (ha.isF64 _ (by linarith)) (ha.isF64 _ (by linarith)) (lg_near200 ha a1 a2).2 hlt
      push_cast
      rw [add_div]
      linarith
  have h64 := step 64 le_rfl
  obtain ⟨e0, a1, a2⟩ := near200_bounds (k := 0) (by omega)
  obtain ⟨e64, b1, b2⟩ := near200_bounds (k := 64) le_rfl
  have l0 := (abs_le.1 (lg_near200 ha a1 a2).1).1
  have l64 := (abs_le.1 (lg_near200 ha b1 b2).1).2
  have hd : Real.log (near200 64) - Real.log (near200 0) ≤ near200 64 / near200 0 - 1 := by
    rw [← Real.log_div (by linarith) (by linarith)]
    exact Real.log_le_sub_one_of_pos (div_pos (by linarith) (by linarith))
  have hq : near200 64 / near200 0 - 1 ≤ 33 / 10 ^ 15 := by
    rw [sub_le_iff_le_add, div_le_iff₀ (by linarith)]
    have u := (abs_le.1 e64).2
    have v := (abs_le.1 e0).1
    push_cast at u v
    norm_num at *
    linarith
  norm_num at *
  linarith

/-- **C111 is false of the code** for narrow ranges on a logarithmic scale, whatever accurate logarithm is used: there are bounds with 13
decimal places near 200 that the constructor accepts and keeps, and the entries of the default value and of all legal values are NaN, which
means "not set" in a vector. -/
theorem C111_log_entries_nan (ha : Accurate lg ex) : ∃ lo hi d, lo < hi ∧
    mkFloatX lg ex true (.fin lo) (.fin hi) none = .ok ⟨.fin lo, .fin hi, d, .nan⟩ ∧
    ∀ x, legalValX (.fin lo) (.fin hi) x = true → toVecX lg true (.fin lo) (.fin hi) x = .nan := by
  obtain ⟨k, hk, he⟩ := exists_equal_logs ha
  obtain ⟨e0, a1, a2⟩ := near200_bounds (k := k) (by omega)
  obtain ⟨e1, b1, b2⟩ := near200_bounds (k := k + 1) (by omega)
  have hlt : near200 k < near200 (k + 1) := by
    have u := (abs_le.1 e0).2
    have v := (abs_le.1 e1).1
    push_cast at u v
    norm_num at *
    linarith
  have kept : ∀ j ≤ 64, round13X (.fin (near200 j)) = .fin (near200 j) := by
    intro j hj
    obtain ⟨_, c1, c2⟩ := near200_bounds hj
    have hb : |near200 j * 10 ^ 13| ≤ 2 ^ 60 := by
      rw [abs_of_nonneg (mul_nonneg (by linarith) (by positivity))]
      norm_num
      linarith
    have hb' := abs_le.1 (ofExact_pow (by norm_num) hb).2
    have big := pow_lt_big (K := ℝ) (n := 60) (by norm_num)
    rw [(round13X_fin ((neg_lt_neg big).trans_le hb'.1) (hb'.2.trans_lt big)).1]
    exact congrArg _ (round13_decimal_real (by omega) (by omega))
  have r13 : ∀ j ≤ 64, round13 (near200 j) = near200 j := fun j hj => round13_decimal_real (by omega) (by omega)
  have hle : ∀ x, legalValX (.fin (near200 k)) (.fin (near200 (k + 1))) x = true →
      toVecX lg true (.fin (near200 k)) (.fin (near200 (k + 1))) x = .nan := by
    intro x hx
    obtain ⟨y, rfl, h1, h2⟩ := legalValX_fin hx
    exact C111_equal_logs ha (by linarith) he h1 h2
  -- the default value
  obtain ⟨c, hc, hc1, hc2⟩ : ∃ c, toValX lg ex true (.fin (near200 k)) (.fin (near200 (k + 1))) (.fin (1 / 2)) = .fin c ∧
      near200 k ≤ c ∧ c ≤ near200 (k + 1) := by
    have zero : ofExact (0 : ℝ) = .fin 0 := by
      have := (ofExact_pow (x := (0 : ℝ)) (n := 0) (by norm_num) (by norm_num)).1
      rwa [rd_zero] at this
    have elo : logX lg (.fin (near200 k)) = .fin (lg (near200 k)) := if_pos (by linarith)
    have ehi : logX lg (.fin (near200 (k + 1))) = .fin (lg (near200 (k + 1))) := if_pos (by linarith)
    have hb : |0 + lg (near200 k)| ≤ 2 ^ 4 := by
      have u := abs_le.1 (lg_near200 ha a1 a2).1
      obtain ⟨v, w⟩ := log_near200 a1 a2
      rw [abs_le]
      norm_num at *
      constructor <;> linarith [u.1, u.2]
    have hs : scaleX (.fin (1 / 2)) (logX lg (.fin (near200 k))) (logX lg (.fin (near200 (k + 1)))) = .fin (rd (0 + lg (near200 k))) := by
      unfold scaleX
      rw [elo, ehi, ← he, sub_fin, sub_self, zero]
      simp only [Dbl.mul, mul_zero, zero, Dbl.add]
      exact (ofExact_pow (by norm_num) hb).1
    unfold toValX
    rw [if_pos rfl, hs]
    simp only [expX]
    split_ifs
    · exact ⟨_, clipX_inf, hlt.le, le_rfl⟩
    · exact ⟨_, clipX_fin hlt.le, clip_mem hlt.le⟩
  have hd1 : near200 k ≤ round13 c := by
    rw [← r13 k (by omega)]
    exact round13_mono_real hc1
  have hd2 : round13 c ≤ near200 (k + 1) := by
    rw [← r13 (k + 1) (by omega)]
    exact round13_mono_real hc2
  have hd : round13X (.fin c) = .fin (round13 c) := by
    have hb : |c * 10 ^ 13| ≤ 2 ^ 60 := by
      rw [abs_of_nonneg (mul_nonneg (by linarith) (by positivity))]
      norm_num
      linarith
    have hb' := abs_le.1 (ofExact_pow (by norm_num) hb).2
    have big := pow_lt_big (K := ℝ) (n := 60) (by norm_num)
    exact (round13X_fin ((neg_lt_neg big).trans_le hb'.1) (hb'.2.trans_lt big)).1
  have hl : legalValX (.fin (near200 k)) (.fin (near200 (k + 1))) (.fin (round13 c)) = true := by
    simp [legalValX, Dbl.le, hd1, hd2]
  refine ⟨near200 k, near200 (k + 1), .fin (round13 c), hlt, ?_, hle⟩
  unfold mkFloatX
  simp only [Option.getD_none]
  rw [kept k (by omega), kept (k + 1) (by omega), hc, hd, if_neg (by simp [Dbl.le, hlt]), if_neg (by simp [Dbl.le]; linarith), hl, hle _ hl]
  rfl

end

/-! ## Examples -/

namespace ExSp

section
variable {K : Type} [Field K] [LinearOrder K] [IsStrictOrderedRing K] [FloorRing K]

theorem kept (n : Int) (h : |n| ≤ 10) : round13X (.fin (n : K)) = .fin (n : K) := by
  have e : (n : K) * 10 ^ 13 = ((n * 10 ^ 13 : Int) : K) := by push_cast; norm_num
  have hb : |n * 10 ^ 13| ≤ 2 ^ 53 := by
    rw [abs_mul]
    norm_num
    omega
  have hr : rd ((n : K) * 10 ^ 13) = ((n * 10 ^ 13 : Int) : K) := by rw [e, rd_int hb]
  have hs : |(n : K) * 10 ^ 13| ≤ 2 ^ 53 := by
    rw [e]
    exact_mod_cast hb
  have hb' := abs_le.1 (ofExact_pow (by norm_num) hs).2
  have big := pow_lt_big (K := K) (n := 53) (by norm_num)
  rw [(round13X_fin ((neg_lt_neg big).trans_le hb'.1) (hb'.2.trans_lt big)).1]
  congr 1
  unfold round13
  rw [hr, rintK_eq (n := n * 10 ^ 13) (by simp)]
  push_cast
  rw [mul_div_assoc, show (10000000000000 : K) / 10 ^ 13 = 1 by norm_num, mul_one]
  exact rd_int (h.trans (by norm_num))

/-- The range from -3 to 10 with the default value 2 is accepted, and keeps its bounds. -/
example (lg ex : K → K) : ∃ h, mkFloatX lg ex false (.fin (-3)) (.fin 10) (some (.fin 2)) = .ok h ∧ h.lower = .fin (-3) ∧ h.upper = .fin 10 := by
  have a := kept (K := K) (-3) (by norm_num)
  have b := kept (K := K) 10 (by norm_num)
  have c := kept (K := K) 2 (by norm_num)
  push_cast at a b c
  unfold mkFloatX
  simp only [a, b, c, Option.getD_some]
  rw [if_neg (by simp [Dbl.le]; norm_num), if_neg (by simp), if_neg (by simp [legalValX, Dbl.le]; norm_num)]
  exact ⟨_, rfl, rfl, rfl⟩

/-- So is the integer range from 1 to 10, and 5 is legal in it. -/
example : mkIntX (K := K) true (.int 1) (.int 10) = .ok (1, 10) ∧ legalIntX (K := K) 1 10 (.int 5) = .ok true ∧
    legalIntX (K := K) 1 10 (.flt .inf) = .ok false ∧ legalIntX (K := K) 1 10 (.int (10 ^ 30)) = .error .type := by
  have a := C111_int_bounds_kept (K := K) (n := 1) (by norm_num)
  have b := C111_int_bounds_kept (K := K) (n := 10) (by norm_num)
  refine ⟨?_, ?_, rfl, C111_int_huge_raises 1 10 (by norm_num)⟩
  · unfold mkIntX
    rw [a, b]
    rfl
  · simp only [legalIntX]
    rw [if_pos (by norm_num), rd_int (by norm_num), rd_int (by norm_num), rd_int (by norm_num)]
    norm_num

/-- `10 ^ 300` is an infinite upper bound. -/
example (lg ex : K → K) : mkFloatX lg ex false (.fin 0) (.fin (10 ^ 300)) none = .ok ⟨.fin 0, .inf, .inf, .nan⟩ := by
  have a := kept (K := K) 0 (by norm_num)
  push_cast at a
  have h : (2 : K) ^ 981 ≤ 10 ^ 300 := by
    calc (2 : K) ^ 981 = (2 ^ 10) ^ 98 * 2 := by rw [← pow_mul, ← pow_succ]
      _ ≤ (1024 : K) ^ 98 * 2 := by norm_num
      _ ≤ (10 ^ 3 * (1024 / 1000)) ^ 98 * 2 := by norm_num
      _ = 10 ^ 294 * ((1024 / 1000) ^ 98 * 2) := by rw [mul_pow, ← pow_mul]; ring
      _ ≤ 10 ^ 294 * 10 ^ 6 := mul_le_mul_of_nonneg_left (by norm_num) (by positivity)
      _ = 10 ^ 300 := by rw [← pow_add]
  have b := C111_large_bound_becomes_infinite h
  have e := C111_infinite_bound_accepted (lg := lg) (ex := ex) (l := (0 : K)) (by rw [zero_mul, rd_zero]; exact neg_lt_zero.2 big_pos)
    (by rw [zero_mul, rd_zero]; exact big_pos)
  have r : round13 (0 : K) = 0 := by
    have := (round13X_fin (x := (0 : K)) (by rw [zero_mul, rd_zero]; exact neg_lt_zero.2 big_pos)
      (by rw [zero_mul, rd_zero]; exact big_pos)).1
    rw [a] at this
    injection this with this
    exact this.symm
  rw [r] at e
  rw [← e]
  unfold mkFloatX
  simp only [b, round13X_inf]

end

/-- On a logarithmic scale, with correctly rounded logarithms, the range from 1 to 8 is accepted, keeps its bounds, and the logarithms of the
bounds are different. -/
example : ∃ h, mkFloatX (fun x => rd (Real.log x)) (fun y => rd (Real.exp y)) true (.fin 1) (.fin 8) (some (.fin 2)) = .ok h ∧
    h.lower = .fin 1 ∧ h.upper = .fin 8 ∧ rd (Real.log 1) ≠ rd (Real.log 8) := by
  have a := kept (K := ℝ) 1 (by norm_num)
  have b := kept (K := ℝ) 8 (by norm_num)
  have c := kept (K := ℝ) 2 (by norm_num)
  push_cast at a b c
  unfold mkFloatX
  simp only [a, b, c, Option.getD_some]
  rw [if_neg (by simp [Dbl.le]), if_neg (by simp [Dbl.le]), if_neg (by simp [legalValX, Dbl.le]; norm_num)]
  refine ⟨_, rfl, rfl, rfl, ?_⟩
  have h8 : (1 : ℝ) ≤ Real.log 8 := by
    rw [show (8 : ℝ) = 2 ^ 3 by norm_num, Real.log_pow]
    push_cast
    linarith [Real.log_two_gt_d9]
  have := rd_mono h8
  rw [rd_one] at this
  rw [Real.log_one, rd_zero]
  linarith

end ExSp

/-! ## The theorems applied to these ranges -/

namespace ExSp

variable {K : Type} [Field K] [LinearOrder K] [IsStrictOrderedRing K] [FloorRing K]

theorem accepted (lg ex : K → K) : ∃ h, mkFloatX lg ex false (.fin (-3)) (.fin 10) (some (.fin 2)) = .ok h ∧ h.lower = .fin (-3) ∧ h.upper = .fin 10 := by
  have a := kept (K := K) (-3) (by norm_num)
  have b := kept (K := K) 10 (by norm_num)
  have c := kept (K := K) 2 (by norm_num)
  push_cast at a b c
  unfold mkFloatX
  simp only [a, b, c, Option.getD_some]
  rw [if_neg (by simp [Dbl.le]; norm_num), if_neg (by simp), if_neg (by simp [legalValX, Dbl.le]; norm_num)]
  exact ⟨_, rfl, rfl, rfl⟩

example (lg ex : K → K) : ∃ h, mkFloatX lg ex false (.fin (-3)) (.fin 10) (some (.fin 2)) = .ok h ∧ h.default ≠ .nan ∧
    ∀ x, legalValX h.lower h.upper x = true → ∃ y, x = .fin y := by
  obtain ⟨h, hm, h1, h2⟩ := accepted lg ex
  refine ⟨h, hm, (C111_accepted hm).2.2.2.2.2.2.1, fun x hx => ?_⟩
  obtain ⟨y, e, -⟩ := (C111_finite_bounds hm h1 h2).1 x hx
  exact ⟨y, e⟩

example (lg ex : K → K) := C111_nan_refused (lg := lg) (ex := ex) (log := false) (lower := .fin 0) (upper := .nan) (d := none) (.inr (.inl rfl))
example (lg ex : K → K) := (C111_infinite_bound_collapses (lg := lg) (ex := ex) (l := 0) (by norm_num)).1 5 (by
  have : (1 : K) ≤ 2 ^ 1019 := one_le_pow₀ (by norm_num)
  calc |(5 : K)| = 5 := by norm_num
    _ ≤ 8 * 1 := by norm_num
    _ ≤ 8 * 2 ^ 1019 := mul_le_mul_of_nonneg_left this (by norm_num)
    _ = 2 ^ 1022 := by rw [show (8 : K) = 2 ^ 3 by norm_num, ← pow_add])
example := C111_int_accepted (K := K) (log := true) (a := .int 1) (b := .int 10) (l := 1) (u := 10) (by
  have a := C111_int_bounds_kept (K := K) (n := 1) (by norm_num)
  have b := C111_int_bounds_kept (K := K) (n := 10) (by norm_num)
  unfold mkIntX
  rw [a, b]
  rfl)

example (lg ex : ℝ → ℝ) (ha : Accurate lg ex) := C111_log_entries_nan ha

/-- With correctly rounded logarithms the entries of the range from 1 to 8 are finite. -/
example : ∃ h, mkFloatX (fun x => rd (Real.log x)) (fun y => rd (Real.exp y)) true (.fin 1) (.fin 8) (some (.fin 2)) = .ok h ∧
    ∀ x, legalValX h.lower h.upper x = true → ∃ y, x = .fin y := by
  have a := kept (K := ℝ) 1 (by norm_num)
  have b := kept (K := ℝ) 8 (by norm_num)
  have c := kept (K := ℝ) 2 (by norm_num)
  push_cast at a b c
  have hm : ∃ e, mkFloatX (fun x => rd (Real.log x)) (fun y => rd (Real.exp y)) true (.fin 1) (.fin 8) (some (.fin 2)) =
      .ok ⟨.fin 1, .fin 8, .fin 2, e⟩ := by
    unfold mkFloatX
    simp only [a, b, c, Option.getD_some]
    rw [if_neg (by simp [Dbl.le]), if_neg (by simp [Dbl.le]), if_neg (by simp [legalValX, Dbl.le]; norm_num)]
    exact ⟨_, rfl⟩
  obtain ⟨e, hm⟩ := hm
  refine ⟨_, hm, fun x hx => ?_⟩
  have h8 : (1 : ℝ) ≤ Real.log 8 := by
    rw [show (8 : ℝ) = 2 ^ 3 by norm_num, Real.log_pow]
    push_cast
    linarith [Real.log_two_gt_d9]
  have h8 := rd_mono h8
  rw [rd_one] at h8
  obtain ⟨y, e, -⟩ := (C111_finite_bounds_log_partial accurate_rd hm (lo := 1) (hi := 8) rfl rfl (by
    simp only [Real.log_one, rd_zero]
    linarith)).1 x hx
  exact ⟨y, e⟩

end ExSp

end Verif.F64
