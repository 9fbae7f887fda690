import Verif.Lemmas.Round
import Verif.Lemmas.EvalVal
import Verif.Lemmas.Numeric

/-!
# Values and their vector representation: C29, C30, C51, C52
-/

set_option autoImplicit false

namespace Verif
open Verif.Spec

/-! ## C52: which values are legal -/

/-- **C52**, integer range: an integer is legal exactly if it lies between the bounds, a string never. -/
theorem C52_integer (l u n : Int) (s : String) :
    ((Kind.int l u).legalValue (.int n) = true ↔ l ≤ n ∧ n ≤ u) ∧ (Kind.int l u).legalValue (.str s) = false := by
  constructor
  · simp [Kind.legalValue, Val.num?, rint_int, closeToInt_int]
  · rfl

/-- **C52**, integer range and a float: legal only within the tolerance `1e-13 + 1e-5 * |n|` of an integer `n` between the
bounds, and legal whenever it is also closer than one half to that integer. -/
theorem C52_integer_float (l u : Int) (q : Rat) :
    ((Kind.int l u).legalValue (.flt q) = true →
      ∃ n : Int, (l ≤ n ∧ n ≤ u) ∧ |q - n| ≤ 1 / 10 ^ 13 + 1 / 10 ^ 5 * |(n : Rat)|) ∧
    ((∃ n : Int, (l ≤ n ∧ n ≤ u) ∧ |q - n| ≤ 1 / 10 ^ 13 + 1 / 10 ^ 5 * |(n : Rat)| ∧ |q - n| < 1 / 2) →
      (Kind.int l u).legalValue (.flt q) = true) := by
  have ha : ∀ r : Rat, rabs r = |r| := by
    intro r
    unfold rabs
    split
    · rw [abs_of_neg ‹_›]
    · rw [abs_of_nonneg (not_lt.1 ‹_›)]
  have hc : ∀ r : Rat, closeToInt r = true ↔ |r - rint r| ≤ 1 / 10 ^ 13 + 1 / 10 ^ 5 * |(rint r : Rat)| := by
    intro r
    unfold closeToInt
    simp only [decide_eq_true_eq, ha, ATOL, RTOL]
    norm_num
  constructor
  · intro h
    simp only [Kind.legalValue, Val.num?, Bool.and_eq_true, decide_eq_true_eq, hc] at h
    exact ⟨rint q, h.1, h.2⟩
  · rintro ⟨n, hn, h1, h2⟩
    have : rint q = n := rint_unique (by rw [ha]; exact h2)
    simp only [Kind.legalValue, Val.num?, Bool.and_eq_true, decide_eq_true_eq, hc, this]
    exact ⟨hn, h1⟩

/-- **C52**, float range: a number is legal exactly if it lies between the bounds, a string never. -/
theorem C52_float (l u : Rat) (q : Rat) (n : Int) (s : String) :
    ((Kind.flt l u).legalValue (.flt q) = true ↔ l ≤ q ∧ q ≤ u) ∧
    ((Kind.flt l u).legalValue (.int n) = true ↔ l ≤ n ∧ (n : Rat) ≤ u) ∧
    (Kind.flt l u).legalValue (.str s) = false := by
  refine ⟨?_, ?_, rfl⟩ <;> simp [Kind.legalValue, Val.num?]

/-- **C52**, choices: legal values are exactly those equal (as Python objects, so `1` equals `1.0`) to a choice; of a constant
only its value. -/
theorem C52_choices (cs : List Val) (c v : Val) :
    ((Kind.cat cs).legalValue v = true ↔ ∃ w ∈ cs, w.pyEq v = true) ∧
    ((Kind.ord cs).legalValue v = true ↔ ∃ w ∈ cs, w.pyEq v = true) ∧
    ((Kind.const c).legalValue v = true ↔ v.pyEq c = true) := by
  simp [Kind.legalValue, Val.pyIn]

example : (Kind.int 1 10).legalValue (.int 10) = true ∧ (Kind.int 1 10).legalValue (.int 11) = false ∧
    (Kind.int 1 10).legalValue (.flt (5 / 2)) = false ∧ (Kind.flt 0 1).legalValue (.flt 1) = true := by
  decide +kernel

/-! ## C29: round trip -/

/-- **C29**: every legal value has a vector representation, that vector is legal, and decoding it gives the value back
(equal in Python's sense, so that `2.0` comes back as `2` from an integer range).  For integer ranges the value has to be
integral: legal floats next to an integer come back rounded, see `C22_near_integer_reads_back_rounded`. -/
theorem C29_round_trip {h : HP} (hw : h.wf = true) {v : Val} (hl : h.kind.legalValue v = true)
    (he : ExactInt h.kind v) :
    ∃ x w, h.kind.toVec v = some x ∧ h.kind.legalVec x = true ∧ h.kind.toVal x = some w ∧ w.pyEq v = true := by
  obtain ⟨x, hx⟩ := legal_toVec hl
  obtain ⟨w, h1, h2⟩ := toVal_toVec hw hl hx he
  exact ⟨x, w, hx, toVec_legal hw hl hx he, h1, h2⟩

/-- **C29**, integers on the log scale. -/
theorem C29_round_trip_log_integer {l u n : Int} (h0 : 0 < l) (hlu : l < u) (h1 : l ≤ n) (h2 : n ≤ u) :
    Num.toValLogInt l u (Num.toVecLog l u n) = n ∧ Num.legalVecLogInt l u (Num.toVecLog l u n) := by
  have hl : (0 : ℝ) < l := by exact_mod_cast h0
  have hlu' : (l : ℝ) < u := by exact_mod_cast hlu
  have hn : (0 : ℝ) < n := by exact_mod_cast h0.trans_le h1
  have e : Num.unsafeLog l u (Num.toVecLog l u n) = n := by
    unfold Num.unsafeLog Num.toVecLog
    rw [Num.scale_normalize (Real.log_lt_log hl hlu'), Real.exp_log hn]
  unfold Num.toValLogInt Num.legalVecLogInt Num.legalIntK
  rw [e, Num.rintK_int]
  exact ⟨rfl, h1, h2, Num.closeToIntK_int n⟩

example : Num.toValLogInt 1 100 (Num.toVecLog 1 100 10) = 10 := by
  have := (C29_round_trip_log_integer (l := 1) (u := 100) (n := 10) (by decide) (by decide) (by decide) (by decide)).1
  exact_mod_cast this

/-! ## C30: legal vectors decode to legal values -/

/-- **C30**, integer ranges: every legal entry decodes to an integer between the bounds. -/
theorem C30_integer {l u : Int} (h : l < u) {x : Rat} (hx : (Kind.int l u).legalVec x = true) :
    ∃ n : Int, (Kind.int l u).toVal x = some (.int n) ∧ l ≤ n ∧ n ≤ u := by
  simp only [Kind.legalVec, Bool.and_eq_true, decide_eq_true_eq] at hx
  have h' : (0 : Rat) < (u : Rat) - l := by
    have : (l : Rat) < u := by exact_mod_cast h
    linarith
  refine ⟨_, rfl, ?_, ?_⟩
  · rw [← rint_int l]
    refine rint_mono ?_
    rw [rint_int]
    unfold scaleQ
    have := mul_nonneg hx.2.1 h'.le
    linarith
  · rw [← rint_int u]
    refine rint_mono ?_
    rw [rint_int]
    unfold scaleQ
    have := mul_le_mul_of_nonneg_right hx.2.2 h'.le
    linarith

/-- Rounding goes to a nearest integer. -/
theorem rint_nearest (q : Rat) (m : Int) : |q - rint q| ≤ |q - m| := by
  have h1 := floor_le' q
  have h2 := lt_floor_add_one' q
  rcases lt_or_ge q.floor m with h | h
  · have hm : ((q.floor : Int) : Rat) + 1 ≤ m := by exact_mod_cast h
    have e : |q - (m : Rat)| = m - q := by rw [abs_sub_comm, abs_of_nonneg (by linarith)]
    rw [e, abs_le]
    unfold rint
    simp only
    split_ifs <;> push_cast at * <;> constructor <;> linarith
  · have hm : (m : Rat) ≤ ((q.floor : Int) : Rat) := by exact_mod_cast h
    have e : |q - (m : Rat)| = q - m := abs_of_nonneg (by linarith)
    rw [e, abs_le]
    unfold rint
    simp only
    split_ifs <;> push_cast at * <;> constructor <;> linarith

/-- **C30**, integer ranges, the other way round: encoding the decoded value of a legal entry gives the entry back up to the
tolerance `1e-13 + 1e-5`, and exactly if the entry is one of the points `k / (upper - lower)`. -/
theorem C30_integer_back {l u : Int} (h : l < u) {x : Rat} (hx : (Kind.int l u).legalVec x = true) :
    ∃ v y, (Kind.int l u).toVal x = some v ∧ (Kind.int l u).toVec v = some y ∧
      |x - y| ≤ 1 / 10 ^ 13 + 1 / 10 ^ 5 ∧ ((∃ k : Int, x = k / (u - l)) → y = x) := by
  simp only [Kind.legalVec, Bool.and_eq_true, decide_eq_true_eq] at hx
  have hd : (0 : Rat) < (u : Rat) - l := by
    have : (l : Rat) < u := by exact_mod_cast h
    linarith
  have hd1 : (1 : Rat) ≤ (u : Rat) - l := by
    have : l + 1 ≤ u := h
    have : (l : Rat) + 1 ≤ u := by exact_mod_cast this
    linarith
  refine ⟨_, _, rfl, rfl, ?_, ?_⟩
  · show |x - normalizeQ (rint (scaleQ x l u) : Rat) l u| ≤ _
    rw [normalize_eq]
    have hc : |x * (u - l) - rint (x * (u - l))| ≤ 1 / 10 ^ 13 + 1 / 10 ^ 5 * |(rint (x * (u - l)) : Rat)| := by
      have ha : ∀ r : Rat, rabs r = |r| := by
        intro r
        unfold rabs
        split
        · rw [abs_of_neg ‹_›]
        · rw [abs_of_nonneg (not_lt.1 ‹_›)]
      have := hx.1
      unfold closeToInt at this
      simp only [decide_eq_true_eq, ha, ATOL, RTOL] at this
      norm_num at this ⊢
      exact this
    have hr0 : 0 ≤ rint (x * (u - l)) := by
      have := rint_mono (mul_nonneg hx.2.1 hd.le)
      rwa [show rint (0 : Rat) = 0 from rint_int 0] at this
    have hr1 : rint (x * (u - l)) ≤ u - l := by
      have := rint_mono (mul_le_mul_of_nonneg_right hx.2.2 hd.le)
      rw [one_mul] at this
      have e : rint ((u : Rat) - l) = u - l := by
        rw [← Int.cast_sub, rint_int]
      rwa [e] at this
    have hr2 : |(rint (x * (u - l)) : Rat)| ≤ u - l := by
      rw [abs_of_nonneg (by exact_mod_cast hr0)]
      have : ((rint (x * (u - l)) : Int) : Rat) ≤ ((u - l : Int) : Rat) := by exact_mod_cast hr1
      push_cast at this
      exact this
    have hn := rint_nearest (scaleQ x l u) (rint (x * (u - l)) + l)
    have e1 : scaleQ x l u - ((rint (x * (u - l)) + l : Int) : Rat) = x * (u - l) - rint (x * (u - l)) := by
      unfold scaleQ; push_cast; ring
    rw [e1] at hn
    have e2 : x - ((rint (scaleQ x l u) : Rat) - l) / (u - l) = (scaleQ x l u - rint (scaleQ x l u)) / (u - l) := by
      unfold scaleQ
      field_simp
      ring
    rw [e2, abs_div, abs_of_pos hd, div_le_iff₀ hd]
    calc |scaleQ x l u - rint (scaleQ x l u)| ≤ 1 / 10 ^ 13 + 1 / 10 ^ 5 * |(rint (x * (u - l)) : Rat)| := hn.trans hc
      _ ≤ 1 / 10 ^ 13 + 1 / 10 ^ 5 * ((u : Rat) - l) := by linarith
      _ ≤ (1 / 10 ^ 13 + 1 / 10 ^ 5) * ((u : Rat) - l) := by nlinarith
  · rintro ⟨k, rfl⟩
    have e : scaleQ ((k : Rat) / (u - l)) l u = ((k + l : Int) : Rat) := by
      unfold scaleQ
      rw [div_mul_cancel₀ _ hd.ne']
      push_cast; ring
    show normalizeQ (rint (scaleQ ((k : Rat) / (u - l)) l u) : Rat) l u = _
    rw [e, rint_int, normalize_eq]
    push_cast
    ring

example : (Kind.int 1 10).legalVec (1 / 3) = true ∧ (Kind.int 1 10).toVal (1 / 3) = some (.int 4) ∧
    (Kind.int 1 10).toVec (.int 4) = some (1 / 3) := by decide +kernel

/-- **C30**, integer ranges on the log scale: every legal entry decodes to an integer between the bounds. -/
theorem C30_log_integer {l u : Int} {x : ℝ} (hx : Num.legalVecLogInt l u x) :
    l ≤ Num.toValLogInt l u x ∧ Num.toValLogInt l u x ≤ u := ⟨hx.1, hx.2.1⟩

/-- **C30**, float ranges: every legal entry decodes to a number between the bounds, and encoding it gives the entry back. -/
theorem C30_float {l u : Rat} (h : l < u) {x : Rat} (hx : (Kind.flt l u).legalVec x = true) :
    ∃ q : Rat, (Kind.flt l u).toVal x = some (.flt q) ∧ (l ≤ q ∧ q ≤ u) ∧ (Kind.flt l u).toVec (.flt q) = some x := by
  simp only [Kind.legalVec, Bool.and_eq_true, decide_eq_true_eq] at hx
  have hd : (0 : Rat) < u - l := by linarith
  have h1 : l ≤ scaleQ x l u := by
    unfold scaleQ
    have := mul_nonneg hx.1 hd.le
    linarith
  have h2 : scaleQ x l u ≤ u := by
    unfold scaleQ
    have := mul_le_mul_of_nonneg_right hx.2 hd.le
    linarith
  refine ⟨scaleQ x l u, ?_, ⟨h1, h2⟩, ?_⟩
  · simp only [Kind.toVal, clipQ, if_neg (not_lt.2 h1), if_neg (not_lt.2 h2)]
  · simp only [Kind.toVec, Val.num?, Option.map_some, normalize_scale h]

example : (Kind.flt 1 3).legalVec (1 / 4) = true ∧ (Kind.flt 1 3).toVal (1 / 4) = some (.flt (3 / 2)) := by decide +kernel

/-- **C30**, choices (partial: exact integers only; see the counterexample for legal entries that are merely close to one).
Every legal integer entry of a categorical or ordinal hyperparameter decodes to the choice at that position, which is legal
and encodes to the entry. -/
theorem C30_choices_partial {h : HP} (hw : h.wf = true) {cs : List Val} (hk : h.kind = .cat cs ∨ h.kind = .ord cs) {n : Int}
    (hx : h.kind.legalVec n = true) :
    ∃ v, h.kind.toVal n = some v ∧ cs[n.toNat]? = some v ∧ h.kind.legalValue v = true ∧ h.kind.toVec v = some (n : Rat) := by
  have hd := (HP.wf_distinct hw hk).2
  have key : (0 : Rat) ≤ n → (n : Rat) < cs.length → ∃ v, Kind.pyIndex cs n = some v ∧ cs[n.toNat]? = some v ∧
      v.pyIn cs = true ∧ (seqIndex cs v).map (fun i : Nat => (i : Rat)) = some (n : Rat) := by
    intro h0 h1
    have h0' : 0 ≤ n := by exact_mod_cast h0
    have h1' : n.toNat < cs.length := by
      have : n < (cs.length : Int) := by exact_mod_cast h1
      omega
    have hget : cs[n.toNat]? = some cs[n.toNat] := List.getElem?_eq_getElem h1'
    refine ⟨cs[n.toNat], by rw [Kind.pyIndex, if_pos h0', hget], hget, ?_, ?_⟩
    · unfold Val.pyIn
      rw [List.any_eq_true]
      exact ⟨_, List.getElem_mem h1', Val.pyEq_refl _⟩
    · rw [seqIndex_getElem hd hget, Option.map_some]
      congr 1
      rw [← Int.cast_natCast, Int.toNat_of_nonneg h0']
  rcases hk with hk | hk <;> rw [hk] at hx ⊢ <;>
    simp only [Kind.legalVec, Bool.and_eq_true, decide_eq_true_eq] at hx <;>
    simp only [Kind.toVal, Kind.legalValue, Kind.toVec, closeToInt_int, if_true, rint_int] <;>
    exact key hx.1.1 hx.1.2

/-- The restriction is needed, for every categorical and ordinal hyperparameter: the entry `len - 1e-5` passes
`legal_vector`, but converting it to a value fails, because it is rounded to the position after the last choice. -/
theorem C30_choices_rounded_beyond_end (cs : List Val) (h : cs ≠ []) :
    ∃ x : Rat, (Kind.cat cs).legalVec x = true ∧ (Kind.cat cs).toVal x = none ∧
      (Kind.ord cs).legalVec x = true ∧ (Kind.ord cs).toVal x = none := by
  have hlen : 1 ≤ cs.length := by
    cases cs with
    | nil => exact absurd rfl h
    | cons => simp
  have hl : (1 : Rat) ≤ cs.length := by exact_mod_cast hlen
  have hr : rint ((cs.length : Rat) - 1 / 100000) = (cs.length : Int) := by
    refine rint_unique ?_
    have : ((cs.length : Rat) - 1 / 100000 - ((cs.length : Int) : Rat)) = - (1 / 100000) := by push_cast; ring
    rw [this]
    norm_num [rabs]
  have hc : closeToInt ((cs.length : Rat) - 1 / 100000) = true := by
    unfold closeToInt
    have : ((cs.length : Rat) - 1 / 100000 - ((cs.length : Int) : Rat)) = - (1 / 100000) := by push_cast; ring
    simp only [hr, this, decide_eq_true_eq]
    have e1 : rabs (-(1 / 100000)) = 1 / 100000 := by norm_num [rabs]
    have e2 : rabs (((cs.length : Int) : Rat)) = cs.length := by
      unfold rabs
      rw [if_neg (by push_cast; linarith)]
      push_cast; rfl
    rw [e1, e2]
    unfold ATOL RTOL
    linarith
  have hv : Kind.pyIndex cs (cs.length : Int) = none := by
    rw [Kind.pyIndex, if_pos (by omega)]
    simp
  have hlegal : (decide (0 ≤ (cs.length : Rat) - 1 / 100000) && decide ((cs.length : Rat) - 1 / 100000 < cs.length) &&
      closeToInt ((cs.length : Rat) - 1 / 100000)) = true := by
    rw [hc]
    simp only [Bool.and_true, Bool.and_eq_true, decide_eq_true_eq]
    constructor <;> linarith
  exact ⟨(cs.length : Rat) - 1 / 100000, hlegal, by simp only [Kind.toVal, hc, if_true, hr, hv], hlegal,
    by simp only [Kind.toVal, hc, if_true, hr, hv]⟩

/-- **C30**, constants: the only legal entry is 1, which decodes to the constant. -/
theorem C30_constant (c : Val) (x : Rat) :
    ((Kind.const c).legalVec x = true ↔ x = 1) ∧ (Kind.const c).toVal x = some c ∧ (Kind.const c).toVec c = some 1 := by
  simp [Kind.legalVec, Kind.toVal, Kind.toVec, Val.pyEq_refl]

/-! ## C51: the two legality checks for vectors -/

section
variable {K : Type} [Field K] [LinearOrder K] [IsStrictOrderedRing K] [FloorRing K]

/-- **C51**, integer ranges (partial: only exact grid points, or ranges starting at zero).  The check for arrays and the
check for a single entry both accept every point `k / (upper - lower)`. -/
theorem C51_grid_points_partial {l u : Int} (h : l < u) {k : Int} (h0 : 0 ≤ k) (h1 : k ≤ u - l) :
    Num.legalVecArray l u ((k : K) / ((u : K) - l)) ∧ Num.legalVecSingle l u ((k : K) / ((u : K) - l)) := by
  have hd : (0 : K) < (u : K) - l := by
    have : (l : K) < u := by exact_mod_cast h
    linarith
  have e : (k : K) / ((u : K) - l) * ((u : K) - l) = k := div_mul_cancel₀ _ hd.ne'
  have hk0 : (0 : K) ≤ k := by exact_mod_cast h0
  have hk1 : (k : K) ≤ u - l := by
    have : (k : K) ≤ ((u - l : Int) : K) := by exact_mod_cast h1
    push_cast at this
    exact this
  refine ⟨?_, ?_, div_nonneg hk0 hd.le, (div_le_one hd).2 hk1⟩
  · unfold Num.legalVecArray Num.scale
    rw [e, show (k : K) + (l : K) = ((k + l : Int) : K) by push_cast; rfl]
    unfold Num.legalIntK
    rw [Num.rintK_int]
    exact ⟨by omega, by omega, Num.closeToIntK_int _⟩
  · rw [e]
    exact Num.closeToIntK_int _

/-- **C51**, ranges with lower bound zero (partial): for entries of `[0, 1]` the two checks agree. -/
theorem C51_lower_zero_partial {u : Int} (h : 0 < u) {x : K} (h0 : 0 ≤ x) (h1 : x ≤ 1) :
    Num.legalVecArray 0 u x ↔ Num.legalVecSingle 0 u x := by
  have hu : (0 : K) < u := by exact_mod_cast h
  have e : Num.scale x ((0 : Int) : K) u = x * ((u : K) - (0 : Int)) := by unfold Num.scale; push_cast; ring
  have hm : (0 : Int) ≤ Num.rintK (x * ((u : K) - (0 : Int))) ∧ Num.rintK (x * ((u : K) - (0 : Int))) ≤ u := by
    apply Num.rintK_mem
    · push_cast
      rw [sub_zero]
      exact mul_nonneg h0 hu.le
    · push_cast
      rw [sub_zero]
      have := mul_le_mul_of_nonneg_right h1 hu.le
      linarith
  unfold Num.legalVecArray Num.legalVecSingle Num.legalIntK
  rw [e]
  exact ⟨fun h => ⟨h.2.2, h0, h1⟩, fun h => ⟨hm.1, hm.2, h.1⟩⟩

end

theorem rintK_of_near {q : ℚ} {n : Int} (h : |q - n| < 1 / 2) : Num.rintK q = n := by
  have h1 := Num.rintK_dist q
  rw [abs_lt] at h
  rw [abs_le] at h1
  have h2 : ((Num.rintK q - n : Int) : ℚ) < 1 ∧ (-1 : ℚ) < ((Num.rintK q - n : Int) : ℚ) := by
    push_cast
    constructor <;> linarith
  have h3 : Num.rintK q - n < 1 := by exact_mod_cast h2.1
  have h4 : -1 < Num.rintK q - n := by exact_mod_cast h2.2
  omega

/-- In general the two checks disagree, in both directions: for the range 10..20 the entry `-1e-9` is legal in an array but
not alone; for the range -1000000..0 the entry 0.9999996 is legal alone but not in an array.  The tolerance is relative
to the value in one case and to the position in the range in the other. -/
theorem C51_checks_disagree :
    (Num.legalVecArray 10 20 (-1 / 10 ^ 9 : ℚ) ∧ ¬ Num.legalVecSingle 10 20 (-1 / 10 ^ 9 : ℚ)) ∧
    (Num.legalVecSingle (-1000000) 0 (9999996 / 10 ^ 7 : ℚ) ∧
      ¬ Num.legalVecArray (-1000000) 0 (9999996 / 10 ^ 7 : ℚ)) := by
  have r1 : Num.rintK (10 - 1 / 10 ^ 8 : ℚ) = 10 := rintK_of_near (by norm_num [abs_lt])
  have r2 : Num.rintK (9999996 / 10 : ℚ) = 1000000 := rintK_of_near (by norm_num [abs_lt])
  have r3 : Num.rintK (-4 / 10 : ℚ) = 0 := rintK_of_near (by norm_num [abs_lt])
  refine ⟨⟨?_, ?_⟩, ?_, ?_⟩
  · unfold Num.legalVecArray Num.legalIntK Num.closeToIntK
    rw [show Num.scale (-1 / 10 ^ 9 : ℚ) ((10 : Int) : ℚ) ((20 : Int) : ℚ) = 10 - 1 / 10 ^ 8 by norm_num [Num.scale], r1]
    norm_num [abs_le]
  · rintro ⟨_, h, _⟩
    norm_num at h
  · unfold Num.legalVecSingle Num.closeToIntK
    rw [show (9999996 / 10 ^ 7 : ℚ) * (((0 : Int) : ℚ) - ((-1000000 : Int) : ℚ)) = 9999996 / 10 by norm_num, r2]
    norm_num [abs_le]
  · unfold Num.legalVecArray Num.legalIntK Num.closeToIntK
    rw [show Num.scale (9999996 / 10 ^ 7 : ℚ) ((-1000000 : Int) : ℚ) ((0 : Int) : ℚ) = -4 / 10 by
      norm_num [Num.scale], r3]
    norm_num [abs_le]

/-! ## The theorems applied to concrete cases -/

example := C29_round_trip (h := ⟨"i", .int 1 10, .int 4⟩) (by decide +kernel) (v := .int 7) (by decide +kernel) (fun _ _ _ => ⟨7, rfl⟩)
example := C30_integer (l := 1) (u := 10) (by decide) (x := 1 / 3) (by decide +kernel)
example := C30_integer_back (l := 1) (u := 10) (by decide) (x := 1 / 3) (by decide +kernel)
example := C30_log_integer (l := 2) (u := 9) (C29_round_trip_log_integer (l := 2) (u := 9) (n := 4) (by decide) (by decide) (by decide) (by decide)).2
example := C30_float (l := -1) (u := 3) (by decide) (x := 1 / 4) (by decide +kernel)
example := C30_choices_partial (h := ⟨"c", .cat [.str "a", .str "b"], .str "a"⟩) (by decide +kernel) (.inl rfl) (n := 1) (by decide +kernel)
example := C30_choices_rounded_beyond_end [.str "a", .str "b"] (by simp)
example := C51_lower_zero_partial (K := ℚ) (u := 7) (by decide) (x := 3 / 7) (by norm_num) (by norm_num)

end Verif
