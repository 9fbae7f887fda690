import Verif.Lemmas.Eq
import Mathlib.Algebra.Order.Field.Rat
import Mathlib.Tactic.Linarith
import Mathlib.Tactic.FieldSimp
import Mathlib.Tactic.Ring

/-!
# Values and their vector representation
-/

set_option autoImplicit false

namespace Verif

/-! ## Numbers -/

theorem normalize_lt {l u a b : Rat} (h : l < u) : normalizeQ a l u < normalizeQ b l u ↔ a < b := by
  unfold normalizeQ
  split
  · rfl
  · have : 0 < u - l := by linarith
    rw [div_lt_div_iff_of_pos_right this]
    constructor <;> intro h <;> linarith

theorem normalize_inj {l u a b : Rat} (h : l < u) : normalizeQ a l u = normalizeQ b l u ↔ a = b := by
  constructor
  · intro he
    rcases lt_trichotomy a b with h1 | h1 | h1
    · exact absurd he (ne_of_lt ((normalize_lt h).2 h1))
    · exact h1
    · exact absurd he.symm (ne_of_lt ((normalize_lt h).2 h1))
  · rintro rfl; rfl

theorem normalize_eq {l u a : Rat} : normalizeQ a l u = (a - l) / (u - l) := by
  unfold normalizeQ
  split
  · rename_i h; obtain ⟨rfl, rfl⟩ := h; simp
  · rfl

theorem scale_normalize {l u a : Rat} (h : l < u) : scaleQ (normalizeQ a l u) l u = a := by
  rw [normalize_eq, scaleQ]
  have : u - l ≠ 0 := by linarith
  field_simp
  ring

theorem normalize_scale {l u x : Rat} (h : l < u) : normalizeQ (scaleQ x l u) l u = x := by
  rw [normalize_eq, scaleQ]
  have : u - l ≠ 0 := by linarith
  field_simp
  ring

theorem rint_int (n : Int) : rint (n : Rat) = n := by
  unfold rint
  simp

theorem rabs_nonneg (q : Rat) : 0 ≤ rabs q := by
  unfold rabs; split <;> linarith

theorem rabs_zero : rabs 0 = 0 := by simp [rabs]

theorem closeToInt_int (n : Int) : closeToInt (n : Rat) = true := by
  unfold closeToInt
  simp only [rint_int, sub_self, rabs_zero, decide_eq_true_eq]
  have := rabs_nonneg (n : Rat)
  have h1 : (0:Rat) ≤ ATOL := by norm_num [ATOL]
  have h2 : (0:Rat) ≤ RTOL := by norm_num [RTOL]
  have := mul_nonneg h2 this
  linarith

theorem closeToInt_nat (n : Nat) : closeToInt (n : Rat) = true := by
  have := closeToInt_int (n : Int)
  simpa using this

theorem rint_nat (n : Nat) : rint (n : Rat) = (n : Int) := by
  have := rint_int (n : Int)
  simpa using this

/-! ## Sequences of choices -/

theorem seqIndex_some {cs : List Val} {v : Val} {i : Nat} (h : seqIndex cs v = some i) :
    ∃ w, cs[i]? = some w ∧ w.pyEq v = true := by
  unfold seqIndex at h
  rw [List.findIdx?_eq_some_iff_getElem] at h
  obtain ⟨h1, h2, _⟩ := h
  exact ⟨cs[i], List.getElem?_eq_getElem h1, h2⟩

theorem seqIndex_isSome {cs : List Val} {v : Val} (h : v.pyIn cs = true) :
    ∃ i, seqIndex cs v = some i := by
  unfold Val.pyIn at h
  unfold seqIndex
  cases hi : cs.findIdx? (fun x => x.pyEq v) with
  | some i => exact ⟨i, rfl⟩
  | none =>
    rw [List.findIdx?_eq_none_iff] at hi
    rw [List.any_eq_true] at h
    obtain ⟨x, hx, hxe⟩ := h
    exact absurd hxe (by simp [hi x hx])

theorem seqIndex_eq_iff {cs : List Val} {a b : Val} {i j : Nat} (ha : seqIndex cs a = some i)
    (hb : seqIndex cs b = some j) : a.pyEq b = true ↔ i = j := by
  constructor
  · intro h
    have : seqIndex cs a = seqIndex cs b := by
      unfold seqIndex
      simp only [Val.pyEq_congr_right h]
    rw [this, hb] at ha
    exact (Option.some.inj ha).symm
  · rintro rfl
    obtain ⟨w, h1, h2⟩ := seqIndex_some ha
    obtain ⟨w', h3, h4⟩ := seqIndex_some hb
    rw [h1] at h3
    cases h3
    exact Val.pyEq_trans (Val.pyEq_symm h2) h4

/-- In a list of distinct choices the `i`-th one has index `i`. -/
theorem seqIndex_getElem : ∀ {cs : List Val} {i : Nat} {w : Val}, distinctVals cs = true →
    cs[i]? = some w → seqIndex cs w = some i
  | [], i, w, _, h => by simp at h
  | x :: xs, 0, w, _, h => by
    simp at h; subst h
    simp [seqIndex, List.findIdx?_cons, Val.pyEq_refl]
  | x :: xs, i + 1, w, hd, h => by
    simp only [distinctVals, Bool.and_eq_true, Bool.not_eq_true'] at hd
    simp only [List.getElem?_cons_succ] at h
    have ih := seqIndex_getElem hd.2 h
    have hx : x.pyEq w = false := by
      cases hxw : x.pyEq w with
      | false => rfl
      | true =>
        have hin : x.pyIn xs = true := by
          unfold Val.pyIn
          rw [List.any_eq_true]
          exact ⟨w, List.mem_of_getElem? h, Val.pyEq_symm hxw⟩
        rw [hd.1] at hin; cases hin
    unfold seqIndex at ih ⊢
    rw [List.findIdx?_cons]
    simp [hx, ih]

/-! ## Legal values have a vector value that determines them -/

theorem legal_toVec {k : Kind} {v : Val} (h : k.legalValue v = true) : ∃ x, k.toVec v = some x := by
  cases k with
  | cat cs => obtain ⟨i, hi⟩ := seqIndex_isSome h; exact ⟨i, by simp [Kind.toVec, hi]⟩
  | ord cs => obtain ⟨i, hi⟩ := seqIndex_isSome h; exact ⟨i, by simp [Kind.toVec, hi]⟩
  | const c => exact ⟨_, rfl⟩
  | int l u =>
    cases hn : v.num? with
    | none => simp [Kind.legalValue, hn] at h
    | some q => exact ⟨_, by simp [Kind.toVec, hn]; rfl⟩
  | flt l u =>
    cases hn : v.num? with
    | none => simp [Kind.legalValue, hn] at h
    | some q => exact ⟨_, by simp [Kind.toVec, hn]; rfl⟩

/-- The bounds of a numerical hyperparameter are in order. -/
theorem HP.wf_int {h : HP} {l u : Int} (hw : h.wf = true) (hk : h.kind = .int l u) : (l : Rat) < u := by
  unfold HP.wf at hw
  rw [hk] at hw
  simp only [Bool.and_eq_true, decide_eq_true_eq] at hw
  exact_mod_cast hw.1.1

theorem HP.wf_flt {h : HP} {l u : Rat} (hw : h.wf = true) (hk : h.kind = .flt l u) : l < u := by
  unfold HP.wf at hw
  rw [hk] at hw
  simp only [Bool.and_eq_true, decide_eq_true_eq] at hw
  exact hw.1.1.1

theorem num_pyEq {a b : Val} {p q : Rat} (ha : a.num? = some p) (hb : b.num? = some q) :
    a.pyEq b = true ↔ p = q := by
  rw [Val.pyEq_iff]
  constructor
  · rintro (⟨s, rfl, rfl⟩ | ⟨r, h1, h2⟩)
    · simp [Val.num?] at ha
    · rw [ha] at h1; rw [hb] at h2; cases h1; cases h2; rfl
  · rintro rfl; exact .inr ⟨p, ha, hb⟩

theorem num_lt {a b : Val} {p q : Rat} (ha : a.num? = some p) (hb : b.num? = some q) :
    a.lt? b = some (decide (p < q)) := by
  cases a <;> cases b <;> simp [Val.num?] at ha hb <;> subst ha <;> subst hb <;>
    simp [Val.lt?, Val.num?]

/-- Legal values are equal exactly when their vector values are. -/
theorem toVec_inj {h : HP} (hw : h.wf = true) {a b : Val} {x y : Rat}
    (la : h.kind.legalValue a = true) (lb : h.kind.legalValue b = true)
    (ha : h.kind.toVec a = some x) (hb : h.kind.toVec b = some y) : a.pyEq b = true ↔ x = y := by
  cases hk : h.kind with
  | cat cs =>
    rw [hk] at ha hb
    simp only [Kind.toVec, Option.map_eq_some_iff] at ha hb
    obtain ⟨i, hi, rfl⟩ := ha
    obtain ⟨j, hj, rfl⟩ := hb
    rw [seqIndex_eq_iff hi hj]; norm_cast
  | ord cs =>
    rw [hk] at ha hb
    simp only [Kind.toVec, Option.map_eq_some_iff] at ha hb
    obtain ⟨i, hi, rfl⟩ := ha
    obtain ⟨j, hj, rfl⟩ := hb
    rw [seqIndex_eq_iff hi hj]; norm_cast
  | const c =>
    rw [hk] at ha hb la lb
    simp only [Kind.legalValue] at la lb
    simp only [Kind.toVec, la, lb, if_true, Option.some.injEq] at ha hb
    subst ha; subst hb
    simp [Val.pyEq_trans la (Val.pyEq_symm lb)]
  | int l u =>
    have hlu := HP.wf_int hw hk
    rw [hk] at ha hb
    simp only [Kind.toVec, Option.map_eq_some_iff] at ha hb
    obtain ⟨p, hp, rfl⟩ := ha
    obtain ⟨q, hq, rfl⟩ := hb
    rw [num_pyEq hp hq, normalize_inj hlu]
  | flt l u =>
    have hlu := HP.wf_flt hw hk
    rw [hk] at ha hb
    simp only [Kind.toVec, Option.map_eq_some_iff] at ha hb
    obtain ⟨p, hp, rfl⟩ := ha
    obtain ⟨q, hq, rfl⟩ := hb
    rw [num_pyEq hp hq, normalize_inj hlu]

/-- For orderable hyperparameters other than ordinals the order of the values is the order of the vector
values. -/
theorem toVec_lt {h : HP} (hw : h.wf = true) (ho : h.kind.orderable = true)
    (hn : h.kind.isOrdinal = false) {a b : Val} {x y : Rat}
    (ha : h.kind.toVec a = some x) (hb : h.kind.toVec b = some y) :
    a.lt? b = some (decide (x < y)) := by
  cases hk : h.kind with
  | cat cs => simp [hk, Kind.orderable] at ho
  | ord cs => simp [hk, Kind.isOrdinal] at hn
  | const c => simp [hk, Kind.orderable] at ho
  | int l u =>
    have hlu := HP.wf_int hw hk
    rw [hk] at ha hb
    simp only [Kind.toVec, Option.map_eq_some_iff] at ha hb
    obtain ⟨p, hp, rfl⟩ := ha
    obtain ⟨q, hq, rfl⟩ := hb
    rw [num_lt hp hq]; simp only [normalize_lt hlu]
  | flt l u =>
    have hlu := HP.wf_flt hw hk
    rw [hk] at ha hb
    simp only [Kind.toVec, Option.map_eq_some_iff] at ha hb
    obtain ⟨p, hp, rfl⟩ := ha
    obtain ⟨q, hq, rfl⟩ := hb
    rw [num_lt hp hq]; simp only [normalize_lt hlu]

/-- Membership in a tuple of legal values, on values and on vector values. -/
theorem toVec_mem {h : HP} (hw : h.wf = true) {v : Val} {x : Rat} {vs : List Val}
    (lv : h.kind.legalValue v = true) (hv : h.kind.toVec v = some x)
    (hvs : ∀ w ∈ vs, h.kind.legalValue w = true) :
    v.pyIn vs = true ↔ x ∈ vs.filterMap h.kind.toVec := by
  unfold Val.pyIn
  rw [List.any_eq_true, List.mem_filterMap]
  constructor
  · rintro ⟨w, hw', he⟩
    obtain ⟨y, hy⟩ := legal_toVec (hvs w hw')
    have := (toVec_inj hw (hvs w hw') lv hy hv).1 he
    exact ⟨w, hw', by rw [hy, this]⟩
  · rintro ⟨w, hw', he⟩
    exact ⟨w, hw', (toVec_inj hw (hvs w hw') lv he hv).2 rfl⟩

end Verif
