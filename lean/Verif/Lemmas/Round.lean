import Verif.Lemmas.EvalVal
import Verif.Model.Space

/-!
# Rounding
-/

set_option autoImplicit false

namespace Verif
open Verif.Spec

theorem floor_le' (q : Rat) : ((q.floor : Int) : Rat) ≤ q := Rat.floor_le q

theorem lt_floor_add_one' (q : Rat) : q < ((q.floor : Int) : Rat) + 1 := by
  have := Rat.lt_floor_add_one q
  push_cast at this
  exact this

theorem rint_cases (q : Rat) : rint q = q.floor ∨ rint q = q.floor + 1 := by
  unfold rint
  simp only
  split
  · exact .inl rfl
  · split
    · exact .inr rfl
    · split
      · exact .inl rfl
      · exact .inr rfl

theorem floor_mono' {a b : Rat} (h : a ≤ b) : a.floor ≤ b.floor :=
  Rat.le_floor_iff.2 (le_trans (floor_le' a) h)

theorem rint_mono {a b : Rat} (h : a ≤ b) : rint a ≤ rint b := by
  have hf := floor_mono' h
  rcases lt_or_eq_of_le hf with hlt | heq
  · have h1 := rint_cases a
    have h2 := rint_cases b
    omega
  · unfold rint
    simp only [heq]
    have : a - (b.floor : Rat) ≤ b - (b.floor : Rat) := by linarith
    split_ifs <;> first | omega | (exfalso; linarith)

/-- The rounded value is within one half. -/
theorem rint_near (q : Rat) : rabs (q - (rint q : Rat)) ≤ 1 / 2 := by
  have h1 := floor_le' q
  have h2 := lt_floor_add_one' q
  unfold rint rabs
  simp only
  split_ifs <;> push_cast at * <;> linarith

theorem rint_unique {q : Rat} {n : Int} (h : rabs (q - (n : Rat)) < 1 / 2) : rint q = n := by
  have h1 := rint_near q
  have : rabs ((rint q : Rat) - (n : Rat)) < 1 := by
    unfold rabs at *
    split_ifs at * <;> linarith
  have h2 : ((rint q - n : Int) : Rat) < 1 ∧ (-1 : Rat) < ((rint q - n : Int) : Rat) := by
    unfold rabs at this
    push_cast
    split_ifs at this <;> constructor <;> linarith
  have h3 : rint q - n < 1 := by exact_mod_cast h2.1
  have h4 : -1 < rint q - n := by exact_mod_cast h2.2
  omega

theorem roundPlaces_mono {a b : Rat} (h : a ≤ b) : roundPlaces a ≤ roundPlaces b := by
  unfold roundPlaces
  have h1 : rint (a * 10000000000000) ≤ rint (b * 10000000000000) := rint_mono (by linarith)
  have h2 : (rint (a * 10000000000000) : Rat) ≤ (rint (b * 10000000000000) : Rat) := by exact_mod_cast h1
  linarith

theorem roundPlaces_idem (q : Rat) : roundPlaces (roundPlaces q) = roundPlaces q := by
  unfold roundPlaces
  rw [div_mul_cancel₀ _ (by norm_num), rint_int]

/-- Rounding changes a number by at most half a unit in the last place. -/
theorem roundPlaces_near (q : Rat) : rabs (q - roundPlaces q) ≤ 1 / 20000000000000 := by
  have h := rint_near (q * 10000000000000)
  unfold roundPlaces rabs at *
  split_ifs at * <;> linarith

/-! ## Constructors -/

theorem HP.wf_flt_round {h : HP} {l u : Rat} (hw : h.wf = true) (hk : h.kind = .flt l u) :
    roundPlaces l = l ∧ roundPlaces u = u := by
  unfold HP.wf at hw
  rw [hk] at hw
  simp only [Bool.and_eq_true, decide_eq_true_eq] at hw
  exact hw.1.1.2

theorem HP.wf_legal {h : HP} (hw : h.wf = true) : h.kind.legalValue h.default = true := by
  unfold HP.wf at hw
  rw [Bool.and_eq_true] at hw
  exact hw.2

theorem HP.wf_distinct {h : HP} (hw : h.wf = true) {cs : List Val} (hk : h.kind = .cat cs ∨ h.kind = .ord cs) :
    cs ≠ [] ∧ distinctVals cs = true := by
  unfold HP.wf at hw
  rcases hk with hk | hk <;> rw [hk] at hw <;> simp only [Bool.and_eq_true] at hw <;>
    exact ⟨by simpa using hw.1.1, hw.1.2⟩

/-- A default needs no rounding. -/
theorem HP.wf_default_round {h : HP} (hw : h.wf = true) : roundVal h.kind h.default = h.default := by
  unfold roundVal
  cases hk : h.kind with
  | flt l u =>
    unfold HP.wf at hw
    rw [hk] at hw
    simp only [Bool.and_eq_true, decide_eq_true_eq] at hw
    cases hd : h.default with
    | flt q =>
      rw [hd] at hw
      simp only [decide_eq_true_eq] at hw
      simp [Kind.isFloat, Val.num?, hw.1.2]
    | int n => rw [hd] at hw; simp at hw
    | str t => rw [hd] at hw; simp at hw
  | cat cs => simp [Kind.isFloat]
  | ord cs => simp [Kind.isFloat]
  | const c => simp [Kind.isFloat]
  | int l u => simp [Kind.isFloat]

theorem HP.wf_default_exact {h : HP} (hw : h.wf = true) : ExactInt h.kind h.default := by
  intro l u hk
  unfold HP.wf at hw
  rw [hk] at hw
  simp only [Bool.and_eq_true, decide_eq_true_eq] at hw
  cases hd : h.default with
  | int n => exact ⟨n, rfl⟩
  | flt q => rw [hd] at hw; simp at hw
  | str t => rw [hd] at hw; simp at hw

/-- Rounding keeps a value legal, because the bounds are rounded as well. -/
theorem roundVal_legal {h : HP} (hw : h.wf = true) {w : Val} (hl : h.kind.legalValue w = true) :
    h.kind.legalValue (roundVal h.kind w) = true := by
  unfold roundVal
  cases hk : h.kind with
  | flt l u =>
    rw [hk] at hl
    obtain ⟨h1, h2⟩ := HP.wf_flt_round hw hk
    cases hn : w.num? with
    | none => simp [Kind.legalValue, hn] at hl
    | some q =>
      simp only [Kind.legalValue, hn, Bool.and_eq_true, decide_eq_true_eq] at hl
      simp only [Kind.isFloat, if_true, Kind.legalValue, Val.num?, Bool.and_eq_true, decide_eq_true_eq]
      have h3 := roundPlaces_mono hl.1
      have h4 := roundPlaces_mono hl.2
      rw [h1] at h3; rw [h2] at h4
      exact ⟨h3, h4⟩
  | cat cs => rw [hk] at hl; simpa [Kind.isFloat] using hl
  | ord cs => rw [hk] at hl; simpa [Kind.isFloat] using hl
  | const c => rw [hk] at hl; simpa [Kind.isFloat] using hl
  | int l u => rw [hk] at hl; simpa [Kind.isFloat] using hl

theorem roundVal_exact {h : HP} {w : Val} (he : ExactInt h.kind w) :
    ExactInt h.kind (roundVal h.kind w) := by
  intro l u hk
  unfold roundVal
  rw [hk]
  simpa [Kind.isFloat] using he l u hk

/-- The vector value of a legal value is a legal vector entry. -/
theorem toVec_legal {h : HP} (hw : h.wf = true) {w : Val} {x : Rat} (hl : h.kind.legalValue w = true)
    (hx : h.kind.toVec w = some x) (he : ExactInt h.kind w) : h.kind.legalVec x = true := by
  have hseq : ∀ {cs : List Val} {w : Val} {x : Rat},
      (seqIndex cs w).map (fun i : Nat => (i : Rat)) = some x →
      (decide (0 ≤ x) && decide (x < cs.length) && closeToInt x) = true := by
    intro cs w x hx
    rw [Option.map_eq_some_iff] at hx
    obtain ⟨i, hi, rfl⟩ := hx
    obtain ⟨v, h1, _⟩ := seqIndex_some hi
    have hlt : i < cs.length := (List.getElem?_eq_some_iff.1 h1).1
    simp only [Bool.and_eq_true, decide_eq_true_eq]
    exact ⟨⟨by exact_mod_cast Nat.zero_le i, by exact_mod_cast hlt⟩, closeToInt_nat i⟩
  cases hk : h.kind with
  | cat cs => rw [hk] at hx; simpa [Kind.legalVec] using hseq hx
  | ord cs => rw [hk] at hx; simpa [Kind.legalVec] using hseq hx
  | const c =>
    rw [hk] at hx hl
    simp only [Kind.legalValue] at hl
    simp only [Kind.toVec, hl, if_true, Option.some.injEq] at hx
    simp [Kind.legalVec, ← hx]
  | int l u =>
    have hlu := HP.wf_int hw hk
    obtain ⟨n, hn⟩ := he l u hk
    rw [hk] at hx hl
    simp only [Kind.toVec, hn, Option.map_some, Option.some.injEq] at hx
    simp only [Kind.legalValue, hn, rint_int, Bool.and_eq_true, decide_eq_true_eq] at hl
    have h1 : (l : Rat) ≤ n := by exact_mod_cast hl.1.1
    have h2 : (n : Rat) ≤ u := by exact_mod_cast hl.1.2
    have hp : (0 : Rat) < u - l := by linarith
    subst hx
    rw [normalize_eq]
    simp only [Kind.legalVec, Bool.and_eq_true, decide_eq_true_eq]
    refine ⟨?_, div_nonneg (by linarith) hp.le, (div_le_iff₀ hp).2 (by linarith)⟩
    rw [div_mul_cancel₀ _ hp.ne']
    have := closeToInt_int (n - l)
    push_cast at this
    exact this
  | flt l u =>
    have hlu := HP.wf_flt hw hk
    rw [hk] at hx hl
    simp only [Kind.toVec, Option.map_eq_some_iff] at hx
    obtain ⟨q, hq, rfl⟩ := hx
    simp only [Kind.legalValue, hq, Bool.and_eq_true, decide_eq_true_eq] at hl
    have hp : (0 : Rat) < u - l := by linarith
    rw [normalize_eq]
    simp only [Kind.legalVec, Bool.and_eq_true, decide_eq_true_eq]
    exact ⟨div_nonneg (by linarith) hp.le, (div_le_iff₀ hp).2 (by linarith)⟩

/-- Decoding the vector value of a legal value works, even for numbers that are only close to an integer. -/
theorem toVec_decodes {h : HP} {w : Val} {x : Rat} (hx : h.kind.toVec w = some x) :
    ∃ v, h.kind.toVal x = some v := by
  cases hk : h.kind with
  | cat cs =>
    rw [hk] at hx
    simp only [Kind.toVec, Option.map_eq_some_iff] at hx
    obtain ⟨i, hi, rfl⟩ := hx
    obtain ⟨w, h1, h2⟩ := seqIndex_some hi
    exact ⟨w, by simp [Kind.toVal, closeToInt_nat, rint_nat, pyIndex_nat, h1]⟩
  | ord cs =>
    rw [hk] at hx
    simp only [Kind.toVec, Option.map_eq_some_iff] at hx
    obtain ⟨i, hi, rfl⟩ := hx
    obtain ⟨w, h1, h2⟩ := seqIndex_some hi
    exact ⟨w, by simp [Kind.toVal, closeToInt_nat, rint_nat, pyIndex_nat, h1]⟩
  | const c => exact ⟨_, rfl⟩
  | int l u => exact ⟨_, rfl⟩
  | flt l u => exact ⟨_, rfl⟩

end Verif
