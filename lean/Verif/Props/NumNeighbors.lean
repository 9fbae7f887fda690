import Verif.Model.NumNeighbors
import Verif.Lemmas.Value
import Verif.Lemmas.Prior
import Mathlib.Tactic.NormNum
import Mathlib.Order.Interval.Finset.Nat
import Mathlib.Data.Int.Interval

/-!
# Numbers of neighbours (C125)

What a caller relies on: `get_num_neighbors(value)` is positive exactly if there is another value to move to, without a value it
speaks of the default value (its documentation, hyperparameter.py:549-551), and `has_neighbors()` says whether there is
another value.
-/

set_option autoImplicit false

namespace Verif

open Num

/-- There is a legal value of the kind that Python does not take for `v`. -/
def Kind.Another (k : Kind) (v : Val) : Prop := ∃ w, k.legalValue w = true ∧ v.pyEq w = false

theorem another_seq {cs : List Val} (hd : distinctVals cs = true) {v : Val} (hv : v.pyIn cs = true) :
    (∃ w, w.pyIn cs = true ∧ v.pyEq w = false) ↔ 1 < cs.length := by
  obtain ⟨i, hi⟩ := seqIndex_isSome hv
  constructor
  · rintro ⟨w, hw, hne⟩
    obtain ⟨j, hj⟩ := seqIndex_isSome hw
    obtain ⟨a, ha, -⟩ := seqIndex_some hi
    obtain ⟨b, hb, -⟩ := seqIndex_some hj
    have h1 := (List.getElem?_eq_some_iff.1 ha).1
    have h2 := (List.getElem?_eq_some_iff.1 hb).1
    have : i ≠ j := by
      intro e
      rw [(seqIndex_eq_iff hi hj).2 e] at hne
      cases hne
    omega
  · intro hl
    obtain ⟨j, hj, hne⟩ : ∃ j, j < cs.length ∧ i ≠ j := by
      by_cases h : i = 0
      · exact ⟨1, hl, by omega⟩
      · exact ⟨0, by omega, h⟩
    have hjj : seqIndex cs cs[j] = some j := seqIndex_getElem hd (List.getElem?_eq_getElem hj)
    refine ⟨cs[j], ?_, ?_⟩
    · unfold Val.pyIn
      rw [List.any_eq_true]
      exact ⟨cs[j], List.getElem_mem hj, Val.pyEq_refl _⟩
    · cases hc : v.pyEq cs[j] with
      | false => rfl
      | true => exact absurd ((seqIndex_eq_iff hi hjj).1 hc) hne

/-- C125. With a legal value, `get_num_neighbors` does not fail, and it is positive exactly if there is another legal value. -/
theorem C125_positive_iff_another {h : HP} (hw : h.wf = true) {v : Val} (hv : h.kind.legalValue v = true) :
    ∃ c, h.kind.getNumNeighbors (some v) = some c ∧ (c ≠ .fin 0 ↔ h.kind.Another v) := by
  obtain ⟨n, k, d⟩ := h
  cases k with
  | cat cs =>
    simp only [HP.wf, Bool.and_eq_true] at hw
    have := another_seq hw.1.2 hv
    refine ⟨_, rfl, ?_⟩
    unfold Kind.Another
    simp only [Kind.legalValue] at hv ⊢
    rw [this]
    simp only [catNumNeighbors, hv, if_true, ne_eq, Neighbours.fin.injEq]
    omega
  | ord cs =>
    simp only [HP.wf, Bool.and_eq_true] at hw
    have := another_seq hw.1.2 hv
    unfold Kind.Another
    simp only [Kind.legalValue] at hv ⊢
    rw [this]
    obtain ⟨i, hi⟩ := seqIndex_isSome hv
    obtain ⟨a, ha, -⟩ := seqIndex_some hi
    have h1 := (List.getElem?_eq_some_iff.1 ha).1
    by_cases hl : cs.length = 1
    · exact ⟨.fin 0, by simp [Kind.getNumNeighbors, ordNumNeighbors, hl], by simp [hl]⟩
    · refine ⟨_, (by simp only [Kind.getNumNeighbors, ordNumNeighbors, hl, if_false, hi, Option.map_some]; rfl), ?_⟩
      split <;> simp <;> omega
  | const c =>
    refine ⟨.fin 0, rfl, by simp, ?_⟩
    rintro ⟨w, hw1, hw2⟩
    simp only [Kind.legalValue] at hv hw1
    rw [Val.pyEq_trans hv (Val.pyEq_symm hw1)] at hw2
    cases hw2
  | int l u =>
    simp only [HP.wf, Bool.and_eq_true, decide_eq_true_eq] at hw
    have hlu : l < u := hw.1.1
    have hlq : (l : Rat) < u := by exact_mod_cast hlu
    simp only [Kind.legalValue] at hv
    cases hq : v.num? with
    | none => simp [hq] at hv
    | some q =>
      refine ⟨_, (by simp only [Kind.getNumNeighbors, hq, Option.map_some]; rfl), ?_⟩
      refine iff_of_true (by split <;> simp only [ne_eq, Neighbours.fin.injEq] <;> omega) ?_
      by_cases e : q = l
      · refine ⟨.int u, by simp [Kind.legalValue, Val.num?, rint_int, closeToInt_int, hlu.le], ?_⟩
        cases hc : v.pyEq (.int u) with
        | false => rfl
        | true =>
          rw [Val.pyEq_iff] at hc
          rcases hc with ⟨s, -, hs⟩ | ⟨q', h1, h2⟩
          · cases hs
          · rw [hq] at h1
            simp only [Val.num?, Option.some.injEq] at h1 h2
            rw [← h1, e] at h2
            exact absurd h2 (ne_of_gt hlq)
      · refine ⟨.int l, by simp [Kind.legalValue, Val.num?, rint_int, closeToInt_int, hlu.le], ?_⟩
        cases hc : v.pyEq (.int l) with
        | false => rfl
        | true =>
          rw [Val.pyEq_iff] at hc
          rcases hc with ⟨s, -, hs⟩ | ⟨q', h1, h2⟩
          · cases hs
          · rw [hq] at h1
            simp only [Val.num?, Option.some.injEq] at h1 h2
            rw [← h1] at h2
            exact absurd h2.symm e
  | flt l u =>
    simp only [HP.wf, Bool.and_eq_true, decide_eq_true_eq] at hw
    have hlq : l < u := hw.1.1.1
    refine ⟨.inf, rfl, iff_of_true (by simp) ?_⟩
    by_cases e : v.pyEq (.flt l) = true
    · refine ⟨.flt u, by simp [Kind.legalValue, Val.num?, hlq.le], ?_⟩
      rw [Val.pyEq_congr e]
      simp [Val.pyEq, Val.num?, ne_of_lt hlq]
    · exact ⟨.flt l, by simp [Kind.legalValue, Val.num?, hlq.le], by simpa using e⟩

theorem filter_others {v : Val} : ∀ {cs : List Val}, distinctVals cs = true → v.pyIn cs = true →
    (cs.filter (fun w => !v.pyEq w)).length + 1 = cs.length := by
  intro cs
  induction cs with
  | nil => intro _ h; simp [Val.pyIn] at h
  | cons c cs ih =>
    intro hd hv
    simp only [distinctVals, Bool.and_eq_true, Bool.not_eq_true'] at hd
    by_cases e : v.pyEq c = true
    · have : cs.filter (fun w => !v.pyEq w) = cs := by
        rw [List.filter_eq_self]
        intro w hw
        cases hc : v.pyEq w with
        | false => rfl
        | true =>
          have h2 : c.pyIn cs = true := by
            unfold Val.pyIn
            rw [List.any_eq_true]
            exact ⟨w, hw, Val.pyEq_trans (Val.pyEq_symm hc) e⟩
          rw [h2] at hd
          simp at hd
      simp [e, this]
    · have : v.pyIn cs = true := by
        simp only [Val.pyIn, List.any_cons, Bool.or_eq_true] at hv
        rcases hv with h | h
        · exact absurd (Val.pyEq_symm h) e
        · exact h
      simp [e, ih hd.2 this]

/-- C125. The number is the number of other choices, of the neighbours in a sequence (the values at the positions before and behind)
and of the other integers of a range. -/
theorem C125_number {h : HP} (hw : h.wf = true) {v : Val} (hv : h.kind.legalValue v = true) :
    (∀ cs, h.kind = .cat cs → h.kind.getNumNeighbors (some v) = some (.fin (cs.filter (fun w => !v.pyEq w)).length)) ∧
    (∀ cs i w, h.kind = .ord cs → cs[i]? = some w → v.pyEq w = true → h.kind.getNumNeighbors (some v) =
      some (.fin ((Finset.range cs.length).filter (fun j => j + 1 = i ∨ j = i + 1)).card)) ∧
    (∀ l u n, h.kind = .int l u → v.num? = some ((n : Int) : Rat) → h.kind.getNumNeighbors (some v) =
      some (.fin ((Finset.Icc l u).filter (fun m => m ≠ n)).card)) := by
  obtain ⟨nm, k, d⟩ := h
  refine ⟨?_, ?_, ?_⟩
  · rintro cs rfl
    simp only [HP.wf, Bool.and_eq_true] at hw
    simp only [Kind.legalValue] at hv
    have := filter_others hw.1.2 hv
    simp only [Kind.getNumNeighbors, catNumNeighbors, hv, if_true, Option.some.injEq, Neighbours.fin.injEq]
    omega
  · rintro cs i w rfl hi hvw
    simp only [HP.wf, Bool.and_eq_true] at hw
    simp only [Kind.legalValue] at hv
    have hlt := (List.getElem?_eq_some_iff.1 hi).1
    obtain ⟨i', hi'⟩ := seqIndex_isSome hv
    have e : seqIndex cs v = some i := by
      rw [hi', (seqIndex_eq_iff hi' (seqIndex_getElem hw.1.2 hi)).1 hvw]
    simp only [Kind.getNumNeighbors, ordNumNeighbors]
    by_cases hl : cs.length = 1
    · have : (Finset.range cs.length).filter (fun j => j + 1 = i ∨ j = i + 1) = ∅ := by
        ext j; simp; omega
      rw [this, if_pos hl]; simp
    · rw [if_neg hl, e]
      simp only [Option.map_some, Option.some.injEq, Neighbours.fin.injEq]
      by_cases h0 : i = 0
      · have : (Finset.range cs.length).filter (fun j => j + 1 = i ∨ j = i + 1) = {1} := by
          ext j; simp; omega
        rw [this, if_pos (.inl h0)]; simp
      · by_cases h1 : i = cs.length - 1
        · have : (Finset.range cs.length).filter (fun j => j + 1 = i ∨ j = i + 1) = {i - 1} := by
            ext j; simp; omega
          rw [this, if_pos (.inr h1)]; simp
        · have : (Finset.range cs.length).filter (fun j => j + 1 = i ∨ j = i + 1) = {i - 1, i + 1} := by
            ext j; simp; omega
          rw [this, if_neg (by omega), Finset.card_pair (by omega)]
  · rintro l u n rfl hn
    simp only [Kind.legalValue, hn, rint_int, Bool.and_eq_true, decide_eq_true_eq] at hv
    have hb : l ≤ n ∧ n ≤ u := by omega
    simp only [Kind.getNumNeighbors, hn, Option.map_some, Option.some.injEq]
    rw [if_pos (by exact_mod_cast hb)]
    have : (Finset.Icc l u).filter (fun m => m ≠ n) = (Finset.Icc l u).erase n := by
      ext m; simp; tauto
    rw [this, Finset.card_erase_of_mem (by simpa using hb), Int.card_Icc]
    congr 2
    omega
/-- C125 is false of the code for the default value: the documentation of `get_num_neighbors` says that without a value the
default value is used, but for choices, sequences and integer ranges the answer is always larger than the one for the
default value, and than the one for every other legal value (whole number, in an integer range). -/
theorem C125_default_not_used {h : HP} (hw : h.wf = true) (hk : (∃ cs, h.kind = .cat cs) ∨ (∃ cs, h.kind = .ord cs) ∨
    ∃ l u, h.kind = .int l u) {v : Val} (hv : h.kind.legalValue v = true)
    (hwhole : ∀ q, v.num? = some q → (∃ l u, h.kind = .int l u) → (rint q : Rat) = q) :
    ∃ m n, h.kind.getNumNeighbors (some v) = some (.fin m) ∧ h.kind.getNumNeighbors none = some (.fin n) ∧ m < n := by
  obtain ⟨nm, k, d⟩ := h
  rcases hk with ⟨cs, rfl⟩ | ⟨cs, rfl⟩ | ⟨l, u, rfl⟩
  · simp only [HP.wf, Bool.and_eq_true, Bool.not_eq_true', List.isEmpty_eq_false_iff] at hw
    have := List.length_pos_of_ne_nil hw.1.1
    simp only [Kind.legalValue] at hv
    exact ⟨_, _, rfl, rfl, by simp only [catNumNeighbors, hv, if_true]; omega⟩
  · simp only [HP.wf, Bool.and_eq_true, Bool.not_eq_true', List.isEmpty_eq_false_iff] at hw
    have := List.length_pos_of_ne_nil hw.1.1
    simp only [Kind.legalValue] at hv
    obtain ⟨i, hi⟩ := seqIndex_isSome hv
    obtain ⟨a, ha, -⟩ := seqIndex_some hi
    have h1 := (List.getElem?_eq_some_iff.1 ha).1
    by_cases hl : cs.length = 1
    · exact ⟨0, _, by simp [Kind.getNumNeighbors, ordNumNeighbors, hl], rfl, by omega⟩
    · refine ⟨_, _, (by simp only [Kind.getNumNeighbors, ordNumNeighbors, hl, if_false, hi, Option.map_some]; rfl), rfl, ?_⟩
      split <;> omega
  · simp only [HP.wf, Bool.and_eq_true, decide_eq_true_eq] at hw
    have hlu : l < u := hw.1.1
    simp only [Kind.legalValue] at hv
    cases hq : v.num? with
    | none => simp [hq] at hv
    | some q =>
      simp only [hq, Bool.and_eq_true, decide_eq_true_eq] at hv
      have hin : (l : Rat) ≤ q ∧ q ≤ (u : Rat) := by
        rw [← hwhole q hq ⟨l, u, rfl⟩]
        exact ⟨by exact_mod_cast hv.1.1, by exact_mod_cast hv.1.2⟩
      refine ⟨_, _, (by simp only [Kind.getNumNeighbors, hq, Option.map_some, if_pos hin]; rfl), rfl, ?_⟩
      simp only [intNumNeighbors]
      omega

/-- In particular for the default value. -/
theorem C125_default_not_used' {h : HP} (hw : h.wf = true) (hk : (∃ cs, h.kind = .cat cs) ∨ (∃ cs, h.kind = .ord cs) ∨
    ∃ l u, h.kind = .int l u) :
    ∃ m n, h.kind.getNumNeighbors (some h.default) = some (.fin m) ∧ h.kind.getNumNeighbors none = some (.fin n) ∧ m < n := by
  have hv : h.kind.legalValue h.default = true := by
    simp only [HP.wf, Bool.and_eq_true] at hw
    exact hw.2
  refine C125_default_not_used hw hk hv ?_
  rintro q hq ⟨l, u, e⟩
  obtain ⟨nm, k, d⟩ := h
  subst e
  simp only [HP.wf, Bool.and_eq_true] at hw
  cases d with
  | int m =>
    simp only [Val.num?, Option.some.injEq] at hq
    rw [← hq, rint_int]
  | flt _ => simp at hw
  | str _ => simp at hw

/-- C125 is false of the code at the ends of an integer range: 999.995 is a legal value of the range from 1000 to 2000, it stands
for 1000, and it is said to have 1001 neighbours, one more than there are other numbers, because it is compared with the
bounds as it is. -/
theorem C125_just_outside : (Kind.int 1000 2000).legalValue (.flt (999995 / 1000)) = true ∧
    rint (999995 / 1000) = 1000 ∧ (Kind.int 1000 2000).getNumNeighbors (some (.flt (999995 / 1000))) = some (.fin 1001) ∧
    (Kind.int 1000 2000).getNumNeighbors (some (.int 1000)) = some (.fin 1000) := by
  have hr : rint (999995 / 1000) = 1000 := by
    rw [rint_eq_rintK]
    have hf : ⌊(999995 / 1000 : Rat)⌋ = 999 := by rw [Int.floor_eq_iff]; norm_num
    unfold rintK
    simp only [hf]
    norm_num
  refine ⟨?_, hr, ?_, ?_⟩
  · simp only [Kind.legalValue, Val.num?, closeToInt, hr, ATOL, RTOL, rabs]
    norm_num
  · simp only [Kind.getNumNeighbors, Val.num?, Option.map_some]
    norm_num; rfl
  · simp only [Kind.getNumNeighbors, Val.num?, Option.map_some]
    norm_num; rfl

/-- C125, the part that holds without a value: for constants and floats the answer is the one for the default value. -/
theorem C125_default_used_partial {h : HP} (hk : (∃ c, h.kind = .const c) ∨ ∃ l u, h.kind = .flt l u) :
    h.kind.getNumNeighbors none = h.kind.getNumNeighbors (some h.default) := by
  rcases hk with ⟨c, e⟩ | ⟨l, u, e⟩ <;> rw [e] <;> rfl

/-- C125, the part that holds of `has_neighbors`: unless it is a categorical or ordinal hyperparameter with a single value,
it says whether there is a legal value other than the default value. -/
theorem C125_has_neighbors_partial {h : HP} (hw : h.wf = true) (hone : ∀ c, h.kind ≠ .cat [c] ∧ h.kind ≠ .ord [c]) :
    h.kind.hasNeighbors = true ↔ h.kind.Another h.default := by
  have hv : h.kind.legalValue h.default = true := by
    simp only [HP.wf, Bool.and_eq_true] at hw
    exact hw.2
  obtain ⟨nm, k, d⟩ := h
  have two : ∀ cs : List Val, cs.isEmpty = false → (∀ c, cs ≠ [c]) → 1 < cs.length := by
    intro cs h0 h1
    match cs, h0, h1 with
    | [c], _, h1 => exact absurd rfl (h1 c)
    | _ :: _ :: _, _, _ => simp
  cases k with
  | cat cs =>
    simp only [HP.wf, Bool.and_eq_true, Bool.not_eq_true'] at hw
    have h2 := two cs hw.1.1 (fun c e => (hone c).1 (by rw [e]))
    refine iff_of_true ?_ ((another_seq hw.1.2 hv).2 h2)
    simp only [Kind.hasNeighbors, Kind.getNumNeighbors, catNumNeighbors, decide_eq_true_eq]; omega
  | ord cs =>
    simp only [HP.wf, Bool.and_eq_true, Bool.not_eq_true'] at hw
    have h2 := two cs hw.1.1 (fun c e => (hone c).2 (by rw [e]))
    refine iff_of_true ?_ ((another_seq hw.1.2 hv).2 h2)
    simp only [Kind.hasNeighbors, Kind.getNumNeighbors, ordNumNeighbors, Option.map_some, decide_eq_true_eq]; omega
  | const c =>
    obtain ⟨c', h1, h2⟩ := C125_positive_iff_another hw hv
    cases h1
    refine iff_of_false (by simp [Kind.hasNeighbors, Kind.getNumNeighbors]) (fun h => (h2.2 h) rfl)
  | int l u =>
    obtain ⟨c', h1, h2⟩ := C125_positive_iff_another hw hv
    simp only [HP.wf, Bool.and_eq_true, decide_eq_true_eq] at hw
    have hlu : l < u := hw.1.1
    refine iff_of_true ?_ (h2.1 ?_)
    · simp only [Kind.hasNeighbors, Kind.getNumNeighbors, intNumNeighbors, decide_eq_true_eq]; omega
    · rintro rfl
      cases hq : d.num? with
      | none => simp [Kind.getNumNeighbors, hq] at h1
      | some q =>
        simp only [Kind.getNumNeighbors, hq, Option.map_some, Option.some.injEq] at h1
        split at h1 <;> simp only [Neighbours.fin.injEq] at h1 <;> omega
  | flt l u =>
    obtain ⟨c', h1, h2⟩ := C125_positive_iff_another hw hv
    cases h1
    exact iff_of_true rfl (h2.1 (by simp))

/-- C125 is false of the code for a single choice: `has_neighbors()` answers that a categorical or an ordinal hyperparameter
with one value has neighbours, although there is no other value, and although `get_num_neighbors` of that value is 0. -/
theorem C125_single_choice {k : Kind} {c : Val} (hk : k = .cat [c] ∨ k = .ord [c]) :
    k.hasNeighbors = true ∧ ¬ k.Another c ∧ k.getNumNeighbors (some c) = some (.fin 0) := by
  have hin : c.pyIn [c] = true := by simp [Val.pyIn, Val.pyEq_refl]
  have hno := another_seq (cs := [c]) (by simp [distinctVals, Val.pyIn]) hin
  rcases hk with rfl | rfl
  · exact ⟨rfl, fun h => by simpa using hno.1 h, by simp [Kind.getNumNeighbors, catNumNeighbors, hin]⟩
  · exact ⟨rfl, fun h => by simpa using hno.1 h, by simp [Kind.getNumNeighbors, ordNumNeighbors]⟩

namespace ExNn

/-- The middle of three values of a sequence has two neighbours. -/
example : (Kind.ord [.str "lo", .str "mid", .str "hi"]).getNumNeighbors (some (.str "mid")) = some (.fin 2) := by
  have := (C125_number (h := ⟨"o", .ord [.str "lo", .str "mid", .str "hi"], .str "lo"⟩) (by decide +kernel) (v := .str "mid")
    (by decide +kernel)).2.1 _ 1 (.str "mid") rfl rfl (by decide +kernel)
  exact this.trans (by decide +kernel)

/-- An ordinal hyperparameter with three values. -/
def size3 : HP := ⟨"size", .ord [.str "s", .str "m", .str "l"], .str "m"⟩

/-- The hypotheses are met: its default value is legal and has two neighbours; without a value the answer is three. -/
example : size3.wf = true ∧ size3.kind.legalValue size3.default = true ∧
    size3.kind.getNumNeighbors (some size3.default) = some (.fin 2) ∧ size3.kind.getNumNeighbors none = some (.fin 3) := by
  decide +kernel

example : size3.kind.hasNeighbors = true ↔ size3.kind.Another size3.default :=
  C125_has_neighbors_partial (by decide +kernel) (fun c => by simp [size3])

/-- A single choice. -/
def one : HP := ⟨"one", .cat [.str "a"], .str "a"⟩

example : one.wf = true ∧ one.kind.hasNeighbors = true ∧ ¬ one.kind.Another one.default :=
  ⟨by decide +kernel, (C125_single_choice (.inl rfl)).1, (C125_single_choice (c := .str "a") (.inl rfl)).2.1⟩

end ExNn

end Verif
