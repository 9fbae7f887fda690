import Verif.Model.Construct
import Verif.Lemmas.Round
import Verif.Props.Values

/-!
# Constructors: C48, C54
-/

set_option autoImplicit false

namespace Verif
open Verif.Spec

theorem finishHP_ok {h h' : HP} : finishHP h = .ok h' ↔ h' = h ∧ h.kind.legalValue h.default = true := by
  unfold finishHP
  split
  · simp [*, eq_comm]
  · simp [*]

theorem pyIn_of_getElem {cs : List Val} {i : Nat} {d : Val} (h : cs[i]? = some d) : d.pyIn cs = true := by
  unfold Val.pyIn
  rw [List.any_eq_true]
  exact ⟨d, List.mem_of_getElem? h, Val.pyEq_refl _⟩

/-- **C48**, categorical: whatever the constructor builds has the given non-empty duplicate-free choices and a legal default,
which is the given one if there is one. -/
theorem C48_categorical {n : Name} {cs : List Val} {d : Option Val} {ws : Option (List Rat)} {h : HP}
    (hb : mkCat n cs d ws = .ok h) :
    h.wf = true ∧ h.name = n ∧ h.kind = .cat cs ∧ h.default.pyIn cs = true ∧ (∀ v, d = some v → h.default = v) := by
  unfold mkCat at hb
  split at hb; · cases hb
  rename_i h1
  split at hb; · cases hb
  split at hb; · cases hb
  split at hb; · cases hb
  rename_i h4
  simp only at hb
  split at hb
  · rename_i v hv
    rw [finishHP_ok] at hb
    obtain ⟨rfl, hl⟩ := hb
    refine ⟨?_, rfl, rfl, hl, ?_⟩
    · unfold HP.wf
      simp only [Bool.and_eq_true]
      refine ⟨⟨?_, by simpa using h1⟩, hl⟩
      simpa using h4
    · rintro w rfl
      simp at hv
      exact hv.symm
  · cases hb

theorem argmax_lt : ∀ {xs : List Rat}, xs ≠ [] → argmax xs < xs.length
  | [], h => absurd rfl h
  | x :: xs, _ => by
    unfold argmax
    split
    · simp
    · rename_i hn
      have : xs ≠ [] := by
        rintro rfl; exact hn (by simp)
      have := argmax_lt this
      simp only [List.length_cons]; omega

/-- The chosen position holds a largest element. -/
theorem argmax_max : ∀ {xs : List Rat}, xs ≠ [] → ∃ m, xs[argmax xs]? = some m ∧ ∀ y ∈ xs, y ≤ m
  | [], h => absurd rfl h
  | x :: xs, _ => by
    unfold argmax
    split
    · rename_i hall
      refine ⟨x, rfl, ?_⟩
      intro y hy
      rcases List.mem_cons.1 hy with rfl | hy
      · exact le_refl _
      · rw [List.all_eq_true] at hall
        simpa using hall y hy
    · rename_i hn
      have hne : xs ≠ [] := by
        rintro rfl; exact hn (by simp)
      obtain ⟨m, h1, h2⟩ := argmax_max hne
      refine ⟨m, by simpa using h1, ?_⟩
      intro y hy
      rcases List.mem_cons.1 hy with rfl | hy
      · by_contra hlt
        apply hn
        rw [List.all_eq_true]
        intro z hz
        have := h2 z hz
        simp only [decide_eq_true_eq]
        linarith [not_le.1 hlt]
      · exact h2 y hy

/-- **C48**, categorical, the other direction: duplicate-free non-empty choices, weights (if given) of the same length, not
negative and not all zero, and a default (if given) among the choices are accepted.  Without a default the first choice is
taken, or one with the largest weight. -/
theorem C48_categorical_accepts {n : Name} {cs : List Val} {d : Option Val} {ws : Option (List Rat)}
    (h1 : cs ≠ []) (h2 : distinctVals cs = true) (h3 : ∀ v, d = some v → v.pyIn cs = true)
    (h4 : ∀ w, ws = some w → w.length = cs.length ∧ (∀ x ∈ w, 0 ≤ x) ∧ ∃ x ∈ w, x ≠ 0) :
    ∃ h, mkCat n cs d ws = .ok h ∧ (d = none → ws = none → cs[0]? = some h.default) ∧
      (d = none → ∀ w, ws = some w → ∃ (i : Nat) (m : Rat), cs[i]? = some h.default ∧ w[i]? = some m ∧ ∀ x ∈ w, x ≤ m) := by
  unfold mkCat
  rw [if_neg (by simp [h2]), if_neg ?_, if_neg ?_, if_neg (by simpa using h1)]
  · cases d with
    | some v =>
      simp only
      exact ⟨_, finishHP_ok.2 ⟨rfl, h3 v rfl⟩, by simp, by simp⟩
    | none =>
      cases ws with
      | none =>
        cases cs with
        | nil => exact absurd rfl h1
        | cons c cs =>
          simp only [List.length_cons, Nat.zero_lt_succ, getElem?_pos, List.getElem_cons_zero]
          exact ⟨_, finishHP_ok.2 ⟨rfl, pyIn_of_getElem (i := 0) rfl⟩, fun _ _ => rfl, by simp⟩
      | some w =>
        obtain ⟨hl, hnn, x0, hx0, hx0n⟩ := h4 w rfl
        have hwne : w ≠ [] := by rintro rfl; cases hx0
        have hsum : 0 < w.sum := by
          have hpos : 0 < x0 := lt_of_le_of_ne (hnn x0 hx0) (Ne.symm hx0n)
          exact lt_of_lt_of_le hpos (List.single_le_sum hnn x0 hx0)
        have hne : w.map (· / w.sum) ≠ [] := by simpa using hwne
        have hlt := argmax_lt hne
        obtain ⟨m, hm1, hm2⟩ := argmax_max hne
        rw [List.length_map, hl] at hlt
        simp only [List.getElem?_eq_getElem hlt]
        refine ⟨_, finishHP_ok.2 ⟨rfl, pyIn_of_getElem (List.getElem?_eq_getElem hlt)⟩, by simp, ?_⟩
        rintro _ w' ⟨⟩
        rw [List.getElem?_map, Option.map_eq_some_iff] at hm1
        obtain ⟨m', hm', rfl⟩ := hm1
        refine ⟨_, m', List.getElem?_eq_getElem hlt, hm', ?_⟩
        intro x hx
        have := hm2 (x / w.sum) (List.mem_map.2 ⟨x, hx, rfl⟩)
        exact (div_le_div_iff_of_pos_right hsum).1 this
  · cases d with
    | none => simp [badDefault]
    | some v => simp [badDefault, h3 v rfl]
  · cases ws with
    | none => simp [badWeights]
    | some w =>
      obtain ⟨hl, hnn, x0, hx0, hx0n⟩ := h4 w rfl
      simp only [badWeights, Bool.not_eq_true, Bool.or_eq_false_iff, decide_eq_false_iff_not, not_not]
      refine ⟨⟨hl, ?_⟩, ?_⟩
      · rw [List.any_eq_false]
        intro x hx
        simpa using hnn x hx
      · rw [Bool.eq_false_iff]
        intro hall
        rw [List.all_eq_true] at hall
        exact hx0n (by simpa using hall x0 hx0)

example : mkCat "c" [.str "a", .str "b"] none (some [1, 3]) =
    .ok { name := "c", kind := .cat [.str "a", .str "b"], default := .str "b" } := by decide +kernel

/-- **C48**, ordinal: accepted exactly if the sequence has no duplicates, is not empty and contains the default, if given. -/
theorem C48_ordinal {n : Name} {seq : List Val} {d : Option Val} :
    (∀ h, mkOrd n seq d = .ok h → h.wf = true ∧ h.name = n ∧ h.kind = .ord seq ∧ h.default.pyIn seq = true ∧
      ((∃ v, d = some v ∧ h.default = v) ∨ (d = none ∧ seq[0]? = some h.default))) ∧
    ((∃ h, mkOrd n seq d = .ok h) ↔ distinctVals seq = true ∧ seq ≠ [] ∧ ∀ v, d = some v → v.pyIn seq = true) := by
  have key : ∀ h, mkOrd n seq d = .ok h → h.wf = true ∧ h.name = n ∧ h.kind = .ord seq ∧ h.default.pyIn seq = true ∧
      ((∃ v, d = some v ∧ h.default = v) ∨ (d = none ∧ seq[0]? = some h.default)) := by
    intro h hb
    unfold mkOrd at hb
    split at hb; · cases hb
    rename_i h1
    have hwf : ∀ dv : Val, dv.pyIn seq = true → HP.wf { name := n, kind := .ord seq, default := dv } = true := by
      intro dv hdv
      have hne : seq ≠ [] := by rintro rfl; simp [Val.pyIn] at hdv
      unfold HP.wf
      simp only [Bool.and_eq_true]
      exact ⟨⟨by simpa using hne, by simpa using h1⟩, hdv⟩
    split at hb
    · split at hb
      · rename_i dv hdv
        rw [finishHP_ok] at hb
        obtain ⟨rfl, hl⟩ := hb
        exact ⟨hwf dv hl, rfl, rfl, hl, .inr ⟨rfl, hdv⟩⟩
      · cases hb
    · split at hb
      · rename_i dv _
        rw [finishHP_ok] at hb
        obtain ⟨rfl, hl⟩ := hb
        exact ⟨hwf dv hl, rfl, rfl, hl, .inl ⟨dv, rfl, rfl⟩⟩
      · cases hb
  refine ⟨key, ?_⟩
  constructor
  · rintro ⟨h, hb⟩
    obtain ⟨hw, _, hk, hp, hd⟩ := key h hb
    obtain ⟨hne, hdist⟩ := HP.wf_distinct hw (.inr hk)
    refine ⟨hdist, hne, ?_⟩
    rintro v rfl
    rcases hd with ⟨w, hw, rfl⟩ | ⟨hd, _⟩
    · cases hw; exact hp
    · cases hd
  · rintro ⟨h1, h2, h3⟩
    unfold mkOrd
    rw [if_neg (by simp [h1])]
    cases d with
    | none =>
      cases seq with
      | nil => exact absurd rfl h2
      | cons c cs => exact ⟨_, finishHP_ok.2 ⟨rfl, pyIn_of_getElem (i := 0) rfl⟩⟩
    | some v =>
      simp only [h3 v rfl, if_true]
      exact ⟨_, finishHP_ok.2 ⟨rfl, h3 v rfl⟩⟩

example : mkOrd "o" [.int 1, .int 2] (some (.flt 2)) =
    .ok { name := "o", kind := .ord [.int 1, .int 2], default := .flt 2 } := by decide +kernel

/-- **C48**, constants are always accepted. -/
theorem C48_constant (n : Name) (v : Val) :
    ∃ h, mkConst n v = .ok h ∧ h.wf = true ∧ h.name = n ∧ h.kind = .const v ∧ h.default = v := by
  have hl : (Kind.const v).legalValue v = true := Val.pyEq_refl v
  exact ⟨_, finishHP_ok.2 ⟨rfl, hl⟩, by simp [HP.wf, hl], rfl, rfl, rfl⟩

/-- **C48**, integers: what the constructor builds has the rounded bounds, in order, and a legal default within them. -/
theorem C48_integer {n : Name} {lo up : Rat} {d : Option Rat} {h : HP} (hb : mkInt n lo up d = .ok h) :
    h.wf = true ∧ h.name = n ∧ ∃ l u m : Int, h.kind = .int l u ∧ h.default = .int m ∧ l < u ∧ (l ≤ m ∧ m ≤ u) ∧
      |lo - l| ≤ 1 / 2 ∧ |up - u| ≤ 1 / 2 := by
  have ha : ∀ r : Rat, rabs r = |r| := by
    intro r
    unfold rabs
    split
    · rw [abs_of_neg ‹_›]
    · rw [abs_of_nonneg (not_lt.1 ‹_›)]
  have h1 := rint_near lo
  have h2 := rint_near up
  rw [ha] at h1 h2
  unfold mkInt at hb
  simp only at hb
  split at hb; · cases hb
  split at hb; · cases hb
  rename_i hlt
  rw [finishHP_ok] at hb
  obtain ⟨rfl, hl⟩ := hb
  have hlt' : rint lo < rint up := by omega
  refine ⟨?_, rfl, rint lo, rint up, _, rfl, rfl, hlt', ?_, h1, h2⟩
  · unfold HP.wf
    simp only [Bool.and_eq_true, decide_eq_true_eq]
    exact ⟨⟨hlt', trivial⟩, hl⟩
  · exact (C52_integer _ _ _ "").1.1 hl

/-- **C48**, integers, the other direction: integral bounds in order and a default between them (or none) are accepted, and the
default is the given one. -/
theorem C48_integer_accepts {n : Name} {l u : Int} (h : l < u) {d : Option Int} (hd : ∀ m, d = some m → l ≤ m ∧ m ≤ u) :
    ∃ hp, mkInt n l u (d.map (fun m : Int => (m : Rat))) = .ok hp ∧ hp.kind = .int l u ∧
      ∀ m, d = some m → hp.default = .int m := by
  have ht : ∀ m : Int, trunc (m : Rat) = m := by
    intro m
    unfold trunc
    split
    · exact Rat.floor_intCast m
    · exact Rat.ceil_intCast m
  unfold mkInt
  simp only [rint_int]
  cases d with
  | some m =>
    obtain ⟨h1, h2⟩ := hd m rfl
    simp only [Option.map_some, badIntDefault, closeToInt_int, Bool.not_true, Bool.false_eq_true, if_false, ht,
      if_neg (show ¬ u ≤ l by omega)]
    exact ⟨_, finishHP_ok.2 ⟨rfl, (C52_integer l u m "").1.2 ⟨h1, h2⟩⟩, rfl, by rintro _ ⟨⟩; rfl⟩
  | none =>
    have hx : (Kind.int l u).legalVec (1 / 2) = true ∨ True := .inr trivial
    have hlo : l ≤ rint (scaleQ (1 / 2) l u) := by
      rw [← rint_int l]
      refine rint_mono ?_
      rw [rint_int]
      unfold scaleQ
      have : (l : Rat) < u := by exact_mod_cast h
      linarith
    have hup : rint (scaleQ (1 / 2) l u) ≤ u := by
      rw [← rint_int u]
      refine rint_mono ?_
      rw [rint_int]
      unfold scaleQ
      have : (l : Rat) < u := by exact_mod_cast h
      linarith
    simp only [Option.map_none, badIntDefault, Bool.false_eq_true, if_false, if_neg (show ¬ u ≤ l by omega)]
    exact ⟨_, finishHP_ok.2 ⟨rfl, (C52_integer l u _ "").1.2 ⟨hlo, hup⟩⟩, rfl, by rintro _ ⟨⟩⟩

example : mkInt "i" 1 10 none = .ok { name := "i", kind := .int 1 10, default := .int 6 } ∧
    mkInt "i" 1 10 (some (5 / 2)) = .error .typeError ∧ mkInt "i" 1 10 (some 11) = .error .valueError ∧
    mkInt "i" 5 5 none = .error .valueError := by decide +kernel

/-- A default that is accepted because it is close to 3 becomes 2: after the closeness test it is truncated, not rounded.  Normal
and beta distributed integers round it. -/
theorem C48_default_truncated :
    mkInt "i" 1 10 (some (299999 / 100000)) = .ok { name := "i", kind := .int 1 10, default := .int 2 } ∧
    mkRoundedDefault (299999 / 100000) = .ok 3 := by decide +kernel

/-- **C48**, floats: what the constructor builds has the bounds rounded to 13 places, in order, and a legal default within
them. -/
theorem C48_float {n : Name} {lo up : Rat} {d : Option Rat} {h : HP} (hb : mkFlt n lo up d = .ok h) :
    h.wf = true ∧ h.name = n ∧ ∃ l u m : Rat, h.kind = .flt l u ∧ h.default = .flt m ∧ l < u ∧ (l ≤ m ∧ m ≤ u) ∧
      |lo - l| ≤ 1 / (2 * 10 ^ 13) ∧ |up - u| ≤ 1 / (2 * 10 ^ 13) ∧ (∀ q, d = some q → |q - m| ≤ 1 / (2 * 10 ^ 13)) := by
  have hr : ∀ r : Rat, |r - roundPlaces r| ≤ 1 / (2 * 10 ^ 13) := by
    intro r
    have := roundPlaces_near r
    have ha : ∀ r : Rat, rabs r = |r| := by
      intro r
      unfold rabs
      split
      · rw [abs_of_neg ‹_›]
      · rw [abs_of_nonneg (not_lt.1 ‹_›)]
    rw [ha] at this
    norm_num at this ⊢
    exact this
  unfold mkFlt at hb
  simp only at hb
  split at hb; · cases hb
  rename_i hlt
  rw [finishHP_ok] at hb
  obtain ⟨rfl, hl⟩ := hb
  refine ⟨?_, rfl, _, _, _, rfl, rfl, not_le.1 hlt, (C52_float _ _ _ 0 "").1.1 hl, hr lo, hr up, ?_⟩
  · unfold HP.wf
    simp only [Bool.and_eq_true, decide_eq_true_eq, roundPlaces_idem]
    exact ⟨⟨⟨not_le.1 hlt, trivial, trivial⟩, trivial⟩, hl⟩
  · rintro q rfl
    exact hr q

/-- **C48**, floats, the other direction: bounds that are still in order after rounding and a default between the given bounds
(or none) are accepted. -/
theorem C48_float_accepts {n : Name} {lo up : Rat} (h : roundPlaces lo < roundPlaces up) {d : Option Rat}
    (hd : ∀ q, d = some q → lo ≤ q ∧ q ≤ up) : ∃ hp, mkFlt n lo up d = .ok hp := by
  unfold mkFlt
  simp only [if_neg (not_le.2 h)]
  cases d with
  | some q =>
    obtain ⟨h1, h2⟩ := hd q rfl
    exact ⟨_, finishHP_ok.2 ⟨rfl, (C52_float _ _ _ 0 "").1.2 ⟨roundPlaces_mono h1, roundPlaces_mono h2⟩⟩⟩
  | none =>
    have h1 : roundPlaces lo ≤ scaleQ (1 / 2) (roundPlaces lo) (roundPlaces up) := by unfold scaleQ; linarith
    have h2 : scaleQ (1 / 2) (roundPlaces lo) (roundPlaces up) ≤ roundPlaces up := by unfold scaleQ; linarith
    have hc : clipQ (scaleQ (1 / 2) (roundPlaces lo) (roundPlaces up)) (roundPlaces lo) (roundPlaces up) =
        scaleQ (1 / 2) (roundPlaces lo) (roundPlaces up) := by
      simp only [clipQ, if_neg (not_lt.2 h1), if_neg (not_lt.2 h2)]
    simp only [hc]
    refine ⟨_, finishHP_ok.2 ⟨rfl, (C52_float _ _ _ 0 "").1.2 ⟨?_, ?_⟩⟩⟩
    · have := roundPlaces_mono h1
      rwa [roundPlaces_idem] at this
    · have := roundPlaces_mono h2
      rwa [roundPlaces_idem] at this

example : mkFlt "f" 0 1 none = .ok { name := "f", kind := .flt 0 1, default := .flt (1 / 2) } ∧
    mkFlt "f" 1 0 none = .error .valueError := by decide +kernel

/-- **C48**, the default vector: for everything the constructors build, the default has a legal vector entry that decodes to the
default. -/
theorem C48_default_vector {h : HP} (hw : h.wf = true) :
    h.kind.legalVec h.defVec = true ∧ ∃ w, h.kind.toVal h.defVec = some w ∧ w.pyEq h.default = true := by
  obtain ⟨x, w, h1, h2, h3, h4⟩ := C29_round_trip hw (HP.wf_legal hw) (HP.wf_default_exact hw)
  have : h.defVec = x := by unfold HP.defVec; rw [h1]; rfl
  rw [this]
  exact ⟨h2, w, h3, h4⟩

/-! ## C54: conversion between integer and float ranges -/

theorem roundPlaces_int (m : Int) : roundPlaces (m : Rat) = m := by
  unfold roundPlaces
  rw [show (m : Rat) * 10000000000000 = ((m * 10000000000000 : Int) : Rat) by push_cast; ring, rint_int]
  push_cast
  rw [mul_div_assoc]; norm_num

/-- **C54**: converting an integer range to floats keeps bounds and default, and converting it back gives the integer range
again. -/
theorem C54_int_float_int {n : Name} {l u m : Int} (h : l < u) (h1 : l ≤ m) (h2 : m ≤ u) :
    intToFlt n l u m = .ok { name := n, kind := .flt l u, default := .flt m } ∧
    fltToInt n (l : Rat) u m = .ok { name := n, kind := .int l u, default := .int m } := by
  have hq : (l : Rat) < u := by exact_mod_cast h
  have hq1 : (l : Rat) ≤ m := by exact_mod_cast h1
  have hq2 : (m : Rat) ≤ u := by exact_mod_cast h2
  constructor
  · unfold intToFlt mkFlt
    simp only [roundPlaces_int, if_neg (not_le.2 hq)]
    rw [finishHP_ok]
    exact ⟨rfl, (C52_float _ _ _ 0 "").1.2 ⟨hq1, hq2⟩⟩
  · unfold fltToInt
    rw [rint_int, Rat.ceil_intCast, Rat.floor_intCast]
    obtain ⟨hp, e1, e2, e3⟩ := C48_integer_accepts (n := n) h (d := some m) (by rintro _ ⟨⟩; exact ⟨h1, h2⟩)
    simp only [Option.map_some] at e1
    rw [e1]
    obtain ⟨_, e4, _⟩ := C48_integer e1
    obtain ⟨nm, k, d⟩ := hp
    simp only at e2 e3 e4
    rw [e2, e4, e3 m rfl]

example : intToFlt "i" 1 10 4 = .ok { name := "i", kind := .flt 1 10, default := .flt 4 } := by decide +kernel

/-- Converting a float range to integers may fail although the range contains integers: the default 0.4 of the range 0.3 to 2.7
is rounded to 0, which is below the smallest integer of the range. -/
theorem C54_to_integer_may_fail :
    mkFlt "f" (3 / 10) (27 / 10) (some (4 / 10)) =
      .ok { name := "f", kind := .flt (3 / 10) (27 / 10), default := .flt (4 / 10) } ∧
    fltToInt "f" (3 / 10) (27 / 10) (4 / 10) = .error .valueError := by decide +kernel

/-- Applied: the integers 1 to 10 with the default 4, as floats and back; the entry of the default of a categorical hyperparameter. -/
example := C54_int_float_int (n := "i") (l := 1) (u := 10) (m := 4) (by decide) (by decide) (by decide)
example := C48_default_vector (h := ⟨"c", .cat [.str "a", .str "b"], .str "b"⟩) (by decide +kernel)

end Verif
