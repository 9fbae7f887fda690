import Verif.Lemmas.Choices
import Verif.Lemmas.Value
import Mathlib.Tactic.NormNum
import Mathlib.Tactic.Ring

/-!
# C115: choices come back as they were given
-/

set_option autoImplicit false

namespace Verif.Typed

/-! ## Examples -/

namespace ExCh
/-- `["auto", None, True, 3]` -/
def mixed : List Sc := [.str "auto".toList, .none, .bool true, .int 3]
/-- `[1, 0.5]` -/
def numbers : List Sc := [.int 1, .flt (1/2)]
/-- `[True, 2]` -/
def flags : List Sc := [.bool true, .int 2]
/-- `[0.5, 2**53, 2**53 + 1]` -/
def big : List Sc := [.flt (1/2), .int (2 ^ 53), .int (2 ^ 53 + 1)]

theorem mixed_distinct : Distinct mixed := by unfold Distinct; decide +kernel
theorem mixed_nul : NoNulEnds mixed := by
  intro t ht
  simp only [mixed, List.mem_cons, Sc.str.injEq, reduceCtorEq, List.not_mem_nil, or_false] at ht
  subst ht
  decide
theorem mixed_doubles : DoublesIfFloats mixed := fun h => absurd rfl (h .none (by simp [mixed]))
theorem mixed_fits : Fits mixed := by
  intro n hn
  simp only [mixed, List.mem_cons, Sc.int.injEq, reduceCtorEq, List.not_mem_nil, or_false, false_or] at hn
  subst hn
  decide

theorem numbers_distinct : Distinct numbers := by unfold Distinct; decide +kernel
theorem numbers_nul : NoNulEnds numbers := by intro t ht; simp [numbers] at ht
theorem numbers_doubles : DoublesIfFloats numbers := by
  intro _ _ n hn
  simp only [numbers, List.mem_cons, Sc.int.injEq, reduceCtorEq, List.not_mem_nil, or_false] at hn
  subst hn
  exact ⟨1, 0, by norm_num, by norm_num, by norm_num⟩
theorem numbers_fits : Fits numbers := by
  intro n hn
  simp only [numbers, List.mem_cons, Sc.int.injEq, reduceCtorEq, List.not_mem_nil, or_false] at hn
  subst hn
  decide

/-- `2 ** 53 + 1` is not a double. -/
theorem odd_not_double : ¬ F64.IsF64 (((2 ^ 53 + 1 : Int)) : Rat) := by
  rintro ⟨m, e, hm, -, h⟩
  have hm' : ((|m| : Int) : Rat) ≤ 2 ^ 53 := by exact_mod_cast hm
  rcases le_or_gt e 0 with he | he
  · have h1 : (2 : Rat) ^ e ≤ 1 := zpow_le_one_of_nonpos₀ (by norm_num) he
    have h2 : (m : Rat) * 2 ^ e ≤ 2 ^ 53 := by
      calc (m : Rat) * 2 ^ e ≤ |(m : Rat)| * 2 ^ e := mul_le_mul_of_nonneg_right (le_abs_self _) (by positivity)
        _ ≤ |(m : Rat)| * 1 := mul_le_mul_of_nonneg_left h1 (abs_nonneg _)
        _ ≤ 2 ^ 53 := by rw [mul_one]; exact_mod_cast hm
    rw [← h] at h2
    norm_num at h2
  · obtain ⟨k, rfl⟩ : ∃ k : Nat, e = (k : Int) + 1 := ⟨(e - 1).toNat, by omega⟩
    have h1 : (2 ^ 53 + 1 : Int) = m * 2 ^ (k + 1) := by
      have : (2 : Rat) ^ ((k : Int) + 1) = 2 ^ (k + 1) := by norm_cast
      rw [this] at h
      exact_mod_cast h
    rw [show m * 2 ^ (k + 1) = m * 2 ^ k * 2 by ring] at h1
    generalize m * 2 ^ k = z at h1
    omega
end ExCh

variable {xs : List Sc}

/-! ## Values -/

/-- **C115, guarded.** Every choice is a legal value, its vector entry is its position, and the value of this entry is equal
to the choice: if no text ends with a null character, and integers that are listed together with floats are doubles. -/
theorem C115_values_kept_partial (_hf : Fits xs) (hx : Distinct xs) (hn : NoNulEnds xs) (hd : DoublesIfFloats xs) {i : Nat} {c : Sc}
    (hc : xs[i]? = some c) : legalValue (stored xs) c = true ∧ toVector (stored xs) c = .ok i ∧
      ∃ w, toValue (stored xs) i = some w ∧ w.pyEq c = true := by
  obtain ⟨f, e, hfe⟩ := stored_map hn hd
  have hm := List.mem_of_getElem? hc
  have hq : queried c = c := queried_eq fun t ht => hn t (ht ▸ hm)
  have hl : lookupFrom (queried c) 0 (stored xs) = some i := by
    rw [hq, e]
    refine lookupFrom_unique (x := f c) (by simp [hc]) (hfe c hm) fun j y hy ey => ?_
    rw [List.getElem?_map, Option.map_eq_some_iff] at hy
    obtain ⟨z, hz, rfl⟩ := hy
    exact distinct_get hx hz hc (Sc.pyEq_trans (Sc.pyEq_symm (hfe z (List.mem_of_getElem? hz))) ey)
  refine ⟨by simp [legalValue, hl], by simp [toVector, hl], f c, ?_, hfe c hm⟩
  simp [toValue, e, hc]

example : toVector (stored ExCh.mixed) .none = .ok 1 :=
  (C115_values_kept_partial ExCh.mixed_fits ExCh.mixed_distinct ExCh.mixed_nul ExCh.mixed_doubles (i := 1) rfl).2.1

example : ∃ w, toValue (stored ExCh.numbers) 0 = some w ∧ w.pyEq (.int 1) = true :=
  (C115_values_kept_partial ExCh.numbers_fits ExCh.numbers_distinct ExCh.numbers_nul ExCh.numbers_doubles (i := 0) rfl).2.2

/-- **C115, guarded.** Nothing else is legal: a value is legal exactly if it is equal to a choice. -/
theorem C115_legal_iff_partial (_hf : Fits xs) (hn : NoNulEnds xs) (hd : DoublesIfFloats xs) {v : Sc}
    (hv : ∀ t, v = .str t → t.getLast? ≠ some '\x00') : legalValue (stored xs) v = true ↔ ∃ c ∈ xs, c.pyEq v = true := by
  obtain ⟨f, e, hfe⟩ := stored_map hn hd
  unfold legalValue
  rw [queried_eq hv, lookupFrom_isSome, e]
  constructor
  · rintro ⟨y, hy, ey⟩
    obtain ⟨c, hc, rfl⟩ := List.mem_map.1 hy
    exact ⟨c, hc, Sc.pyEq_trans (Sc.pyEq_symm (hfe c hc)) ey⟩
  · rintro ⟨c, hc, ec⟩
    exact ⟨f c, List.mem_map.2 ⟨c, hc, rfl⟩, Sc.pyEq_trans (hfe c hc) ec⟩

/-- `1` is legal because it equals `True`, `"True"` is not. -/
example : legalValue (stored ExCh.mixed) (.int 1) = true ∧ legalValue (stored ExCh.mixed) (.str "True".toList) = false := by
  refine ⟨(C115_legal_iff_partial ExCh.mixed_fits ExCh.mixed_nul ExCh.mixed_doubles (by simp)).2
    ⟨.bool true, by simp [ExCh.mixed], by decide +kernel⟩, ?_⟩
  rw [Bool.eq_false_iff, ne_eq, C115_legal_iff_partial ExCh.mixed_fits ExCh.mixed_nul ExCh.mixed_doubles]
  · decide +kernel
  · intro t ht; cases ht; decide

/-- **C115, guarded.** Such choices are accepted, with the default value that is given, or with the first choice. -/
theorem C115_constructor_partial (_hf : Fits xs) (hx : Distinct xs) (hn : NoNulEnds xs) (hd : DoublesIfFloats xs) :
    (∀ c cs, xs = c :: cs → mk xs none = .ok (stored xs, c)) ∧
    ∀ d, (∃ c ∈ xs, c.pyEq d = true) → mk xs (some d) = .ok (stored xs, d) := by
  have key : ∀ c cs (d : Sc), xs = c :: cs → (∃ c ∈ xs, c.pyEq d = true) →
      (if (c :: cs).any (fun x => x.pyEq d) then
        if legalValue (stored (c :: cs)) d then Except.ok (stored (c :: cs), d) else .error .valueError
      else (.error .valueError : Except Err (List Sc × Sc))) = .ok (stored xs, d) := by
    intro c cs d e h
    rw [← e, if_pos (List.any_eq_true.2 h), if_pos]
    refine (C115_legal_iff_partial _hf hn hd ?_).2 h
    rintro t rfl
    obtain ⟨c', hc', ec⟩ := h
    cases c' with
    | str t' =>
      simp only [Sc.pyEq, decide_eq_true_eq] at ec
      subst ec
      exact hn t' hc'
    | _ => simp [Sc.pyEq, Sc.num?] at ec
  constructor
  · rintro c cs rfl
    have hx' : (c :: cs).Pairwise (fun a b => a.pyEq b = false) := hx
    simp only [mk, hx', if_true, Option.getD_none]
    exact key c cs c rfl ⟨c, by simp, Sc.pyEq_refl c⟩
  · intro d h
    cases xs with
    | nil => simp at h
    | cons c cs =>
      have hx' : (c :: cs).Pairwise (fun a b => a.pyEq b = false) := hx
      simp only [mk, hx', if_true, Option.getD_some]
      exact key c cs d rfl h

example : mk ExCh.mixed none = .ok (stored ExCh.mixed, .str "auto".toList) :=
  (C115_constructor_partial ExCh.mixed_fits ExCh.mixed_distinct ExCh.mixed_nul ExCh.mixed_doubles).1 _ _ rfl

example : mk ExCh.numbers (some (.flt (1/2))) = .ok (stored ExCh.numbers, .flt (1/2)) :=
  (C115_constructor_partial ExCh.numbers_fits ExCh.numbers_distinct ExCh.numbers_nul ExCh.numbers_doubles).2 _
    ⟨.flt (1/2), by simp [ExCh.numbers], by decide +kernel⟩

/-! ## Types -/

/-- **C115.** Exactly when do the choices come back with their types?  If all of them are of one type, or if one of them is not
a number.  Otherwise some choice comes back as a number of another type. -/
theorem C115_types_kept_iff (_hf : Fits xs) :
    (∀ i c w, xs[i]? = some c → toValue (stored xs) i = some w → w.type = c.type) ↔ Uniform xs := by
  constructor
  · intro h
    by_cases hn : ∃ x ∈ xs, x.num? = none
    · exact .inr hn
    · have h' : ∀ x ∈ xs, x.num? ≠ none := fun x hx e => hn ⟨x, hx, e⟩
      left
      have hs := stored_numbers h'
      have all : ∀ f : Sc → Sc, stored xs = xs.map f → ∀ x ∈ xs, (f x).type = x.type := by
        intro f e x hx
        obtain ⟨i, hi⟩ := List.mem_iff_getElem?.1 hx
        exact h i x (f x) hi (by simp [toValue, e, hi])
      by_cases h1 : xs.any Sc.isFlt = true
      · rw [if_pos h1] at hs
        have key : ∀ x ∈ xs, x.type = .float := by
          intro x hx
          rw [← all _ hs x hx]
          have := h' x hx
          cases x <;> simp [Sc.asFloat, Sc.type, Sc.num?] at this ⊢
        intro x hx y hy
        rw [key x hx, key y hy]
      · rw [if_neg h1] at hs
        have hnf : ∀ x ∈ xs, x.isFlt = false := by
          intro x hx
          rw [Bool.eq_false_iff]
          exact fun e => h1 (List.any_eq_true.2 ⟨x, hx, e⟩)
        by_cases h2 : xs.any Sc.isInt = true
        · rw [if_pos h2] at hs
          have key : ∀ x ∈ xs, x.type = .int := by
            intro x hx
            rw [← all _ hs x hx]
            have h3 := h' x hx
            have h4 := hnf x hx
            cases x <;> simp [Sc.asInt, Sc.type, Sc.num?, Sc.isFlt] at h3 h4 ⊢
          intro x hx y hy
          rw [key x hx, key y hy]
        · have key : ∀ x ∈ xs, x.type = .bool := by
            intro x hx
            have h3 := h' x hx
            have h4 := hnf x hx
            have h5 : x.isInt = false := by
              rw [Bool.eq_false_iff]
              exact fun e => h2 (List.any_eq_true.2 ⟨x, hx, e⟩)
            cases x <;> simp [Sc.type, Sc.num?, Sc.isFlt, Sc.isInt] at h3 h4 h5 ⊢
          intro x hx y hy
          rw [key x hx, key y hy]
  · intro h i c w hc hw
    have hm := List.mem_of_getElem? hc
    have fin : ∀ f : Sc → Sc, stored xs = xs.map f → (f c).type = c.type → w.type = c.type := by
      intro f e hf
      simp only [toValue, e, List.getElem?_map, hc, Option.map_some, Option.some.injEq] at hw
      rw [← hw, hf]
    have other : (∃ x ∈ xs, x.num? = none) → w.type = c.type := by
      intro hn
      rcases stored_others hn with e | e
      · exact fin id (by simpa using e) rfl
      · refine fin _ e ?_
        cases c <;> rfl
    by_cases hn : ∃ x ∈ xs, x.num? = none
    · exact other hn
    · rcases h with h | h
      · have h' : ∀ x ∈ xs, x.num? ≠ none := fun x hx e => hn ⟨x, hx, e⟩
        have hs := stored_numbers h'
        split at hs
        · rename_i h1
          obtain ⟨y, hy, ey⟩ := List.any_eq_true.1 h1
          have := h c hm y hy
          refine fin _ hs ?_
          cases y with
          | flt q => cases c <;> simp [Sc.type] at this; rfl
          | _ => simp [Sc.isFlt] at ey
        · split at hs
          · rename_i h1
            obtain ⟨y, hy, ey⟩ := List.any_eq_true.1 h1
            have := h c hm y hy
            refine fin _ hs ?_
            cases y with
            | int q => cases c <;> simp [Sc.type] at this; rfl
            | _ => simp [Sc.isInt] at ey
          · exact fin id (by simpa using hs) rfl
      · exact absurd h hn

/-- A text among the choices protects the types of all. -/
example : ∀ i c w, ExCh.mixed[i]? = some c → toValue (stored ExCh.mixed) i = some w → w.type = c.type :=
  (C115_types_kept_iff ExCh.mixed_fits).2 (.inr ⟨.none, by simp [ExCh.mixed], rfl⟩)

/-- **C115 is false of the code** for types: with the choices `[True, 2]`, the entry of `True` is read as the integer 1, and with
the choices `[1, 0.5]` the entry of `1` is read as the float 1.0. -/
theorem C115_type_changed : toVector (stored ExCh.flags) (.bool true) = .ok 0 ∧
    toValue (stored ExCh.flags) 0 = some (.int 1) ∧ toVector (stored ExCh.numbers) (.int 1) = .ok 0 ∧
    ∃ q, toValue (stored ExCh.numbers) 0 = some (.flt q) := by
  refine ⟨by decide +kernel, by decide +kernel, (C115_values_kept_partial ExCh.numbers_fits ExCh.numbers_distinct
    ExCh.numbers_nul ExCh.numbers_doubles (i := 0) rfl).2.1, F64.rd ((1 : Int) : Rat), ?_⟩
  rfl

/-! ## What is lost -/

/-- **C115 is false of the code** for integers that are not doubles, listed together with floats: the integer, which the user has
listed as a choice, is not a legal value, and as default value it makes the constructor raise. -/
theorem C115_big_integer_refused (_hf : Fits xs) (hn : ∀ x ∈ xs, x.num? ≠ none) (hq : ∀ q, Sc.flt q ∈ xs → F64.IsF64 q)
    (hfl : ∃ q, Sc.flt q ∈ xs) {n : Int} (_hm : Sc.int n ∈ xs) (hd : ¬ F64.IsF64 (n : Rat)) :
    legalValue (stored xs) (.int n) = false ∧ mk xs (some (.int n)) = .error .valueError ∧
    ((∃ cs, xs = .int n :: cs) → mk xs none = .error .valueError) := by
  have h1 : xs.any Sc.isFlt = true := by
    obtain ⟨q, h⟩ := hfl
    exact List.any_eq_true.2 ⟨_, h, rfl⟩
  have hl : legalValue (stored xs) (.int n) = false := by
    rw [Bool.eq_false_iff]
    intro h
    unfold legalValue at h
    rw [lookupFrom_isSome, stored_numbers hn, if_pos h1] at h
    obtain ⟨y, hy, ey⟩ := h
    obtain ⟨c, hc, rfl⟩ := List.mem_map.1 hy
    apply hd
    cases c with
    | none => exact absurd rfl (hn _ hc)
    | str t => exact absurd rfl (hn _ hc)
    | bool b =>
      cases b <;> simp [Sc.asFloat, queried, Sc.asText, Sc.pyEq, Sc.num?] at ey
      · rw [← ey]; exact ⟨0, 0, by norm_num, by norm_num, by norm_num⟩
      · rw [← ey]; exact ⟨1, 0, by norm_num, by norm_num, by norm_num⟩
    | int m =>
      simp only [Sc.asFloat, queried, Sc.asText, Sc.pyEq, Sc.num?, decide_eq_true_eq] at ey
      rw [← ey]
      exact F64.isF64_rd _
    | flt q =>
      simp only [Sc.asFloat, queried, Sc.asText, Sc.pyEq, Sc.num?, decide_eq_true_eq] at ey
      rw [← ey]
      exact hq q hc
  refine ⟨hl, ?_, ?_⟩
  · unfold mk
    split
    · cases xs with
      | nil => rfl
      | cons c cs =>
        simp only [Option.getD_some, hl]
        split <;> rfl
    · rfl
  · rintro ⟨cs, rfl⟩
    unfold mk
    split
    · simp only [Option.getD_none, hl]
      split <;> rfl
    · rfl

example : legalValue (stored ExCh.big) (.int (2 ^ 53 + 1)) = false :=
  (C115_big_integer_refused (xs := ExCh.big) (by
      intro n hn
      simp only [ExCh.big, List.mem_cons, Sc.int.injEq, reduceCtorEq, List.not_mem_nil, or_false, false_or] at hn
      rcases hn with rfl | rfl <;> decide)
    (by
      intro x hx
      simp only [ExCh.big, List.mem_cons, List.not_mem_nil, or_false] at hx
      rcases hx with rfl | rfl | rfl <;> simp [Sc.num?])
    (by
      intro q hq
      simp only [ExCh.big, List.mem_cons, Sc.flt.injEq, reduceCtorEq, List.not_mem_nil, or_false] at hq
      subst hq
      exact ⟨1, -1, by norm_num, by norm_num, by norm_num⟩)
    ⟨1/2, by simp [ExCh.big]⟩ (by simp [ExCh.big]) ExCh.odd_not_double).1

/-- **C115 is false of the code** for texts that end with a null character: if all choices are texts, such a choice never comes
back, and choices that differ only in null characters at their ends are taken for one another. -/
theorem C115_null_characters (ht : ∀ x ∈ xs, x.isStr = true) :
    (∀ i t, toValue (stored xs) i = some (.str t) → t.getLast? ≠ some '\x00') ∧
    ∀ s t, stripNul s = stripNul t → toVector (stored xs) (.str s) = toVector (stored xs) (.str t) := by
  refine ⟨fun i t h => ?_, fun s t h => by simp [toVector, queried, Sc.asText, h]⟩
  cases xs with
  | nil => simp [toValue, stored] at h
  | cons x xs =>
    have hx := ht x (by simp)
    have h1 : (x :: xs).any Sc.isNone = false := by
      rw [List.any_eq_false]
      intro y hy
      have := ht y hy
      cases y <;> simp [Sc.isStr, Sc.isNone] at this ⊢
    have h2 : (x :: xs).any Sc.isStr = true := List.any_eq_true.2 ⟨x, by simp, hx⟩
    have h3 : (x :: xs).all Sc.isStr = true := List.all_eq_true.2 ht
    have e : stored (x :: xs) = (x :: xs).map Sc.asText := by
      unfold stored
      rw [if_neg (by rw [h1]; simp), if_pos h2, if_pos h3]
    rw [toValue, e, List.getElem?_map, Option.map_eq_some_iff] at h
    obtain ⟨c, -, hc⟩ := h
    cases c with
    | str u =>
      simp only [Sc.asText, Sc.str.injEq] at hc
      rw [← hc]
      exact stripNul_ends u
    | _ => simp [Sc.asText] at hc

example : toVector (stored [.str ['a'], .str ['a', '\x00']]) (.str ['a']) = .ok 1 := by
  rw [(C115_null_characters (xs := [.str ['a'], .str ['a', '\x00']]) (by simp [Sc.isStr])).2 ['a'] ['a', '\x00'] (by decide)]
  decide +kernel

/-! ## The main model -/

/-- A value of the main model, which has no booleans and no `None`. -/
def ofVal : Val → Sc
  | .int n => .int n
  | .flt q => .flt q
  | .str t => .str t.toList

theorem ofVal_pyEq (a b : Val) : (ofVal a).pyEq (ofVal b) = a.pyEq b := by
  rw [Bool.eq_iff_iff]
  cases a <;> cases b <;> simp [ofVal, Sc.pyEq, Sc.num?, Val.pyEq, Val.num?, String.toList_inj]

theorem distinct_ofVal : ∀ {cs : List Val}, distinctVals cs = true → Distinct (cs.map ofVal)
  | [], _ => List.Pairwise.nil
  | c :: cs, h => by
    simp only [distinctVals, Bool.and_eq_true, Bool.not_eq_true'] at h
    refine List.Pairwise.cons ?_ (distinct_ofVal h.2)
    intro y hy
    obtain ⟨d, hd, rfl⟩ := List.mem_map.1 hy
    rw [ofVal_pyEq, Bool.eq_false_iff]
    intro e
    have := pyIn_iff.2 ⟨d, hd, Val.pyEq_symm e⟩
    rw [h.1] at this
    cases this

/-- **C115, guarded.** For such choices the array does what the main model (`Model/Hyper.lean`) says: the same values are legal, and
they have the same entries. -/
theorem C115_main_model_partial {cs : List Val} (hd : distinctVals cs = true) (hf : Fits (cs.map ofVal))
    (hn : NoNulEnds (cs.map ofVal)) (hdf : DoublesIfFloats (cs.map ofVal)) {v : Val}
    (hv : ∀ t : String, v = .str t → t.toList.getLast? ≠ some '\x00') :
    legalValue (stored (cs.map ofVal)) (ofVal v) = (Kind.cat cs).legalValue v ∧
    ∀ i : Nat, toVector (stored (cs.map ofVal)) (ofVal v) = .ok i ↔ (Kind.cat cs).toVec v = some (i : Rat) := by
  have hv' : ∀ t, ofVal v = .str t → t.getLast? ≠ some '\x00' := by
    intro t ht
    cases v with
    | str s =>
      simp only [ofVal, Sc.str.injEq] at ht
      subst ht
      exact hv s rfl
    | _ => simp [ofVal] at ht
  have hL : legalValue (stored (cs.map ofVal)) (ofVal v) = (Kind.cat cs).legalValue v := by
    rw [Bool.eq_iff_iff, C115_legal_iff_partial hf hn hdf hv']
    simp only [Kind.legalValue, pyIn_iff]
    constructor
    · rintro ⟨y, hy, e⟩
      obtain ⟨c, hc, rfl⟩ := List.mem_map.1 hy
      exact ⟨c, hc, by rw [← ofVal_pyEq]; exact e⟩
    · rintro ⟨c, hc, e⟩
      exact ⟨_, List.mem_map.2 ⟨c, hc, rfl⟩, by rw [ofVal_pyEq]; exact e⟩
  refine ⟨hL, fun i => ?_⟩
  have hx := distinct_ofVal hd
  obtain ⟨f, e, hfe⟩ := stored_map hn hdf
  have hval : (Kind.cat cs).toVec v = some (i : Rat) ↔ seqIndex cs v = some i := by
    simp only [Kind.toVec, Option.map_eq_some_iff, Nat.cast_inj, exists_eq_right]
  rw [hval]
  have hlk : toVector (stored (cs.map ofVal)) (ofVal v) = .ok i ↔ lookupFrom (ofVal v) 0 (stored (cs.map ofVal)) = some i := by
    unfold toVector
    rw [queried_eq hv']
    cases lookupFrom (ofVal v) 0 (stored (cs.map ofVal)) <;> simp
  rw [hlk]
  constructor
  · intro h
    obtain ⟨-, y, hy, ey⟩ := lookupFrom_bounds h
    rw [Nat.sub_zero, e, List.getElem?_map, Option.map_eq_some_iff] at hy
    obtain ⟨z, hz, rfl⟩ := hy
    have ez := Sc.pyEq_trans (Sc.pyEq_symm (hfe z (List.mem_of_getElem? hz))) ey
    rw [List.getElem?_map, Option.map_eq_some_iff] at hz
    obtain ⟨w, hw, rfl⟩ := hz
    rw [ofVal_pyEq] at ez
    have h1 := seqIndex_getElem hd hw
    unfold seqIndex at h1 ⊢
    simpa only [Val.pyEq_congr_right ez] using h1
  · intro h
    obtain ⟨w, hw, ew⟩ := seqIndex_some h
    have hz : (cs.map ofVal)[i]? = some (ofVal w) := by simp [hw]
    rw [e]
    refine lookupFrom_unique (x := f (ofVal w)) (by rw [List.getElem?_map, hz]; rfl)
      (Sc.pyEq_trans (hfe _ (List.mem_of_getElem? hz)) (by rw [ofVal_pyEq]; exact ew)) fun j y hy ey => ?_
    rw [List.getElem?_map, Option.map_eq_some_iff] at hy
    obtain ⟨z, hz', rfl⟩ := hy
    have ez := Sc.pyEq_trans (Sc.pyEq_symm (hfe z (List.mem_of_getElem? hz'))) ey
    exact distinct_get hx hz' hz (Sc.pyEq_trans ez (Sc.pyEq_symm (by rw [ofVal_pyEq]; exact ew)))

example : legalValue (stored ([Val.str "a", .str "b"].map ofVal)) (ofVal (.str "b")) = (Kind.cat [.str "a", .str "b"]).legalValue (.str "b") :=
  (C115_main_model_partial (cs := [.str "a", .str "b"]) (by decide +kernel) (by intro n hn; simp [ofVal] at hn)
    (by
      intro t ht
      simp only [List.map_cons, List.map_nil, ofVal, List.mem_cons, Sc.str.injEq, List.not_mem_nil, or_false] at ht
      rcases ht with rfl | rfl <;> decide)
    (by intro h; exact absurd rfl (h (.str "a".toList) (by simp [ofVal])))
    (v := .str "b") (by intro t ht; cases ht; decide)).1

end Verif.Typed
