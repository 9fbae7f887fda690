import Verif.Spec.Choices
import Verif.Lemmas.F64

/-!
# Choices with their types: lemmas
-/

set_option autoImplicit false

namespace Verif.Typed

theorem Sc.pyEq_refl (a : Sc) : a.pyEq a = true := by
  cases a <;> simp [Sc.pyEq, Sc.num?]

theorem Sc.pyEq_symm {a b : Sc} (h : a.pyEq b = true) : b.pyEq a = true := by
  cases a <;> cases b <;> simp_all [Sc.pyEq, Sc.num?, eq_comm]

theorem Sc.pyEq_trans {a b c : Sc} (h : a.pyEq b = true) (h' : b.pyEq c = true) : a.pyEq c = true := by
  cases a <;> cases b <;> simp [Sc.pyEq, Sc.num?] at h <;> cases c <;> simp [Sc.pyEq, Sc.num?] at h' ⊢ <;>
    first | exact h.trans h' | simp_all

/-! ## Looking up -/

theorem lookupFrom_bounds {v : Sc} : ∀ {xs : List Sc} {b i : Nat}, lookupFrom v b xs = some i →
    b ≤ i ∧ ∃ x, xs[i - b]? = some x ∧ x.pyEq v = true
  | [], _, _, h => by simp [lookupFrom] at h
  | x :: xs, b, i, h => by
    simp only [lookupFrom] at h
    cases e : lookupFrom v (b + 1) xs with
    | some j =>
      rw [e] at h
      simp only [Option.some.injEq] at h
      subst h
      obtain ⟨h1, y, h2, h3⟩ := lookupFrom_bounds e
      refine ⟨by omega, y, ?_, h3⟩
      rw [show j - b = (j - (b + 1)) + 1 by omega, List.getElem?_cons_succ]
      exact h2
    | none =>
      rw [e] at h
      simp only [Option.ite_none_right_eq_some, Option.some.injEq] at h
      obtain ⟨h1, rfl⟩ := h
      exact ⟨le_refl _, x, by simp, h1⟩

theorem lookupFrom_isSome {v : Sc} : ∀ {xs : List Sc} {b : Nat}, (lookupFrom v b xs).isSome = true ↔ ∃ x ∈ xs, x.pyEq v = true
  | [], _ => by simp [lookupFrom]
  | x :: xs, b => by
    simp only [lookupFrom]
    have ih := @lookupFrom_isSome v xs (b + 1)
    cases e : lookupFrom v (b + 1) xs with
    | some j =>
      rw [e] at ih
      simp only [Option.isSome_some, true_iff] at ih ⊢
      obtain ⟨y, hy, e'⟩ := ih
      exact ⟨y, List.mem_cons_of_mem _ hy, e'⟩
    | none =>
      rw [e] at ih
      simp only [Option.isSome_none, Bool.false_eq_true, false_iff, not_exists, not_and] at ih
      by_cases h : x.pyEq v = true
      · simp only [h, if_true, Option.isSome_some, true_iff]
        exact ⟨x, by simp, h⟩
      · simp only [h, Bool.false_eq_true, if_false, Option.isSome_none, false_iff, not_exists, not_and]
        intro y hy
        rcases List.mem_cons.1 hy with rfl | hy
        · exact h
        · exact ih y hy

/-- The only position with an equal element is found. -/
theorem lookupFrom_unique {v : Sc} {xs : List Sc} {i : Nat} {x : Sc} (hx : xs[i]? = some x) (he : x.pyEq v = true)
    (hu : ∀ j y, xs[j]? = some y → y.pyEq v = true → j = i) : lookupFrom v 0 xs = some i := by
  have hs : (lookupFrom v 0 xs).isSome = true := lookupFrom_isSome.2 ⟨x, List.mem_of_getElem? hx, he⟩
  obtain ⟨j, hj⟩ := Option.isSome_iff_exists.1 hs
  obtain ⟨-, y, hy, e⟩ := lookupFrom_bounds hj
  rw [Nat.sub_zero] at hy
  rw [hj, hu j y hy e]

/-! ## Texts -/

theorem stripNul_eq {t : List Char} : stripNul t = t ↔ t.getLast? ≠ some '\x00' := by
  unfold stripNul
  rw [List.rdropWhile_eq_self_iff]
  constructor
  · intro h e
    have hne : t ≠ [] := by rintro rfl; simp at e
    rw [List.getLast?_eq_some_getLast hne] at e
    exact h hne (by simpa using e)
  · intro h hne e
    exact h (by rw [List.getLast?_eq_some_getLast hne]; simpa using e)

theorem stripNul_ends (t : List Char) : (stripNul t).getLast? ≠ some '\x00' := by
  rw [← stripNul_eq]
  unfold stripNul
  exact List.rdropWhile_idempotent _ t

theorem queried_eq {v : Sc} (h : ∀ t, v = .str t → t.getLast? ≠ some '\x00') : queried v = v := by
  cases v with
  | str t => simp only [queried, Sc.asText]; rw [stripNul_eq.2 (h t rfl)]
  | _ => rfl

/-! ## What the array keeps -/

theorem num_ne_none {x : Sc} : x.num? ≠ none ↔ x.isNone = false ∧ x.isStr = false := by
  cases x <;> simp [Sc.num?, Sc.isNone, Sc.isStr]

/-- The cases of `stored`, for numbers. -/
theorem stored_numbers {xs : List Sc} (h : ∀ x ∈ xs, x.num? ≠ none) : stored xs =
    if xs.any Sc.isFlt then xs.map Sc.asFloat else if xs.any Sc.isInt then xs.map Sc.asInt else xs := by
  unfold stored
  have h1 : xs.any Sc.isNone = false := by
    rw [List.any_eq_false]; intro x hx; simp [(num_ne_none.1 (h x hx)).1]
  have h2 : xs.any Sc.isStr = false := by
    rw [List.any_eq_false]; intro x hx; simp [(num_ne_none.1 (h x hx)).2]
  simp [h1, h2]

/-- With something that is not a number, elements only lose null characters. -/
theorem stored_others {xs : List Sc} (h : ∃ x ∈ xs, x.num? = none) :
    stored xs = xs ∨ stored xs = xs.map Sc.asText := by
  unfold stored
  obtain ⟨x, hx, e⟩ := h
  split
  · exact .inl rfl
  · rename_i h1
    split
    · split
      · exact .inr rfl
      · exact .inl rfl
    · rename_i h2
      exfalso
      cases x with
      | none => exact h1 (List.any_eq_true.2 ⟨_, hx, rfl⟩)
      | str t => exact h2 (List.any_eq_true.2 ⟨_, hx, rfl⟩)
      | _ => simp [Sc.num?] at e

theorem asText_pyEq {x : Sc} (h : ∀ t, x = .str t → t.getLast? ≠ some '\x00') : x.asText.pyEq x = true := by
  have := queried_eq h
  unfold queried at this
  rw [this]
  exact Sc.pyEq_refl x

theorem asInt_pyEq (x : Sc) : x.asInt.pyEq x = true := by
  cases x with
  | bool b => cases b <;> simp [Sc.asInt, Sc.pyEq, Sc.num?]
  | _ => exact Sc.pyEq_refl _

theorem asFloat_pyEq {x : Sc} (h : ∀ n, x = .int n → F64.IsF64 (n : Rat)) : x.asFloat.pyEq x = true := by
  cases x with
  | bool b => cases b <;> simp [Sc.asFloat, Sc.pyEq, Sc.num?]
  | int n => simp [Sc.asFloat, Sc.pyEq, Sc.num?, F64.rd_of_isF64 (h n rfl)]
  | _ => exact Sc.pyEq_refl _

/-- The array has the choices as elements, up to `==`. -/
theorem stored_map {xs : List Sc} (hn : NoNulEnds xs) (hd : DoublesIfFloats xs) :
    ∃ f : Sc → Sc, stored xs = xs.map f ∧ ∀ x ∈ xs, (f x).pyEq x = true := by
  by_cases h : ∃ x ∈ xs, x.num? = none
  · rcases stored_others h with e | e
    · exact ⟨id, by simpa using e, fun x _ => Sc.pyEq_refl x⟩
    · exact ⟨_, e, fun x hx => asText_pyEq fun t ht => hn t (ht ▸ hx)⟩
  · have h' : ∀ x ∈ xs, x.num? ≠ none := fun x hx e => h ⟨x, hx, e⟩
    rw [stored_numbers h']
    split
    · rename_i hf
      refine ⟨_, rfl, fun x hx => asFloat_pyEq fun n hn => ?_⟩
      obtain ⟨y, hy, ey⟩ := List.any_eq_true.1 hf
      cases y with
      | flt q => exact hd h' ⟨q, hy⟩ n (hn ▸ hx)
      | _ => simp [Sc.isFlt] at ey
    · split
      · exact ⟨_, rfl, fun x _ => asInt_pyEq x⟩
      · exact ⟨id, by simp, fun x _ => Sc.pyEq_refl x⟩

theorem distinct_get {xs : List Sc} (h : Distinct xs) {i j : Nat} {x y : Sc} (hx : xs[i]? = some x) (hy : xs[j]? = some y)
    (e : x.pyEq y = true) : i = j := by
  obtain ⟨hi, rfl⟩ := List.getElem?_eq_some_iff.1 hx
  obtain ⟨hj, rfl⟩ := List.getElem?_eq_some_iff.1 hy
  rcases Nat.lt_trichotomy i j with h1 | h1 | h1
  · have := List.pairwise_iff_getElem.1 h i j hi hj h1
    rw [this] at e; cases e
  · exact h1
  · have := List.pairwise_iff_getElem.1 h j i hj hi h1
    rw [Sc.pyEq_symm e] at this; cases this

end Verif.Typed
