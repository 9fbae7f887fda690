import Verif.Lemmas.JsonValue

/-!
# Reading a JSON file that was cut
-/

set_option autoImplicit false

namespace Verif.JText
open Verif Spec

/-- Nothing was read, or what is left could only continue a number. -/
def Dead {α : Type} (o : Option (α × Chars)) : Prop := ∀ w r, o = some (w, r) → ∀ c ∈ r, NumChar c

theorem dead_none {α : Type} : Dead (none : Option (α × Chars)) := by intro w r h; cases h

theorem value_dead_num (T : PyText) {x : Chars} (hx : ∀ c ∈ x, NumChar c) (hh : ∃ c r, x = c :: r ∧ (c.isDigit = true ∨ c = '-')) {p : Chars}
    (h : p <+: x) (k : Nat) : Dead (value T k p) := by
  cases k with
  | zero => exact dead_none
  | succ k =>
    cases p with
    | nil => rw [value_nil]; exact dead_none
    | cons c p =>
      obtain ⟨d, r, rfl, hd⟩ := hh
      have hc : c = d := by obtain ⟨t, ht⟩ := h; simp only [List.cons_append, List.cons.injEq] at ht; exact ht.1
      subst hc
      rw [value_num T k hd]
      intro w r' e
      simp only [Option.map_eq_some_iff, Prod.mk.injEq, Prod.exists] at e
      obtain ⟨v, r1, e1, _, rfl⟩ := e
      intro y hy
      exact hx y (h.subset (scanNum_rest e1 y hy))

theorem cons_prefix {c : Char} {x p : Chars} (h : p <+: c :: x) (hne : p ≠ c :: x) : p = [] ∨ ∃ q, p = c :: q ∧ q <+: x ∧ q ≠ x := by
  obtain ⟨t, ht⟩ := h
  cases p with
  | nil => exact .inl rfl
  | cons d q =>
    simp only [List.cons_append, List.cons.injEq] at ht
    obtain ⟨rfl, ht⟩ := ht
    exact .inr ⟨q, rfl, ⟨t, ht⟩, by rintro rfl; exact hne rfl⟩

theorem word_value_cut {T : PyText} {c : Char} {w : Chars} {j : Json} (hw : ∀ k r, value T (k + 1) (c :: r) = word (c :: w) j (c :: r))
    {p : Chars} (h : p <+: c :: w) (hne : p ≠ c :: w) (k : Nat) : value T k p = none := by
  cases k with
  | zero => simp [value]
  | succ k =>
    rcases cons_prefix h hne with rfl | ⟨q, rfl, hq, hqn⟩
    · exact value_nil T _
    · rw [hw]
      exact word_cut j h hne

theorem elements_nil (T : PyText) (k : Nat) : elements T k [] = none := by
  cases k with
  | zero => simp [elements]
  | succ k => rw [elements, value_nil]

/-- After a value that was cut, no list goes on. -/
theorem elements_dead {T : PyText} {k : Nat} {p : Chars} (h : Dead (value T k p)) : elements T (k + 1) p = none := by
  rw [elements]
  cases e : value T k p with
  | none => rfl
  | some x =>
    obtain ⟨w, r⟩ := x
    have hr := h w r e
    dsimp only
    rw [skip_nums hr]
    cases r with
    | nil => rfl
    | cons c r =>
      have hc := hr c (by simp)
      dsimp only
      rw [if_neg (by rintro rfl; revert hc; unfold NumChar; decide), if_neg (by rintro rfl; revert hc; unfold NumChar; decide)]

mutual
theorem value_cut {T : PyText} (hT : FloatTexts T) : ∀ (j : Json), DistinctKeys j → ∀ (k : Nat) (p : Chars), p <+: text T j → p ≠ text T j →
    2 * p.length < k → Dead (value T k p) ∧ (Closed j → value T k p = none)
  | j, _, 0, p, _, _, hk => by omega
  | .null, _, k + 1, p, h, hne, _ => by
    rw [text] at h hne
    have := word_value_cut (value_null T) h hne (k + 1)
    rw [this]
    exact ⟨dead_none, fun _ => rfl⟩
  | .bool true, _, k + 1, p, h, hne, _ => by
    rw [text] at h hne
    have := word_value_cut (value_true T) h hne (k + 1)
    rw [this]
    exact ⟨dead_none, fun _ => rfl⟩
  | .bool false, _, k + 1, p, h, hne, _ => by
    rw [text] at h hne
    have := word_value_cut (value_false T) h hne (k + 1)
    rw [this]
    exact ⟨dead_none, fun _ => rfl⟩
  | .val (.int n), _, k + 1, p, h, _, _ => by
    rw [text, valText] at h
    exact ⟨value_dead_num T (int_num n) (int_head n) h (k + 1), fun hc => hc.elim⟩
  | .val (.flt q), _, k + 1, p, h, _, _ => by
    rw [text, valText] at h
    exact ⟨value_dead_num T (float_num (hT.shape q)) (float_head (hT.shape q)) h (k + 1), fun hc => hc.elim⟩
  | .val (.str s), _, k + 1, p, h, hne, _ => by
    rw [text, valText, strText_eq] at h hne
    have : value T (k + 1) p = none := by
      rcases cons_prefix h hne with rfl | ⟨q, rfl, hq, hqn⟩
      · exact value_nil T _
      · rw [value_quote, scanString_cut s hq hqn]
        rfl
    rw [this]
    exact ⟨dead_none, fun _ => rfl⟩
  | .arr [], _, k + 1, p, h, hne, _ => by
    rw [text] at h hne
    have : value T (k + 1) p = none := by
      rcases cons_prefix h hne with rfl | ⟨q, rfl, hq, hqn⟩
      · exact value_nil T _
      · rcases cons_prefix hq hqn with rfl | ⟨q', rfl, hq', hqn'⟩
        · rw [value_bracket]; rfl
        · exact absurd (List.prefix_nil.1 hq') hqn'
    rw [this]
    exact ⟨dead_none, fun _ => rfl⟩
  | .arr (j :: js), hd, k + 1, p, h, hne, hk => by
    cases hd with
    | arr hd =>
    rw [text] at h hne
    have : value T (k + 1) p = none := by
      rcases cons_prefix h hne with rfl | ⟨q, rfl, hq, hqn⟩
      · exact value_nil T _
      · have hl := elements_cut hT (j :: js) (by simp) hd k q hq hqn (by simp only [List.length_cons] at hk; omega)
        rw [value_bracket, skip_prefix hT j hq]
        cases q with
        | nil => rfl
        | cons d q =>
          obtain ⟨c, t, e, _, hc⟩ := text_head hT j
          have hdc : d = c := by
            rw [e] at hq
            obtain ⟨t', ht'⟩ := hq
            simp only [List.cons_append, List.cons.injEq] at ht'
            exact ht'.1
          dsimp only
          rw [if_neg (hdc ▸ hc), hl]
          rfl
    rw [this]
    exact ⟨dead_none, fun _ => rfl⟩
  | .obj [], _, k + 1, p, h, hne, _ => by
    rw [text] at h hne
    have : value T (k + 1) p = none := by
      rcases cons_prefix h hne with rfl | ⟨q, rfl, hq, hqn⟩
      · exact value_nil T _
      · rcases cons_prefix hq hqn with rfl | ⟨q', rfl, hq', hqn'⟩
        · rw [value_brace]; rfl
        · exact absurd (List.prefix_nil.1 hq') hqn'
    rw [this]
    exact ⟨dead_none, fun _ => rfl⟩
  | .obj ((key, j) :: fs), hd, k + 1, p, h, hne, hk => by
    cases hd with
    | obj hn hd =>
    rw [text] at h hne
    have : value T (k + 1) p = none := by
      rcases cons_prefix h hne with rfl | ⟨q, rfl, hq, hqn⟩
      · exact value_nil T _
      · rw [strText_eq, List.cons_append] at hq hqn
        rcases cons_prefix hq hqn with rfl | ⟨q', rfl, hq', hqn'⟩
        · rw [value_brace]; rfl
        · rw [List.append_assoc, List.cons_append, List.nil_append] at hq' hqn'
          have hl := members_cut hT ((key, j) :: fs) (by simp) hd k q' hq' hqn' (by simp only [List.length_cons] at hk; omega)
          rw [value_brace, skip_cons (by unfold IsSpace; decide)]
          dsimp only
          rw [if_neg (by decide), if_pos rfl, hl]
          rfl
    rw [this]
    exact ⟨dead_none, fun _ => rfl⟩
theorem elements_cut {T : PyText} (hT : FloatTexts T) : ∀ (js : List Json), js ≠ [] → (∀ j ∈ js, DistinctKeys j) → ∀ (k : Nat) (p : Chars),
    match js with
    | [] => True
    | j :: js' => p <+: text T j ++ textL T js' → p ≠ text T j ++ textL T js' → 2 * p.length + 1 < k → elements T k p = none
  | [], h, _, _, _ => absurd rfl h
  | j :: js, _, _, 0, p => by intro _ _ hk; omega
  | [j], _, hd, k + 1, p => by
    intro h hne hk
    rcases prefix_cases h with ⟨g1, g2⟩ | ⟨p', rfl, hp'⟩
    · exact elements_dead (value_cut hT j (hd j (by simp)) k p g1 g2 (by omega)).1
    · rw [textL] at hp' hne
      rcases cons_prefix hp' (by rintro rfl; exact hne rfl) with rfl | ⟨q', rfl, hq', hqn'⟩
      · rw [elements, value_text hT j (hd j (by simp)) k [] (.inr stop_nil) (by omega)]
        rfl
      · exact absurd (List.prefix_nil.1 hq') hqn'
  | j :: j' :: js, _, hd, k + 1, p => by
    intro h hne hk
    have hl := elements_cut hT (j' :: js) (by simp) (fun x hx => hd x (by simp [hx])) k
    rcases prefix_cases h with ⟨g1, g2⟩ | ⟨p', rfl, hp'⟩
    · exact elements_dead (value_cut hT j (hd j (by simp)) k p g1 g2 (by omega)).1
    · have hst : Stop p' := stop_prefix hp' (by simpa using stop_textL T (j' :: js) [])
      rw [elements, value_text hT j (hd j (by simp)) k p' (.inr hst) (by omega)]
      dsimp only
      have hpn : p' ≠ textL T (j' :: js) := by rintro rfl; exact hne rfl
      rw [textL] at hp' hpn
      rcases cons_prefix hp' hpn with rfl | ⟨q, rfl, hq, hqn⟩
      · rfl
      · rw [skip_cons (by unfold IsSpace; decide)]
        dsimp only
        rw [if_neg (by decide), if_pos rfl]
        rcases cons_prefix hq hqn with rfl | ⟨q', rfl, hq', hqn'⟩
        · rw [skip, elements_nil]
          rfl
        · rw [skip_blank, skip_prefix hT j' hq', hl q' hq' hqn']
          · rfl
          · simp only [List.length_append, List.length_cons] at hk ⊢
            omega
theorem members_cut {T : PyText} (hT : FloatTexts T) : ∀ (fs : List (String × Json)), fs ≠ [] → (∀ p ∈ fs, DistinctKeys p.2) →
    ∀ (k : Nat) (p : Chars),
    match fs with
    | [] => True
    | (key, j) :: fs' => p <+: key.toList.flatMap escape ++ '"' :: ':' :: ' ' :: (text T j ++ textF T fs') →
      p ≠ key.toList.flatMap escape ++ '"' :: ':' :: ' ' :: (text T j ++ textF T fs') → 2 * p.length + 1 < k → members T k p = none
  | [], h, _, _, _ => absurd rfl h
  | (key, j) :: fs, _, _, 0, p => by intro _ _ hk; omega
  | (key, j) :: fs, _, hd, k + 1, p => by
    intro h hne hk
    have e0 : key.toList.flatMap escape ++ '"' :: ':' :: ' ' :: (text T j ++ textF T fs)
        = (key.toList.flatMap escape ++ ['"']) ++ (':' :: ' ' :: (text T j ++ textF T fs)) := by simp
    rw [e0] at h hne
    rw [members]
    rcases prefix_cases h with ⟨g1, g2⟩ | ⟨p1, rfl, hp1⟩
    · rw [scanString_cut key g1 g2]
    · have hn1 : p1 ≠ ':' :: ' ' :: (text T j ++ textF T fs) := by rintro rfl; exact hne rfl
      rw [List.append_assoc, List.cons_append, List.nil_append, scanString_text]
      dsimp only
      rcases cons_prefix hp1 hn1 with rfl | ⟨p2, rfl, hp2, hn2⟩
      · rfl
      · rw [skip_cons (by unfold IsSpace; decide)]
        dsimp only
        rw [if_pos rfl]
        rcases cons_prefix hp2 hn2 with rfl | ⟨p3, rfl, hp3, hn3⟩
        · rw [skip, value_nil]
        · rw [skip_blank, skip_prefix hT j hp3]
          have hlen : 2 * p3.length < k := by
            simp only [List.length_append, List.length_cons] at hk
            omega
          rcases prefix_cases hp3 with ⟨g1, g2⟩ | ⟨p4, rfl, hp4⟩
          · have hdead := (value_cut hT j (hd (key, j) (by simp)) k p3 g1 g2 hlen).1
            cases e : value T k p3 with
            | none => rfl
            | some x =>
              obtain ⟨w, r⟩ := x
              have hr := hdead w r e
              dsimp only
              rw [skip_nums hr]
              cases r with
              | nil => rfl
              | cons c r =>
                have hc := hr c (by simp)
                dsimp only
                rw [if_neg (by rintro rfl; revert hc; unfold NumChar; decide), if_neg (by rintro rfl; revert hc; unfold NumChar; decide)]
          · have hst : Stop p4 := stop_prefix hp4 (by simpa using stop_textF T fs [])
            have hn4 : p4 ≠ textF T fs := by rintro rfl; exact hn3 rfl
            rw [value_text hT j (hd (key, j) (by simp)) k p4 (.inr hst) hlen]
            dsimp only
            cases fs with
            | nil =>
              rw [textF] at hp4 hn4
              rcases cons_prefix hp4 hn4 with rfl | ⟨q', rfl, hq', hqn'⟩
              · rfl
              · exact absurd (List.prefix_nil.1 hq') hqn'
            | cons f fs =>
              obtain ⟨key', j'⟩ := f
              have hl := members_cut hT ((key', j') :: fs) (by simp) (fun x hx => hd x (by simp [hx])) k
              rw [textF] at hp4 hn4
              rcases cons_prefix hp4 hn4 with rfl | ⟨q, rfl, hq, hqn⟩
              · rfl
              · rw [skip_cons (by unfold IsSpace; decide)]
                dsimp only
                rw [if_neg (by decide), if_pos rfl]
                rcases cons_prefix hq hqn with rfl | ⟨q', rfl, hq', hqn'⟩
                · rfl
                · rw [strText_eq, List.cons_append] at hq' hqn'
                  rw [skip_blank]
                  rcases cons_prefix hq' hqn' with rfl | ⟨q2, rfl, hq2, hqn2⟩
                  · rfl
                  · rw [skip_cons (by unfold IsSpace; decide)]
                    dsimp only
                    rw [if_pos rfl]
                    rw [List.append_assoc, List.cons_append, List.nil_append] at hq2 hqn2
                    rw [hl q2 hq2 hqn2]
                    · rfl
                    · simp only [List.length_append, List.length_cons] at hk ⊢
                      omega
end

/-! ## Files -/

theorem load_text {T : PyText} (hT : FloatTexts T) {j : Json} (hj : DistinctKeys j) : load T (text T j) = some j := by
  unfold load
  have e := skip_text hT j []
  rw [List.append_nil] at e
  have h := value_text hT j hj (2 * (text T j).length + 1) [] (.inr stop_nil) (by simp)
  rw [List.append_nil] at h
  rw [e, h]
  rfl

/-- White space, or nothing, after a value that is not a number. -/
theorem load_cut {T : PyText} (hT : FloatTexts T) {j : Json} (hj : DistinctKeys j) (hc : Closed j) {p : Chars} (h : p <+: text T j)
    (hne : p ≠ text T j) : load T p = none := by
  unfold load
  have e := skip_prefix hT j (r := []) (by simpa using h)
  rw [e, (value_cut hT j hj (2 * p.length + 1) p h hne (by omega)).2 hc]

end Verif.JText
