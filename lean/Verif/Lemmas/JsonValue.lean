import Verif.Lemmas.JsonText

/-!
# Reading back the text of a JSON file: values
-/

set_option autoImplicit false

namespace Verif.JText
open Verif Spec

/-- White space. -/
def IsSpace (c : Char) : Prop := c = ' ' ∨ c = '\t' ∨ c = '\n' ∨ c = '\r'

theorem skip_cons {c : Char} (h : ¬ IsSpace c) (r : Chars) : skip (c :: r) = c :: r := by
  rw [skip]; exact if_neg h

theorem skip_blank (r : Chars) : skip (' ' :: r) = skip r := by rw [skip]; exact if_pos (.inl rfl)

theorem numChar_not_space {c : Char} (h : NumChar c) : ¬ IsSpace c := by
  rintro (rfl | rfl | rfl | rfl) <;> revert h <;> unfold NumChar <;> decide

theorem skip_nums {r : Chars} (h : ∀ c ∈ r, NumChar c) : skip r = r := by
  cases r with
  | nil => rfl
  | cons c r => exact skip_cons (numChar_not_space (h c (by simp))) r

/-! ## Words and numbers -/

theorem whole_head {t : Chars} (h : WholeText t) : ∃ c r, t = c :: r ∧ c.isDigit = true := by
  rcases h with rfl | ⟨d, ds, rfl, hd, _⟩
  · exact ⟨'0', [], rfl, by decide⟩
  · exact ⟨d, ds, rfl, hd⟩

theorem int_head (n : Int) : ∃ c r, intText n = c :: r ∧ (c.isDigit = true ∨ c = '-') := by
  cases n with
  | ofNat n =>
    obtain ⟨c, r, h, hc⟩ := whole_head (natText_whole n)
    exact ⟨c, r, h, .inl hc⟩
  | negSucc n => exact ⟨'-', _, rfl, .inr rfl⟩

theorem float_head {t : Chars} (h : FloatText t) : ∃ c r, t = c :: r ∧ (c.isDigit = true ∨ c = '-') := by
  cases h with
  | mk sign whole frac exp h1 h2 _ _ _ =>
    rcases h1 with rfl | rfl
    · obtain ⟨c, r, rfl, hc⟩ := whole_head h2
      exact ⟨c, r ++ frac ++ exp, by simp, .inl hc⟩
    · exact ⟨'-', whole ++ frac ++ exp, by simp, .inr rfl⟩

theorem value_num (T : PyText) (k : Nat) {c : Char} (hc : c.isDigit = true ∨ c = '-') (r : Chars) :
    value T (k + 1) (c :: r) = (scanNum T (c :: r)).map (fun p => (.val p.1, p.2)) := by
  have hne : ∀ d : Char, d.isDigit = false → d ≠ '-' → c ≠ d := by
    rintro d h1 h2 rfl
    rcases hc with h | h
    · rw [h1] at h; cases h
    · exact h2 h
  rw [value, if_neg (hne _ (by decide) (by decide)), if_neg (hne _ (by decide) (by decide)), if_neg (hne _ (by decide) (by decide)),
    if_neg (hne _ (by decide) (by decide)), if_neg (hne _ (by decide) (by decide)), if_neg (hne _ (by decide) (by decide))]

theorem value_nil (T : PyText) (k : Nat) : value T k [] = none := by cases k <;> simp [value]

theorem value_quote (T : PyText) (k : Nat) (r : Chars) :
    value T (k + 1) ('"' :: r) = (scanString r).map (fun p => (.val (.str p.1), p.2)) := by
  rw [value, if_pos rfl]

theorem value_bracket (T : PyText) (k : Nat) (r : Chars) : value T (k + 1) ('[' :: r) = match skip r with
      | [] => none
      | d :: r1 => if d = ']' then some (.arr [], r1) else (elements T k (d :: r1)).map (fun p => (.arr p.1, p.2)) := by
  rw [value, if_neg (by decide), if_neg (by decide), if_pos rfl]
  cases skip r <;> rfl

theorem value_brace (T : PyText) (k : Nat) (r : Chars) : value T (k + 1) ('{' :: r) = match skip r with
      | [] => none
      | d :: r1 =>
        if d = '}' then some (.obj [], r1)
        else if d = '"' then (members T k r1).map (fun p => (.obj (dictOf p.1), p.2))
        else none := by
  rw [value, if_neg (by decide), if_pos rfl]
  cases skip r <;> rfl

theorem value_null (T : PyText) (k : Nat) (r : Chars) : value T (k + 1) ('n' :: r) = word "null".toList .null ('n' :: r) := by
  rw [value, if_neg (by decide), if_neg (by decide), if_neg (by decide), if_pos rfl]

theorem value_true (T : PyText) (k : Nat) (r : Chars) : value T (k + 1) ('t' :: r) = word "true".toList (.bool true) ('t' :: r) := by
  rw [value, if_neg (by decide), if_neg (by decide), if_neg (by decide), if_neg (by decide), if_pos rfl]

theorem value_false (T : PyText) (k : Nat) (r : Chars) : value T (k + 1) ('f' :: r) = word "false".toList (.bool false) ('f' :: r) := by
  rw [value, if_neg (by decide), if_neg (by decide), if_neg (by decide), if_neg (by decide), if_neg (by decide), if_pos rfl]

theorem word_text (w : Chars) (j : Json) (r : Chars) : word w j (w ++ r) = some (j, r) := by
  unfold word; simp

theorem word_cut {w p : Chars} (j : Json) (h : p <+: w) (hne : p ≠ w) : word w j p = none := by
  unfold word
  rw [if_neg]
  intro e
  have hl := h.length_le
  rw [List.take_of_length_le hl] at e
  exact hne e

/-! ## Dictionaries -/

theorem setKey_new : ∀ (d : List (String × Json)) (k : String) (j : Json), k ∉ d.map Prod.fst → setKey d k j = d ++ [(k, j)]
  | [], _, _, _ => rfl
  | (k', j') :: d, k, j, h => by
    simp only [List.map_cons, List.mem_cons, not_or] at h
    rw [setKey, if_neg (fun e => h.1 e.symm), setKey_new d k j h.2]
    rfl

theorem dictOf_nodup {fs : List (String × Json)} (h : (fs.map Prod.fst).Nodup) : dictOf fs = fs := by
  have : ∀ (fs d : List (String × Json)), ((d ++ fs).map Prod.fst).Nodup → fs.foldl (fun d p => setKey d p.1 p.2) d = d ++ fs := by
    intro fs
    induction fs with
    | nil => intro d _; simp
    | cons p fs ih =>
      intro d hd
      rw [List.foldl_cons, setKey_new, ih]
      · simp
      · simpa using hd
      · rw [List.map_append, List.nodup_append] at hd
        intro hm
        exact hd.2.2 _ hm p.1 (by simp) rfl
  exact this fs [] (by simpa using h)

/-! ## Heads -/

theorem stop_cons {c : Char} (h : c.isDigit = false ∧ c ≠ '.' ∧ c ≠ 'e' ∧ c ≠ 'E') (r : Chars) : Stop (c :: r) := by
  intro d hd
  simp at hd
  exact hd ▸ h

theorem stop_nil : Stop [] := by intro c hc; simp at hc

theorem stop_textL (T : PyText) (js : List Json) (r : Chars) : Stop (textL T js ++ r) := by
  cases js with
  | nil => rw [textL]; exact stop_cons (by decide) _
  | cons j js => rw [textL]; exact stop_cons (by decide) _

theorem stop_textF (T : PyText) (fs : List (String × Json)) (r : Chars) : Stop (textF T fs ++ r) := by
  cases fs with
  | nil => rw [textF]; exact stop_cons (by decide) _
  | cons j js => obtain ⟨k, j⟩ := j; rw [textF]; exact stop_cons (by decide) _

theorem stop_prefix {p q : Chars} (h : p <+: q) (hq : Stop q) : Stop p := by
  obtain ⟨t, rfl⟩ := h
  cases p with
  | nil => exact stop_nil
  | cons c p => intro d hd; exact hq d (by simpa using hd)

/-- The first character of a value. -/
theorem text_head {T : PyText} (hT : FloatTexts T) (j : Json) : ∃ c r, text T j = c :: r ∧ ¬ IsSpace c ∧ c ≠ ']' := by
  have num : ∀ c : Char, (c.isDigit = true ∨ c = '-') → ¬ IsSpace c ∧ c ≠ ']' := by
    intro c hc
    refine ⟨numChar_not_space (hc.imp id .inl), ?_⟩
    rintro rfl
    revert hc; decide
  cases j with
  | null => exact ⟨'n', _, by rw [text]; rfl, by unfold IsSpace; decide, by decide⟩
  | bool b =>
    cases b with
    | false => exact ⟨'f', _, by rw [text]; rfl, by unfold IsSpace; decide, by decide⟩
    | true => exact ⟨'t', _, by rw [text]; rfl, by unfold IsSpace; decide, by decide⟩
  | val v =>
    cases v with
    | int n => obtain ⟨c, r, h, hc⟩ := int_head n; exact ⟨c, r, by rw [text]; exact h, num c hc⟩
    | flt q => obtain ⟨c, r, h, hc⟩ := float_head (hT.shape q); exact ⟨c, r, by rw [text]; exact h, num c hc⟩
    | str s => exact ⟨'"', _, by rw [text]; rfl, by unfold IsSpace; decide, by decide⟩
  | arr js =>
    cases js with
    | nil => exact ⟨'[', _, by rw [text], by unfold IsSpace; decide, by decide⟩
    | cons j js => exact ⟨'[', _, by rw [text], by unfold IsSpace; decide, by decide⟩
  | obj fs =>
    cases fs with
    | nil => exact ⟨'{', _, by rw [text], by unfold IsSpace; decide, by decide⟩
    | cons f fs => obtain ⟨k, j⟩ := f; exact ⟨'{', _, by rw [text], by unfold IsSpace; decide, by decide⟩

theorem skip_text {T : PyText} (hT : FloatTexts T) (j : Json) (r : Chars) : skip (text T j ++ r) = text T j ++ r := by
  obtain ⟨c, t, h, hs, _⟩ := text_head hT j
  rw [h]
  exact skip_cons hs _

theorem skip_prefix {T : PyText} (hT : FloatTexts T) (j : Json) {r p : Chars} (h : p <+: text T j ++ r) : skip p = p := by
  obtain ⟨c, t, e, hs, _⟩ := text_head hT j
  cases p with
  | nil => rfl
  | cons d p =>
    rw [e] at h
    obtain ⟨q, hq⟩ := h
    simp only [List.cons_append, List.cons.injEq] at hq
    rw [hq.1]
    exact skip_cons hs _

/-! ## WholeText values -/

theorem strText_eq (s : String) : strText s = '"' :: (s.toList.flatMap escape ++ ['"']) := by
  simp [strText]

/-- Not a number. -/
def Closed : Json → Prop
  | .val (.int _) => False
  | .val (.flt _) => False
  | _ => True

mutual
theorem value_text {T : PyText} (hT : FloatTexts T) : ∀ (j : Json), DistinctKeys j → ∀ (k : Nat) (r : Chars), Closed j ∨ Stop r →
    2 * (text T j ++ r).length < k → value T k (text T j ++ r) = some (j, r)
  | j, _, 0, r, _, hk => by omega
  | .null, _, k + 1, r, _, _ => by
    rw [text]
    exact (value_null T k _).trans (word_text "null".toList _ r)
  | .bool true, _, k + 1, r, _, _ => by
    rw [text]
    exact (value_true T k _).trans (word_text "true".toList _ r)
  | .bool false, _, k + 1, r, _, _ => by
    rw [text]
    exact (value_false T k _).trans (word_text "false".toList _ r)
  | .val (.int n), _, k + 1, r, hr, _ => by
    rw [text, valText]
    obtain ⟨c, t, h, hc⟩ := int_head n
    have e := scanNum_int T n (hr.resolve_left id)
    rw [h, List.cons_append] at e ⊢
    rw [value_num T k hc, e]
    rfl
  | .val (.flt q), _, k + 1, r, hr, _ => by
    rw [text, valText]
    obtain ⟨c, t, h, hc⟩ := float_head (hT.shape q)
    have e := scanNum_flt hT q (hr.resolve_left id)
    rw [h, List.cons_append] at e ⊢
    rw [value_num T k hc, e]
    rfl
  | .val (.str s), _, k + 1, r, _, _ => by
    rw [text, valText, strText_eq, List.cons_append, value_quote, List.append_assoc, List.cons_append, List.nil_append, scanString_text]
    rfl
  | .arr [], _, k + 1, r, _, _ => by
    rw [text, List.cons_append, value_bracket]
    rfl
  | .arr (j :: js), hd, k + 1, r, _, hk => by
    cases hd with
    | arr hd =>
    rw [text] at hk ⊢
    have hl := elements_text hT (j :: js) (by simp) hd k r (by
      simp only [List.cons_append, List.length_cons, List.append_assoc] at hk ⊢
      omega)
    try dsimp only at hl
    rw [List.cons_append, value_bracket, List.append_assoc, skip_text hT]
    rw [List.append_assoc] at hl
    obtain ⟨c, t, e, _, hc⟩ := text_head hT j
    rw [e, List.cons_append] at hl ⊢
    dsimp only
    rw [if_neg hc, hl]
    rfl
  | .obj [], _, k + 1, r, _, _ => by
    rw [text, List.cons_append, value_brace]
    rfl
  | .obj ((key, j) :: fs), hd, k + 1, r, _, hk => by
    cases hd with
    | obj hn hd =>
    rw [text] at hk ⊢
    have hl := members_text hT ((key, j) :: fs) (by simp) hd k r (by
      simp only [strText_eq, List.cons_append, List.length_cons, List.append_assoc, List.nil_append] at hk ⊢
      omega)
    try dsimp only at hl
    rw [List.cons_append, value_brace, strText_eq, List.cons_append, List.cons_append, skip_cons (by unfold IsSpace; decide)]
    dsimp only
    rw [if_neg (by decide), if_pos rfl]
    simp only [List.append_assoc, List.cons_append, List.nil_append] at hl ⊢
    rw [hl]
    simp [dictOf_nodup hn]
theorem elements_text {T : PyText} (hT : FloatTexts T) : ∀ (js : List Json), js ≠ [] → (∀ j ∈ js, DistinctKeys j) → ∀ (k : Nat) (r : Chars),
    match js with
    | [] => True
    | j :: js' => 2 * (text T j ++ textL T js' ++ r).length + 1 < k →
      elements T k (text T j ++ textL T js' ++ r) = some (js, r)
  | [], h, _, _, _ => absurd rfl h
  | j :: js, _, _, 0, r => by intro hk; omega
  | [j], _, hd, k + 1, r => by
    intro hk
    have hv := value_text hT j (hd j (by simp)) k (textL T [] ++ r) (.inr (stop_textL T [] r)) (by
      rw [← List.append_assoc]; omega)
    rw [elements, List.append_assoc, hv]
    dsimp only
    rw [textL, List.cons_append, List.nil_append, skip_cons (by unfold IsSpace; decide)]
    dsimp only
    rw [if_pos rfl]
  | j :: j' :: js, _, hd, k + 1, r => by
    intro hk
    have hv := value_text hT j (hd j (by simp)) k (textL T (j' :: js) ++ r) (.inr (stop_textL T _ r)) (by
      rw [← List.append_assoc]; omega)
    have hl := elements_text hT (j' :: js) (by simp) (fun x hx => hd x (by simp [hx])) k r
    try dsimp only at hl
    rw [elements, List.append_assoc, hv]
    dsimp only
    rw [textL] at hk ⊢
    rw [List.cons_append, skip_cons (by unfold IsSpace; decide)]
    dsimp only
    rw [if_neg (by decide), if_pos rfl, List.cons_append, skip_blank, List.append_assoc, skip_text hT, ← List.append_assoc, hl]
    · rfl
    · simp only [List.length_append, List.length_cons] at hk ⊢
      omega
theorem members_text {T : PyText} (hT : FloatTexts T) : ∀ (fs : List (String × Json)), fs ≠ [] → (∀ p ∈ fs, DistinctKeys p.2) →
    ∀ (k : Nat) (r : Chars),
    match fs with
    | [] => True
    | (key, j) :: fs' => 2 * (key.toList.flatMap escape ++ '"' :: ':' :: ' ' :: (text T j ++ textF T fs' ++ r)).length + 1 < k →
      members T k (key.toList.flatMap escape ++ '"' :: ':' :: ' ' :: (text T j ++ textF T fs' ++ r)) = some (fs, r)
  | [], h, _, _, _ => absurd rfl h
  | (key, j) :: fs, _, _, 0, r => by intro hk; omega
  | [(key, j)], _, hd, k + 1, r => by
    intro hk
    have hv := value_text hT j (hd (key, j) (by simp)) k (textF T [] ++ r) (.inr (stop_textF T [] r)) (by
      simp only [List.length_append, List.length_cons] at hk ⊢; omega)
    rw [members, scanString_text]
    dsimp only
    rw [skip_cons (by unfold IsSpace; decide)]
    dsimp only
    rw [if_pos rfl, skip_blank, List.append_assoc, skip_text hT, hv]
    dsimp only
    rw [textF, List.cons_append, List.nil_append, skip_cons (by unfold IsSpace; decide)]
    dsimp only
    rw [if_pos rfl]
  | (key, j) :: (key', j') :: fs, _, hd, k + 1, r => by
    intro hk
    have hv := value_text hT j (hd (key, j) (by simp)) k (textF T ((key', j') :: fs) ++ r) (.inr (stop_textF T _ r)) (by
      simp only [List.length_append, List.length_cons] at hk ⊢; omega)
    have hl := members_text hT ((key', j') :: fs) (by simp) (fun x hx => hd x (by simp [hx])) k r
    try dsimp only at hl
    rw [members, scanString_text]
    dsimp only
    rw [skip_cons (by unfold IsSpace; decide)]
    dsimp only
    rw [if_pos rfl, skip_blank, List.append_assoc, skip_text hT, hv]
    dsimp only
    rw [textF] at hk ⊢
    rw [List.cons_append, skip_cons (by unfold IsSpace; decide)]
    dsimp only
    rw [if_neg (by decide), if_pos rfl, List.cons_append, skip_blank, strText_eq, List.cons_append, List.cons_append,
      skip_cons (by unfold IsSpace; decide)]
    dsimp only
    rw [if_pos rfl]
    simp only [List.append_assoc, List.cons_append, List.nil_append] at hl ⊢
    rw [hl]
    · rfl
    · simp only [strText_eq, List.length_append, List.length_cons] at hk ⊢
      omega
end

end Verif.JText
