import Verif.Lemmas.PcsNew
import Verif.Lemmas.Serial

/-!
# Reading a line of a hyperparameter
-/

set_option autoImplicit false

namespace Verif
open Verif.Spec

/-! ## Texts within texts -/

theorem rLit_prefix : ∀ {t cs : Chars}, (rLit t cs).isSome = true ↔ t <+: cs
  | [], cs => by simp [rLit]
  | x :: xs, [] => by simp [rLit]
  | x :: xs, c :: cs => by
    have ih := rLit_prefix (t := xs) (cs := cs)
    rw [List.cons_prefix_cons, ← ih]
    rw [rLit]
    by_cases e : x = c
    · subst e
      simp only [beq_self_eq_true, if_true, true_and]
      cases h : rLit xs cs <;> simp
    · rw [if_neg (by simpa using e)]
      simp [e]

theorem hasSub_iff {t : Chars} : ∀ {cs : Chars}, hasSub t cs = true ↔ t <:+: cs
  | [] => by simp [hasSub]
  | c :: cs => by
    unfold hasSub
    rw [Bool.or_eq_true, rLit_prefix, hasSub_iff (cs := cs), List.infix_cons_iff]

/-- A text without a separator lies on one side of it. -/
theorem infix_split {t a b : Chars} {x : Char} (hx : x ∉ t) (h : t <:+: a ++ x :: b) : t <:+: a ∨ t <:+: b := by
  induction a with
  | nil =>
    rcases List.infix_cons_iff.1 h with h | h
    · cases t with
      | nil => exact .inl (List.infix_refl _)
      | cons y t =>
        obtain ⟨rfl, -⟩ := List.cons_prefix_cons.1 h
        exact absurd (by simp) hx
    · exact .inr h
  | cons c a ih =>
    rw [List.cons_append] at h
    rcases List.infix_cons_iff.1 h with h | h
    · left
      rw [← List.cons_append] at h
      obtain ⟨r, hr⟩ := h
      rcases List.append_eq_append_iff.1 hr with ⟨k, hk, -⟩ | ⟨k, hk, hk'⟩
      · exact ⟨[], k, by simp [hk]⟩
      · cases k with
        | nil => exact ⟨[], [], by simpa using hk⟩
        | cons y k =>
          rw [List.cons_append] at hk'
          obtain ⟨rfl, -⟩ := List.cons_eq_cons.1 hk'
          rw [hk] at hx
          exact absurd (by simp) hx
    · rcases ih h with h | h
      · exact .inl (List.infix_cons_iff.2 (.inr h))
      · exact .inr h

theorem infix_join {t : Chars} (hc : ',' ∉ t) (hs : ' ' ∉ t) : ∀ {ws : List Chars}, (∀ w ∈ ws, ¬ t <:+: w) → t ≠ [] →
    ¬ t <:+: joinWith ", ".toList ws
  | [], _, hn, h => hn (List.infix_nil.1 h)
  | [w], hw, _, h => hw w (by simp) h
  | w :: x :: ws, hw, hn, h => by
    rw [joinWith, show (", ".toList : Chars) = [',', ' '] from rfl, List.append_assoc] at h
    · rcases infix_split hc h with h | h
      · exact hw w (by simp) h
      · rcases infix_split hs (a := []) h with h | h
        · exact hn (List.infix_nil.1 h)
        · exact infix_join hc hs (fun y hy => hw y (by simp [hy])) hn h
    · simp

/-! ## The lines -/

theorem strVal_chars (t : String) : strVal t.toList = .str t := by simp [strVal]

/-- Values that are words. -/
theorem words_back (T : PyText) : ∀ {cs : List Val}, (∀ v ∈ cs, ∃ t, v = .str t ∧ Plain t.toList) →
    (cs.map T.chars).map strVal = cs ∧ ∀ w ∈ cs.map T.chars, Plain w
  | [], _ => by simp
  | v :: cs, h => by
    obtain ⟨t, rfl, ht⟩ := h v (by simp)
    obtain ⟨h1, h2⟩ := words_back T (cs := cs) (fun v hv => h v (by simp [hv]))
    refine ⟨?_, ?_⟩
    · simp only [List.map_cons, h1]
      congr 1
      exact strVal_chars t
    · intro w hw
      rcases List.mem_cons.1 hw with rfl | hw
      · exact ht
      · exact h2 w hw

theorem pyIn_words {v : Val} {cs : List Val} (h : ∀ v ∈ cs, ∃ t, v = .str t ∧ Plain t.toList) (hv : v.pyIn cs = true) : v ∈ cs := by
  simp only [Val.pyIn, List.any_eq_true] at hv
  obtain ⟨x, hx, e⟩ := hv
  obtain ⟨t, rfl, -⟩ := h x hx
  cases v with
  | str u =>
    simp only [Val.pyEq, beq_iff_eq] at e
    subst e
    exact hx
  | int n => cases e
  | flt q => cases e

theorem choices_take {n t : Chars} {C : List Chars} {d : Chars} :
    everyOther (((n :: t :: ['{'] :: (C ++ [['}'], ['['], d, [']']])).take
      ((n :: t :: ['{'] :: (C ++ [['}'], ['['], d, [']']])).length - 4)).drop 3) = everyOther C := by
  have e : n :: t :: ['{'] :: (C ++ [['}'], ['['], d, [']']]) = (n :: t :: ['{'] :: C) ++ [['}'], ['['], d, [']']] := rfl
  rw [e, List.length_append, show ([['}'], ['['], d, [']']] : List Chars).length = 4 from rfl, Nat.add_sub_cancel, List.take_left]
  rfl

theorem default_at {n t : Chars} {C : List Chars} {d : Chars} :
    (n :: t :: ['{'] :: (C ++ [['}'], ['['], d, [']']])).getD
      ((n :: t :: ['{'] :: (C ++ [['}'], ['['], d, [']']])).length - 2) [] = d := by
  have e : n :: t :: ['{'] :: (C ++ [['}'], ['['], d, [']']]) = (n :: t :: ['{'] :: C) ++ [['}'], ['['], d, [']']] := rfl
  rw [e, List.length_append, show ([['}'], ['['], d, [']']] : List Chars).length = 4 from rfl, List.getD_eq_getElem?_getD,
    List.getElem?_append_right (by omega)]
  rw [show (n :: t :: ['{'] :: C).length + 4 - 2 - (n :: t :: ['{'] :: C).length = 2 by omega]
  rfl

theorem readContinuous_cat {T : PyText} {n d : Chars} {ws : List Chars} {ty : String} (hn : Plain n)
    (hty : ∀ r, ppType (' ' :: (ty.toList ++ r)) = some ([ty.toList], r)) : readContinuous T (catText n ty ws d) = .ok none := by
  unfold readContinuous
  rw [ppCont_cat hn hty]

/-- A line with the word `categorical` somewhere in it is read as a categorical hyperparameter. -/
theorem readParam_words {T : PyText} {h : HP} {cs : List Val} {ty : String} (hw : h.wf = true) (hn : Plain h.name.toList)
    (hk : h.kind = .cat cs) (hv : ∀ v ∈ cs, ∃ t, v = .str t ∧ Plain t.toList)
    (hty : ∀ r, ppType (' ' :: (ty.toList ++ r)) = some ([ty.toList], r))
    (hs : hasSub "categorical".toList (catText h.name.toList ty (cs.map T.chars) (T.chars h.default)) = true) :
    readParam T (catText h.name.toList ty (cs.map T.chars) (T.chars h.default)) = .ok h := by
  obtain ⟨hb, hp⟩ := words_back T hv
  have hd : h.default ∈ cs := pyIn_words hv (by
    simp only [HP.wf, hk, Bool.and_eq_true] at hw
    exact hw.2)
  obtain ⟨t, ht, hpt⟩ := hv _ hd
  have h2 := remake_cat hw hk (w := none) rfl
  have htc : T.chars h.default = t.toList := by rw [ht]; rfl
  unfold readParam
  rw [readContinuous_cat hn hty]
  simp only
  unfold readDiscrete
  simp only
  rw [if_pos hs]
  cases hc : cs.map T.chars with
  | nil =>
    rw [List.map_eq_nil_iff] at hc
    subst hc
    cases hd
  | cons w ws =>
    rw [hc] at hb hp
    rw [ppCat_ok hn (htc ▸ hpt) hp hty]
    simp only [choices_take, default_at, everyOther_toks, hb, List.getD_cons_zero, String.ofList_toList]
    rw [htc, strVal_chars, ← ht, h2]

theorem readParam_cat {T : PyText} {h : HP} {cs : List Val} (hw : h.wf = true) (hn : Plain h.name.toList) (hk : h.kind = .cat cs)
    (hv : ∀ v ∈ cs, ∃ t, v = .str t ∧ Plain t.toList) :
    readParam T (catText h.name.toList "categorical" (cs.map T.chars) (T.chars h.default)) = .ok h :=
  readParam_words hw hn hk hv type_cat (hasSub_iff.2 ⟨h.name.toList ++ [' '], ' ' :: '{' :: (joinWith ", ".toList (cs.map T.chars) ++
    '}' :: ' ' :: '[' :: (T.chars h.default ++ [']'])), by simp [catText]⟩)

theorem readParam_ord {T : PyText} {h : HP} {cs : List Val} (hw : h.wf = true) (hn : Plain h.name.toList) (hk : h.kind = .ord cs)
    (hv : ∀ v ∈ cs, ∃ t, v = .str t ∧ Plain t.toList ∧ ¬ "categorical".toList <:+: t.toList)
    (hcn : ¬ "categorical".toList <:+: h.name.toList) :
    readParam T (catText h.name.toList "ordinal" (cs.map T.chars) (T.chars h.default)) = .ok h := by
  have hv' : ∀ v ∈ cs, ∃ t, v = .str t ∧ Plain t.toList := fun v hm => (hv v hm).imp fun t ht => ⟨ht.1, ht.2.1⟩
  obtain ⟨hb, hp⟩ := words_back T hv'
  have hd : h.default ∈ cs := pyIn_words hv' (by
    simp only [HP.wf, hk, Bool.and_eq_true] at hw
    exact hw.2)
  obtain ⟨t, ht, hpt, hct⟩ := hv _ hd
  have htc : T.chars h.default = t.toList := by rw [ht]; rfl
  have hs : hasSub "ordinal".toList (catText h.name.toList "ordinal" (cs.map T.chars) (T.chars h.default)) = true :=
    hasSub_iff.2 ⟨h.name.toList ++ [' '], ' ' :: '{' :: (joinWith ", ".toList (cs.map T.chars) ++ '}' :: ' ' :: '[' ::
      (T.chars h.default ++ [']'])), by simp [catText]⟩
  have hnil : ¬ "categorical".toList <:+: [] := by rw [List.infix_nil]; decide
  have hs' : hasSub "categorical".toList (catText h.name.toList "ordinal" (cs.map T.chars) (T.chars h.default)) ≠ true := by
    rw [Ne, hasSub_iff]
    intro hi
    unfold catText at hi
    rcases infix_split (by decide) hi with hi | hi
    · exact hcn hi
    rcases infix_split (by decide) hi with hi | hi
    · exact absurd (hasSub_iff.2 hi) (by decide)
    rcases infix_split (a := []) (by decide) hi with hi | hi
    · exact hnil hi
    rcases infix_split (by decide) hi with hi | hi
    · refine infix_join (by decide) (by decide) ?_ (by decide) hi
      intro w hw
      obtain ⟨v, hv1, rfl⟩ := List.mem_map.1 hw
      obtain ⟨u, rfl, -, hu⟩ := hv v hv1
      exact hu
    rcases infix_split (a := []) (by decide) hi with hi | hi
    · exact hnil hi
    rcases infix_split (a := []) (by decide) hi with hi | hi
    · exact hnil hi
    rcases infix_split (by decide) hi with hi | hi
    · exact hct (htc ▸ hi)
    · exact hnil hi
  have h2 := remake_ord hw hk
  unfold readParam
  rw [readContinuous_cat hn type_ord]
  simp only
  unfold readDiscrete
  simp only
  rw [if_neg hs', if_pos hs]
  cases hc : cs.map T.chars with
  | nil =>
    rw [List.map_eq_nil_iff] at hc
    subst hc
    cases hd
  | cons w ws =>
    rw [hc] at hb hp
    rw [ppCat_ok hn (htc ▸ hpt) hp type_ord]
    simp only [choices_take, default_at, everyOther_toks, hb, List.getD_cons_zero, String.ofList_toList]
    rw [htc, strVal_chars, ← ht, h2]

theorem readDiscrete_cont {n l u d : Chars} {ty : String} {p : Option HP} (hn : Plain n)
    (hty : ∀ r, ppType (' ' :: (ty.toList ++ r)) = some ([ty.toList], r)) :
    readDiscrete (contText n ty l u d) p = .ok p := by
  unfold readDiscrete
  simp only
  rw [ppCat_cont hn hty]
  split
  · rfl
  · split <;> rfl

theorem readParam_int {T : PyText} (hT : NumberTexts T) {h : HP} {l u m : Int} (hn : Plain h.name.toList)
    (h2 : mkInt h.name l u (some (m : Rat)) = .ok h) :
    readParam T (contText h.name.toList "integer" (toString l).toList (toString u).toList (toString m).toList) = .ok h := by
  unfold readParam readContinuous
  rw [ppCont_ok hn (numberText_int _) (numberText_int _) (numberText_int _) type_int]
  simp only [List.getD_cons_zero, List.getD_cons_succ, if_true, List.length_cons, List.length_nil]
  rw [if_neg (by omega)]
  simp only [PyText.readInt, String.ofList_toList, hT.int, h2]
  rw [readDiscrete_cont hn type_int]

theorem readParam_flt {T : PyText} (hT : NumberTexts T) {h : HP} {l u m : Rat} (hn : Plain h.name.toList)
    (h2 : mkFlt h.name l u (some m) = .ok h) :
    readParam T (contText h.name.toList "real" (T.strFloat l).toList (T.strFloat u).toList (T.strFloat m).toList) = .ok h := by
  unfold readParam readContinuous
  rw [ppCont_ok hn (hT.shape _) (hT.shape _) (hT.shape _) type_real]
  simp only [List.getD_cons_zero, List.getD_cons_succ, if_true, List.length_cons, List.length_nil]
  rw [if_neg (by decide), if_neg (by omega)]
  simp only [PyText.readFloat, String.ofList_toList, hT.float, h2]
  rw [readDiscrete_cont hn type_real]

end Verif
