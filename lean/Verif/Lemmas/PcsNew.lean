import Verif.Lemmas.PyParse
import Verif.Model.PcsNew
import Verif.Spec.PcsNew

/-!
# Reading back what the new pcs format writes
-/

set_option autoImplicit false

namespace Verif
open Verif.Spec

/-! ## Characters -/

theorem Spec.WordChar.name {c : Char} (h : WordChar c) : nameChar c = true := by
  unfold nameChar
  rcases h with h | h
  · simp [h]
  · have : ∀ c ∈ "_-@.:;\\/?!$%*+<>".toList, "_-@.:;\\/?!$%&*+<>".toList.contains c = true := by decide
    rw [this c h, Bool.or_true]

theorem ws_cases {c : Char} (h : isWs c = true) : c = ' ' ∨ c = '\n' ∨ c = '\t' ∨ c = '\r' := by
  unfold isWs at h
  simp only [Bool.or_eq_true, beq_iff_eq] at h
  rcases h with ((h | h) | h) | h <;> simp [h]

theorem nameChar_ws {c : Char} (h : nameChar c = true) : isWs c = false := by
  cases hw : isWs c with
  | false => rfl
  | true => rcases ws_cases hw with rfl | rfl | rfl | rfl <;> revert h <;> decide

theorem Spec.WordChar.ne {c x : Char} (h : WordChar c) (hx : nameChar x = false) : c ≠ x := by
  rintro rfl
  rw [h.name] at hx
  cases hx

theorem Spec.WordChar.amp {c : Char} (h : WordChar c) : c ≠ '&' := by
  rintro rfl
  revert h
  unfold WordChar
  decide

theorem Spec.Plain.name {w : Chars} (h : Plain w) : ∀ c ∈ w, nameChar c = true := fun c hc => (h.2 c hc).name
theorem Spec.Plain.ws {w : Chars} (h : Plain w) : ∀ c ∈ w, isWs c = false := fun c hc => nameChar_ws (h.name c hc)

theorem ppName_ok {w r : Chars} (h : Plain w) (hr : Ends nameChar r) : ppName (w ++ r) = some ([w], r) :=
  pWord_ok h.1 h.name h.ws hr

/-! ## Parameters -/

theorem lit_char {t : String} {c : Char} {r : Chars} (ht : t.toList = [c]) (hc : isWs c = false) :
    pLit t (c :: r) = some ([[c]], r) := by
  have := pLit_ok (t := t) (r := r) (by simp [ht]) (by simpa [ht] using hc)
  rwa [ht] at this

theorem lit_char_none {t : String} {c x : Char} {r : Chars} (ht : t.toList = [c]) (hx : isWs x = false) (hn : x ≠ c) :
    pLit t (x :: r) = none := by
  unfold pLit
  rw [ht]
  exact tok_none (ends_cons hx) (rLit_none (by simpa using hn))

theorem pLit_space {t : String} (r : Chars) : pLit t (' ' :: r) = pLit t r := tok_space _ _

/-- The tokens of a list of words. -/
def choiceToks : List Chars → List Chars
  | [] => []
  | w :: ws => w :: ws.flatMap (fun x => [[','], x])

theorem everyOther_toks : ∀ ws : List Chars, everyOther (choiceToks ws) = ws
  | [] => rfl
  | [w] => rfl
  | w :: x :: ws => by
    have := everyOther_toks (x :: ws)
    simp only [choiceToks] at this
    simp only [choiceToks, List.flatMap_cons, List.cons_append, List.nil_append, everyOther]
    rw [this]

theorem ppChoices_ok {w : Chars} {ws : List Chars} {r : Chars} (hw : ∀ x ∈ w :: ws, Plain x) (hr : Ends nameChar r)
    (hc : pLit "," r = none) : ppChoices (joinWith ", ".toList (w :: ws) ++ r) = some (choiceToks (w :: ws), r) := by
  rw [joinWith_cons, List.append_assoc]
  unfold ppChoices
  have he : Ends nameChar (ws.flatMap (fun x => ", ".toList ++ x) ++ r) := by
    cases ws with
    | nil => simpa using hr
    | cons y ws => exact ends_cons (by decide)
  have hm := pMany_ok (p := pSeq [pLit ",", ppName]) (txt := fun x => ", ".toList ++ x) (tks := fun x => [[','], x])
    (G := Ends nameChar) (rest := r) hr (pSeq_fail hc) ws (by
      intro x hx r' hr'
      show pSeq [pLit ",", ppName] (',' :: ' ' :: (x ++ r')) = _
      rw [pSeq_step (lit_char rfl (by decide))]
      have : ppName (' ' :: (x ++ r')) = some ([x], r') := by
        rw [show ppName (' ' :: (x ++ r')) = ppName (x ++ r') from tok_space _ _]
        exact ppName_ok (hw x (by simp [hx])) hr'
      rw [pSeq_step this]
      rfl) (by
      intro x hx r'
      exact ends_cons (by decide)) (by
      intro x hx
      simp)
  rw [pSeq_step (ppName_ok (hw w (by simp)) he), pSeq_step hm, pSeq_nil]
  simp [choiceToks]

/-- The text of a categorical or ordinal hyperparameter. -/
def catText (n : Chars) (ty : String) (ws : List Chars) (d : Chars) : Chars :=
  n ++ ' ' :: (ty.toList ++ ' ' :: '{' :: (joinWith ", ".toList ws ++ '}' :: ' ' :: '[' :: (d ++ [']'])))

theorem ppCat_ok {n d w : Chars} {ws : List Chars} {ty : String} (hn : Plain n) (hd : Plain d)
    (hw : ∀ x ∈ w :: ws, Plain x) (hty : ∀ r, ppType (' ' :: (ty.toList ++ r)) = some ([ty.toList], r)) :
    ppCatParam (catText n ty (w :: ws) d) =
      some (n :: ty.toList :: ['{'] :: (choiceToks (w :: ws) ++ [['}'], ['['], d, [']']]), []) := by
  unfold ppCatParam catText
  rw [pSeq_step (ppName_ok hn (ends_cons (by decide))), pSeq_step (hty _)]
  rw [pSeq_step (by rw [pLit_space]; exact lit_char (t := "{") (c := '{') rfl (by decide))]
  rw [pSeq_step (ppChoices_ok hw (ends_cons (by decide)) (lit_char_none (t := ",") rfl (by decide) (by decide)))]
  rw [pSeq_step (lit_char (t := "}") (c := '}') rfl (by decide))]
  rw [pSeq_step (by rw [pLit_space]; exact lit_char (t := "[") (c := '[') rfl (by decide))]
  rw [pSeq_step (ppName_ok hd (ends_cons (by decide)))]
  rw [pSeq_step (lit_char (t := "]") (c := ']') rfl (by decide)), pSeq_nil]
  simp

theorem type_cat (r : Chars) : ppType (' ' :: ("categorical".toList ++ r)) = some (["categorical".toList], r) := rfl
theorem type_ord (r : Chars) : ppType (' ' :: ("ordinal".toList ++ r)) = some (["ordinal".toList], r) := rfl
theorem type_int (r : Chars) : ppType (' ' :: ("integer".toList ++ r)) = some (["integer".toList], r) := rfl
theorem type_real (r : Chars) : ppType (' ' :: ("real".toList ++ r)) = some (["real".toList], r) := rfl

/-- A line of choices is not one of bounds. -/
theorem ppCont_cat {n d : Chars} {ws : List Chars} {ty : String} (hn : Plain n)
    (hty : ∀ r, ppType (' ' :: (ty.toList ++ r)) = some ([ty.toList], r)) : ppContParam (catText n ty ws d) = none := by
  unfold ppContParam catText
  rw [pSeq_step (ppName_ok hn (ends_cons (by decide))), pSeq_step (hty _)]
  rw [pSeq_fail (by rw [pLit_space]; exact lit_char_none (t := "[") rfl (by decide) (by decide))]
  rfl

/-! ## Numbers -/

theorem digit_ws {c : Char} (h : c.isDigit = true) : isWs c = false := by
  cases hw : isWs c with
  | false => rfl
  | true => rcases ws_cases hw with rfl | rfl | rfl | rfl <;> revert h <;> decide

theorem digit_ne {c x : Char} (h : c.isDigit = true) (hx : x.isDigit = false) : c ≠ x := by
  rintro rfl
  rw [h] at hx
  cases hx

/-- What may stand behind a number. -/
def NumEnd (r : Chars) : Prop := Ends (fun c => c.isDigit || c == '.' || c == 'e' || c == 'E') r

theorem numEnd_cons {c : Char} {r : Chars} (h : (c.isDigit || c == '.' || c == 'e' || c == 'E') = false) : NumEnd (c :: r) :=
  ends_cons h

theorem rSign_none {ds r : Chars} (h : Digits ds) : rSign (ds ++ r) = none := by
  obtain ⟨hn, hd⟩ := h
  cases ds with
  | nil => exact absurd rfl hn
  | cons c ds =>
    have hc := hd c (by simp)
    unfold rSign rAlt
    rw [rLit_none (by simpa using digit_ne hc (by decide)), rLit_none (by simpa using digit_ne hc (by decide))]

theorem rInt_digits {ds r : Chars} (h : Digits ds) (hr : Ends Char.isDigit r) : rInt (ds ++ r) = some (ds, r) := by
  unfold rInt rSeq rOpt
  rw [rSign_none h]
  simp only
  rw [rWord_ok h.1 h.2 hr]
  rfl

theorem rInt_signed {sg ds r : Chars} (hs : sg = [] ∨ sg = ['-'] ∨ sg = ['+']) (h : Digits ds) (hr : Ends Char.isDigit r) :
    rInt (sg ++ (ds ++ r)) = some (sg ++ ds, r) := by
  rcases hs with rfl | rfl | rfl
  · exact rInt_digits h hr
  · unfold rInt rSeq rOpt
    rw [show rSign (['-'] ++ (ds ++ r)) = some (['-'], ds ++ r) by simp [rSign, rAlt, rLit]]
    simp only
    rw [rWord_ok h.1 h.2 hr]
  · unfold rInt rSeq rOpt
    rw [show rSign (['+'] ++ (ds ++ r)) = some (['+'], ds ++ r) by simp [rSign, rAlt, rLit]]
    simp only
    rw [rWord_ok h.1 h.2 hr]

theorem optSign {sg ds r : Chars} (hs : sg = [] ∨ sg = ['-']) (h : Digits ds) :
    rOpt rSign (sg ++ (ds ++ r)) = some (sg, ds ++ r) := by
  rcases hs with rfl | rfl
  · unfold rOpt
    rw [List.nil_append, rSign_none h]
  · simp [rOpt, rSign, rAlt, rLit]

theorem rFloat_none {sg ds r : Chars} (hs : sg = [] ∨ sg = ['-']) (h : Digits ds) (hr : Ends Char.isDigit r)
    (hdot : r.head? ≠ some '.') : rFloat (sg ++ (ds ++ r)) = none := by
  unfold rFloat rSeq
  rw [optSign hs h]
  simp only
  rw [show rOpt rInt (ds ++ r) = some (ds, r) by unfold rOpt; rw [rInt_digits h hr]]
  simp only
  rw [rLit_none hdot]

theorem rFloat_ok {sg ds es r : Chars} (hs : sg = [] ∨ sg = ['-']) (h : Digits ds) (he : Digits es) (hr : Ends Char.isDigit r) :
    rFloat (sg ++ (ds ++ ('.' :: (es ++ r)))) = some (sg ++ (ds ++ ('.' :: es)), r) := by
  unfold rFloat rSeq
  rw [optSign hs h]
  simp only
  rw [show rOpt rInt (ds ++ ('.' :: (es ++ r))) = some (ds, '.' :: (es ++ r)) by
    unfold rOpt; rw [rInt_digits h (ends_cons (by decide))]]
  simp only
  rw [show rLit ['.'] ('.' :: (es ++ r)) = some (['.'], es ++ r) by simp [rLit]]
  simp only
  rw [rInt_digits he hr]
  simp

theorem ppNumber_ok {t r : Chars} (h : NumberText t) (hr : NumEnd r) : ppNumber (t ++ r) = some ([t], r) := by
  have hrd : Ends Char.isDigit r := fun c hc => by have := hr c hc; simp only [Bool.or_eq_false_iff] at this; exact this.1.1.1
  have hre : r.head? ≠ some 'e' := fun hc => by have := hr _ hc; simp at this
  have hrE : r.head? ≠ some 'E' := fun hc => by have := hr _ hc; simp at this
  have hrp : r.head? ≠ some '.' := fun hc => by have := hr _ hc; simp at this
  obtain ⟨sg, ds, fr, ex, hs, hd, hf, he⟩ := h
  have hws : Ends isWs (sg ++ ds ++ fr ++ ex ++ r) := by
    rcases hs with rfl | rfl
    · simp only [List.nil_append, List.append_assoc]
      exact ends_append hd.1 (fun c hc => digit_ws (hd.2 c hc))
    · exact ends_cons (by decide)
  refine tok_ok hws ?_
  have hex : Ends Char.isDigit (ex ++ r) ∧ (ex ++ r).head? ≠ some '.' := by
    rcases he with rfl | ⟨sg', es, _, _, rfl⟩
    · exact ⟨hrd, hrp⟩
    · exact ⟨ends_cons (by decide), by simp⟩
  -- the mantissa
  have hm : rAlt rFloat rInt (sg ++ ds ++ fr ++ ex ++ r) = some (sg ++ ds ++ fr, ex ++ r) := by
    unfold rAlt
    rcases hf with rfl | ⟨es, hes, rfl⟩
    · rw [show sg ++ ds ++ [] ++ ex ++ r = sg ++ (ds ++ (ex ++ r)) by simp]
      rw [rFloat_none hs hd hex.1 hex.2]
      simp only
      rw [rInt_signed (by rcases hs with h | h <;> simp [h]) hd hex.1]
      simp
    · rw [show sg ++ ds ++ '.' :: es ++ ex ++ r = sg ++ (ds ++ ('.' :: (es ++ (ex ++ r)))) by simp]
      rw [rFloat_ok hs hd hes hex.1]
      simp
  rcases he with rfl | ⟨sg', es, hsg', hes, rfl⟩
  · have hn : rENotation (sg ++ ds ++ fr ++ [] ++ r) = none := by
      unfold rENotation
      unfold rSeq
      rw [hm]
      simp only [List.nil_append]
      unfold rAlt
      rw [rLit_none hre, rLit_none hrE]
    unfold rAlt
    rw [hn]
    simp only
    have := hm
    unfold rAlt at this
    rw [this]
    simp
  · have hn : rENotation (sg ++ ds ++ fr ++ 'e' :: (sg' ++ es) ++ r) = some (sg ++ ds ++ fr ++ 'e' :: (sg' ++ es), r) := by
      unfold rENotation
      unfold rSeq
      rw [hm]
      simp only
      rw [show rAlt (rLit ['e']) (rLit ['E']) ('e' :: (sg' ++ es) ++ r) = some (['e'], sg' ++ (es ++ r)) by
        simp [rAlt, rLit]]
      simp only
      rw [rInt_signed hsg' hes hrd]
      simp
    rw [rAlt, hn]

theorem digit_word {c : Char} (h : c.isDigit = true) : WordChar c := .inl (by simp [Char.isAlphanum, h])

theorem Spec.NumberText.plain {t : Chars} (h : NumberText t) : Plain t := by
  obtain ⟨sg, ds, fr, ex, hs, hd, hf, he⟩ := h
  refine ⟨?_, ?_⟩
  · intro e
    simp only [List.append_eq_nil_iff] at e
    exact hd.1 e.1.1.2
  · have hdig : ∀ {ds : Chars}, Digits ds → ∀ c ∈ ds, WordChar c := fun hd c hc => digit_word (hd.2 c hc)
    have hm : WordChar '-' := by unfold WordChar; decide
    have hpl : WordChar '+' := by unfold WordChar; decide
    have hdot : WordChar '.' := by unfold WordChar; decide
    have hexp : WordChar 'e' := by unfold WordChar; decide
    intro c hc
    simp only [List.mem_append] at hc
    rcases hc with ((hc | hc) | hc) | hc
    · rcases hs with rfl | rfl
      · cases hc
      · rw [List.mem_singleton.1 hc]; exact hm
    · exact hdig hd c hc
    · rcases hf with rfl | ⟨es, hes, rfl⟩
      · cases hc
      · rcases List.mem_cons.1 hc with rfl | hc
        · exact hdot
        · exact hdig hes c hc
    · rcases he with rfl | ⟨sg', es, hsg', hes, rfl⟩
      · cases hc
      · rcases List.mem_cons.1 hc with rfl | hc
        · exact hexp
        · rcases List.mem_append.1 hc with hc | hc
          · rcases hsg' with rfl | rfl | rfl
            · cases hc
            · rw [List.mem_singleton.1 hc]; exact hm
            · rw [List.mem_singleton.1 hc]; exact hpl
          · exact hdig hes c hc

theorem digits_repr (n : Nat) : Digits (toString n).toList := by
  refine ⟨?_, ?_⟩
  · rw [Nat.toString_eq_repr]
    simp only [Nat.repr, String.toList_ofList]
    exact Nat.toDigits_ne_nil
  · intro c hc
    rw [Nat.toString_eq_repr] at hc
    simp only [Nat.repr, String.toList_ofList] at hc
    exact Nat.isDigit_of_mem_toDigits (by decide) (by decide) hc

theorem numberText_int (n : Int) : NumberText (toString n).toList := by
  cases n with
  | ofNat m =>
    have := NumberText.mk [] (toString m).toList [] [] (.inl rfl) (digits_repr m) (.inl rfl) (.inl rfl)
    rw [show toString (Int.ofNat m) = toString m from rfl]
    simpa only [List.nil_append, List.append_nil] using this
  | negSucc m =>
    have := NumberText.mk ['-'] (toString (m + 1)).toList [] [] (.inr rfl) (digits_repr _) (.inl rfl) (.inl rfl)
    rw [show (toString (Int.negSucc m)) = "-" ++ toString (m + 1) from rfl, String.toList_append]
    rw [show "-".toList = ['-'] from rfl]
    simpa only [List.append_nil] using this

/-- The text of a numerical hyperparameter. -/
def contText (n : Chars) (ty : String) (l u d : Chars) : Chars :=
  n ++ ' ' :: (ty.toList ++ ' ' :: '[' :: (l ++ ',' :: ' ' :: (u ++ ']' :: ' ' :: '[' :: (d ++ [']']))))

theorem ppNumber_space {t r : Chars} (h : NumberText t) (hr : NumEnd r) : ppNumber (' ' :: (t ++ r)) = some ([t], r) := by
  rw [show ppNumber (' ' :: (t ++ r)) = ppNumber (t ++ r) from tok_space _ _]
  exact ppNumber_ok h hr

theorem ppCont_ok {n l u d : Chars} {ty : String} (hn : Plain n) (hl : NumberText l) (hu : NumberText u) (hd : NumberText d)
    (hty : ∀ r, ppType (' ' :: (ty.toList ++ r)) = some ([ty.toList], r)) :
    ppContParam (contText n ty l u d) =
      some ([n, ty.toList, ['['], l, [','], u, [']'], ['['], d, [']']], []) := by
  unfold ppContParam contText
  rw [pSeq_step (ppName_ok hn (ends_cons (by decide))), pSeq_step (hty _)]
  rw [pSeq_step (by rw [pLit_space]; exact lit_char (t := "[") (c := '[') rfl (by decide))]
  rw [pSeq_step (ppNumber_ok hl (numEnd_cons (by decide)))]
  rw [pSeq_step (lit_char (t := ",") (c := ',') rfl (by decide))]
  rw [pSeq_step (ppNumber_space hu (numEnd_cons (by decide)))]
  rw [pSeq_step (lit_char (t := "]") (c := ']') rfl (by decide))]
  rw [pSeq_step (by rw [pLit_space]; exact lit_char (t := "[") (c := '[') rfl (by decide))]
  rw [pSeq_step (ppNumber_ok hd (numEnd_cons (by decide)))]
  rw [pSeq_step (lit_char (t := "]") (c := ']') rfl (by decide))]
  rw [pSeq_step (show pOpt (pLit "log") [] = some ([], []) from rfl), pSeq_nil]
  simp

/-- A line of bounds is not one of choices. -/
theorem ppCat_cont {n l u d : Chars} {ty : String} (hn : Plain n)
    (hty : ∀ r, ppType (' ' :: (ty.toList ++ r)) = some ([ty.toList], r)) : ppCatParam (contText n ty l u d) = none := by
  unfold ppCatParam contText
  rw [pSeq_step (ppName_ok hn (ends_cons (by decide))), pSeq_step (hty _)]
  rw [pSeq_fail (by rw [pLit_space]; exact lit_char_none (t := "{") (x := '[') rfl (by decide) (by decide))]
  rfl

end Verif
