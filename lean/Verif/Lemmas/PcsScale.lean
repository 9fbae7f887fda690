import Verif.Spec.PcsScale
import Verif.Props.PcsOld
import Verif.Props.Prior

/-!
# Lemmas: the lines of numerical hyperparameters in the pcs formats
-/

set_option autoImplicit false

namespace Verif
open Verif.Spec

theorem contText_rest {n l u d : String} {ty : String} {rest : String} :
    newLine n ty l u d rest = contText n.toList ty l.toList u.toList d.toList ++ rest.toList := by
  simp [newLine, contText, String.toList_append]

theorem oldContText_rest {n l u d : String} {rest : String} :
    oldLine n l u d rest = oldContText n.toList l.toList u.toList d.toList rest.toList := by
  simp [oldLine, oldContText, String.toList_append]

theorem ppCont_rest {n l u d : Chars} {ty : String} (hn : Plain n) (hl : NumberText l) (hu : NumberText u) (hd : NumberText d)
    (hty : ∀ r, ppType (' ' :: (ty.toList ++ r)) = some ([ty.toList], r)) {rest r : Chars} {t : List Chars}
    (hr : pOpt (pLit "log") rest = some (t, r)) :
    ppContParam (contText n ty l u d ++ rest) =
      some ([n, ty.toList, ['['], l, [','], u, [']'], ['['], d, [']']] ++ t, r) := by
  have e : contText n ty l u d ++ rest =
      n ++ ' ' :: (ty.toList ++ ' ' :: '[' :: (l ++ ',' :: ' ' :: (u ++ ']' :: ' ' :: '[' :: (d ++ ']' :: rest)))) := by
    simp [contText]
  rw [e]
  unfold ppContParam
  rw [pSeq_step (ppName_ok hn (ends_cons (by decide))), pSeq_step (hty _)]
  rw [pSeq_step (by rw [pLit_space]; exact lit_char (t := "[") (c := '[') rfl (by decide))]
  rw [pSeq_step (ppNumber_ok hl (numEnd_cons (by decide)))]
  rw [pSeq_step (lit_char (t := ",") (c := ',') rfl (by decide))]
  rw [pSeq_step (ppNumber_space hu (numEnd_cons (by decide)))]
  rw [pSeq_step (lit_char (t := "]") (c := ']') rfl (by decide))]
  rw [pSeq_step (by rw [pLit_space]; exact lit_char (t := "[") (c := '[') rfl (by decide))]
  rw [pSeq_step (ppNumber_ok hd (numEnd_cons (by decide)))]
  rw [pSeq_step (lit_char (t := "]") (c := ']') rfl (by decide))]
  rw [pSeq_step hr, pSeq_nil]
  simp

theorem ppCat_rest {n l u d rest : Chars} {ty : String} (hn : Plain n)
    (hty : ∀ r, ppType (' ' :: (ty.toList ++ r)) = some ([ty.toList], r)) :
    ppCatParam (contText n ty l u d ++ rest) = none := by
  have e : contText n ty l u d ++ rest =
      n ++ ' ' :: (ty.toList ++ ' ' :: '[' :: (l ++ ',' :: ' ' :: (u ++ ']' :: ' ' :: '[' :: (d ++ ']' :: rest)))) := by
    simp [contText]
  rw [e]
  unfold ppCatParam
  rw [pSeq_step (ppName_ok hn (ends_cons (by decide))), pSeq_step (hty _)]
  rw [pSeq_fail (by rw [pLit_space]; exact lit_char_none (t := "{") (x := '[') rfl (by decide) (by decide))]
  rfl

theorem readDiscrete_rest {n l u d rest : Chars} {ty : String} {p : Option HP} (hn : Plain n)
    (hty : ∀ r, ppType (' ' :: (ty.toList ++ r)) = some ([ty.toList], r)) :
    readDiscrete (contText n ty l u d ++ rest) p = .ok p := by
  unfold readDiscrete
  simp only
  rw [ppCat_rest hn hty]
  split
  · rfl
  · split <;> rfl

/-- Whitespace and the word `log`. -/
theorem dropWhile_ws : ∀ {ws t : Chars}, (∀ c ∈ ws, isWs c = true) → skipWs (ws ++ t) = skipWs t
  | [], _, _ => rfl
  | c :: ws, t, h => by
    unfold skipWs
    rw [List.cons_append, List.dropWhile_cons, h c (by simp), if_pos rfl]
    exact dropWhile_ws (fun x hx => h x (by simp [hx]))

theorem ws_mem {c : Char} : isWs c = true ↔ c ∈ " \n\t\r".toList := by
  rw [show " \n\t\r".toList = [' ', '\n', '\t', '\r'] from rfl]
  simp [isWs, or_assoc]

open Classical in
/-- The word `log` is recognised behind whitespace, and nothing else is. -/
theorem pOpt_log (rest : Chars) : ∃ t r, pOpt (pLit "log") rest = some (t, r) ∧
    t = if SaysLog rest then ["log".toList] else [] := by
  by_cases h : SaysLog rest
  · obtain ⟨ws, t, rfl, hws⟩ := h
    refine ⟨["log".toList], t, ?_, (if_pos ⟨ws, t, rfl, hws⟩).symm⟩
    unfold pOpt pLit tok
    rw [List.append_assoc, dropWhile_ws (fun c hc => ws_mem.2 (hws c hc)), skipWs_of (cs := "log".toList ++ t) (by
      intro c hc
      simp at hc
      subst hc
      decide), rLit_ok]
  · refine ⟨[], rest, ?_, (if_neg h).symm⟩
    have : rLit "log".toList (skipWs rest) = none := by
      by_contra hc
      have := rLit_prefix.1 (Option.isSome_iff_ne_none.2 hc)
      obtain ⟨t, ht⟩ := this
      refine h ⟨rest.takeWhile isWs, t, ?_, fun c hc => ws_mem.1 (List.mem_takeWhile_imp hc)⟩
      rw [List.append_assoc, ht]
      exact (List.takeWhile_append_dropWhile).symm
    unfold pOpt pLit tok
    rw [this]

open Classical in
/-- A line for an integer is read as the call of the constructor. -/
theorem readAny_int {T : PyText} (hT : NumberTexts T) {n : Name} {l u d : Int} (hn : Plain n.toList) (rest : String) :
    readAny T (newLine n "integer" (toString l) (toString u) (toString d) rest) =
      (mkUniformInt n l u (some (d : Rat)) (decide (SaysLog rest.toList))).map .num := by
  obtain ⟨t, r, h1, h2⟩ := pOpt_log rest.toList
  have e : hasSub "log".toList (([n.toList, "integer".toList, ['['], (toString l).toList, [','], (toString u).toList, [']'], ['['],
      (toString d).toList, [']']] ++ t).getD 10 []) = decide (SaysLog rest.toList) := by
    rw [h2]
    by_cases hs : SaysLog rest.toList
    · rw [if_pos hs, decide_eq_true hs]; rfl
    · rw [if_neg hs, decide_eq_false hs]; rfl
  rw [contText_rest]
  unfold readAny readNum
  rw [ppCont_rest hn (numberText_int _) (numberText_int _) (numberText_int _) type_int h1]
  simp only [e]
  simp only [List.cons_append, List.getD_cons_zero, List.getD_cons_succ, if_true, PyText.readInt, String.ofList_toList, hT.int]
  rw [readDiscrete_rest hn type_int]
  cases mkUniformInt n l u (some (d : Rat)) (decide (SaysLog rest.toList)) <;> rfl

open Classical in
/-- A line for a float is read as the call of the constructor. -/
theorem readAny_flt {T : PyText} (hT : NumberTexts T) {n : Name} {l u d : Rat} (hn : Plain n.toList) (rest : String) :
    readAny T (newLine n "real" (T.strFloat l) (T.strFloat u) (T.strFloat d) rest) =
      (mkUniformFlt n l u (some d) (decide (SaysLog rest.toList))).map .num := by
  obtain ⟨t, r, h1, h2⟩ := pOpt_log rest.toList
  have e : hasSub "log".toList (([n.toList, "real".toList, ['['], (T.strFloat l).toList, [','], (T.strFloat u).toList, [']'], ['['],
      (T.strFloat d).toList, [']']] ++ t).getD 10 []) = decide (SaysLog rest.toList) := by
    rw [h2]
    by_cases hs : SaysLog rest.toList
    · rw [if_pos hs, decide_eq_true hs]; rfl
    · rw [if_neg hs, decide_eq_false hs]; rfl
  rw [contText_rest]
  unfold readAny readNum
  rw [ppCont_rest hn (hT.shape _) (hT.shape _) (hT.shape _) type_real h1]
  simp only [e]
  simp only [List.cons_append, List.getD_cons_zero, List.getD_cons_succ, PyText.readFloat, String.ofList_toList, hT.float]
  rw [if_neg (by decide), if_pos trivial, readDiscrete_rest hn type_real]
  cases mkUniformFlt n l u (some d) (decide (SaysLog rest.toList)) <;> rfl

/-! ## The old format -/

theorem ppOldCont_rest {n l u d : Chars} (hn : Plain n) (hl : NumberText l) (hu : NumberText u) (hd : NumberText d)
    {rest r : Chars} {t : List Chars} (hr : pOpt (pWord (fun c => "il".toList.contains c)) rest = some (t, r)) :
    ppOldCont (oldContText n l u d rest) = some ([n, ['['], l, [','], u, [']'], ['['], d, [']']] ++ t, r) := by
  unfold ppOldCont oldContText
  rw [pSeq_step (ppName_ok hn (ends_cons (by decide)))]
  rw [pSeq_step (by rw [pLit_space]; exact lit_char (t := "[") (c := '[') rfl (by decide))]
  rw [pSeq_step (ppNumber_ok hl (numEnd_cons (by decide)))]
  rw [pSeq_step (lit_char (t := ",") (c := ',') rfl (by decide))]
  rw [pSeq_step (ppNumber_space hu (numEnd_cons (by decide)))]
  rw [pSeq_step (lit_char (t := "]") (c := ']') rfl (by decide))]
  rw [pSeq_step (by rw [pLit_space]; exact lit_char (t := "[") (c := '[') rfl (by decide))]
  rw [pSeq_step (ppNumber_ok hd (numEnd_cons (by decide)))]
  rw [pSeq_step (lit_char (t := "]") (c := ']') rfl (by decide))]
  rw [pSeq_step hr, pSeq_nil]
  simp

theorem isIL_iff {c : Char} : ("il".toList.contains c) = true ↔ IsIL c := by
  rw [show "il".toList = ['i', 'l'] from rfl]
  simp [IsIL]

/-- The letters behind the default: whitespace, then a run of `i` and `l`, then something else. -/
theorem pOpt_il {ws w rest : Chars} (hws : ∀ c ∈ ws, c ∈ " \n\t\r".toList) (hw : ∀ c ∈ w, IsIL c)
    (hr : ∀ c, rest.head? = some c → ¬ IsIL c) (hn : w = [] → ∀ c, rest.head? = some c → c ∉ " \n\t\r".toList) :
    ∃ t r, pOpt (pWord (fun c => "il".toList.contains c)) (ws ++ w ++ rest) = some (t, r) ∧ t.getD 0 [] = w := by
  have hr' : Ends (fun c => "il".toList.contains c) rest := by
    intro c hc
    have := hr c hc
    rw [← isIL_iff] at this
    simpa using this
  have hsk : skipWs (ws ++ w ++ rest) = w ++ rest := by
    rw [List.append_assoc, dropWhile_ws (fun c hc => ws_mem.2 (hws c hc))]
    apply skipWs_of
    cases w with
    | nil =>
      intro c hc
      have := hn rfl c hc
      rw [← ws_mem] at this
      simpa using this
    | cons a w =>
      refine ends_cons ?_
      rcases hw a (by simp) with rfl | rfl <;> decide
  unfold pOpt pWord tok
  rw [hsk]
  by_cases h : w = []
  · subst h
    rw [List.nil_append, rWord_none hr']
    exact ⟨_, _, rfl, rfl⟩
  · rw [rWord_ok h (fun c hc => isIL_iff.2 (hw c hc)) hr']
    exact ⟨_, _, rfl, rfl⟩

theorem readOldAny_line {T : PyText} {n : Name} {l u d : String} {l' u' d' : Rat} (hn : Plain n.toList) (hl : NumberText l.toList)
    (hu : NumberText u.toList) (hd : NumberText d.toList) (h1 : T.parseFloat l = some l') (h2 : T.parseFloat u = some u')
    (h3 : T.parseFloat d = some d') {ws w rest : Chars} (hws : ∀ c ∈ ws, c ∈ " \n\t\r".toList) (hw : ∀ c ∈ w, IsIL c)
    (hr : ∀ c, rest.head? = some c → ¬ IsIL c) (hne : w = [] → ∀ c, rest.head? = some c → c ∉ " \n\t\r".toList) :
    readOldAny T (oldLine n l u d (String.ofList (ws ++ w ++ rest))) =
      (if 'i' ∈ w then mkUniformInt n l' u' (some d') (decide ('l' ∈ w))
        else mkUniformFlt n l' u' (some d') (decide ('l' ∈ w))).map .num := by
  obtain ⟨t, r, k1, k2⟩ := pOpt_il hws hw hr hne
  have e : (([n.toList, ['['], l.toList, [','], u.toList, [']'], ['['], d.toList, [']']] : List Chars) ++ t).getD 9 [] = w := by
    rw [← k2]
    simp [List.getD_eq_getElem?_getD]
  rw [oldContText_rest, String.toList_ofList]
  unfold readOldAny readOldNum
  rw [ppOldCont_rest hn hl hu hd k1]
  simp only [e]
  simp only [List.cons_append, List.nil_append, List.getD_cons_zero, List.getD_cons_succ, PyText.readFloat, String.ofList_toList, h1, h2, h3]
  have hcat : readOldCat (oldContText n.toList l.toList u.toList d.toList (ws ++ w ++ rest)) none = .ok none := by
    unfold readOldCat
    rw [ppOldCat_cont hn]
  rw [hcat]
  by_cases hi : 'i' ∈ w
  · rw [if_pos hi, if_pos hi]
    cases mkUniformInt n l' u' (some d') (decide ('l' ∈ w)) <;> rfl
  · rw [if_neg hi, if_neg hi]
    cases mkUniformFlt n l' u' (some d') (decide ('l' ∈ w)) <;> rfl

/-! ## Files of parameter lines -/

/-- A line of the writer goes to the reader for parameters as it is. -/
theorem readParams_line {read : Chars → Except Err ReadHP} {line : Chars} {h : ReadHP} {ls : List Chars} (hl : Line parChar line)
    (hb : ']' ∈ line) (hr : read line = .ok h) : readParams read (line :: ls) = match readParams read ls with
      | .error e => .error e
      | .ok hs => .ok (h :: hs) := by
  obtain ⟨he1, he2⟩ := hl.ends
  obtain ⟨hc, ⟨a, r, e, ha⟩, -⟩ := hl
  rw [readParams]
  rw [cleanLine_id (fun c hm => parChar_ok (hc c hm)) he1 he2]
  rw [if_neg (fun hm => parChar_ne (hc _ hm) (x := '|') (by decide) rfl), if_neg (fun hm => hm.2 hb), if_neg, if_neg, hr]
  · cases readParams read ls <;> rfl
  · simp [e]
  · rintro ⟨h1, -⟩
    rw [e] at h1
    simp only [List.head?_cons, Option.some.injEq] at h1
    rw [h1] at ha
    exact absurd ha (by decide)

theorem readParams_empty (read : Chars → Except Err ReadHP) (ls : List Chars) : readParams read ([] :: ls) = readParams read ls := by
  rw [readParams]
  simp [cleanLine, strip, skipWs]

theorem readParams_lines {read : Chars → Except Err ReadHP} {g : NumHP → ReadHP} : ∀ {rs : List NumHP} {ls : List Chars},
    List.Forall₂ (fun r l => Line parChar l ∧ ']' ∈ l ∧ read l = .ok (g r)) rs ls → readParams read ls = .ok (rs.map g)
  | [], _, h => by cases h; rfl
  | r :: rs, _, h => by
    cases h with
    | cons h hs =>
      rw [readParams_line h.1 h.2.1 h.2.2, readParams_lines hs]
      rfl

/-- A file of lines is read line by line. -/
theorem params_file {build : NumHP → Except Err Chars} {read : Chars → Except Err ReadHP} {g : NumHP → ReadHP} {rs : List NumHP}
    (hn : ∀ r ∈ rs, Plain r.hp.name.toList)
    (h : ∀ r ∈ rs, ∃ l, build r = .ok l ∧ Line parChar l ∧ ']' ∈ l ∧ read l = .ok (g r)) :
    ∃ text, writeParams build rs = .ok text ∧ readParams read ((fileLines text).map String.toList) = .ok (rs.map g) := by
  obtain ⟨ls, h1, h2⟩ := mapExcept_forall (f := fun r : NumHP => if (ppName r.hp.name.toList).isNone then .error .valueError else build r)
    (P := fun r l => Line parChar l ∧ ']' ∈ l ∧ read l = .ok (g r)) (xs := rs) (by
      intro r hr
      have hp : ppName (r.hp.name.toList ++ []) = some ([r.hp.name.toList], []) := ppName_ok (hn r hr) (by simp [Ends])
      rw [List.append_nil] at hp
      obtain ⟨l, k1, k2⟩ := h r hr
      refine ⟨l, ?_, k2⟩
      rw [hp]
      exact k1)
  refine ⟨_, by unfold writeParams; rw [h1], ?_⟩
  unfold fileLines
  rw [String.toList_ofList, List.map_map, show String.toList ∘ String.ofList = id from by funext x; simp, List.map_id]
  by_cases he : ls = []
  · subst he
    cases h2
    show readParams read [[]] = _
    rw [readParams_empty]
    rfl
  · rw [show ("\n".toList : Chars) = ['\n'] from rfl, splitChar_join _ he, readParams_lines h2]
    have : ∀ l ∈ ls, Line parChar l := forall₂_right (fun _ _ k => k.1) h2
    intro l hl hb
    exact absurd ((this l hl).1 _ hb) (by decide)

end Verif
