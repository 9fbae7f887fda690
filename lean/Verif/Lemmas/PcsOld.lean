import Verif.Model.PcsOld
import Verif.Spec.PcsOld
import Verif.Lemmas.PcsFile

/-!
# Reading the lines of a file in the old pcs format
-/

set_option autoImplicit false

namespace Verif
open Verif.Spec

/-! ## Parameters -/

/-- The text of a categorical hyperparameter. -/
def oldCatText (n : Chars) (ws : List Chars) (d : Chars) : Chars :=
  n ++ ' ' :: '{' :: (joinWith ", ".toList ws ++ '}' :: ' ' :: '[' :: (d ++ [']']))

/-- The text of a numerical hyperparameter. -/
def oldContText (n l u d il : Chars) : Chars :=
  n ++ ' ' :: '[' :: (l ++ ',' :: ' ' :: (u ++ ']' :: ' ' :: '[' :: (d ++ ']' :: il)))

theorem ppOldCat_ok {n d w : Chars} {ws : List Chars} (hn : Plain n) (hd : Plain d) (hw : ∀ x ∈ w :: ws, Plain x) :
    ppOldCat (oldCatText n (w :: ws) d) = some (n :: ['{'] :: (choiceToks (w :: ws) ++ [['}'], ['['], d, [']']]), []) := by
  unfold ppOldCat oldCatText
  rw [pSeq_step (ppName_ok hn (ends_cons (by decide)))]
  rw [pSeq_step (by rw [pLit_space]; exact lit_char (t := "{") (c := '{') rfl (by decide))]
  rw [pSeq_step (ppChoices_ok hw (ends_cons (by decide)) (lit_char_none (t := ",") (c := ',') rfl (by decide) (by decide)))]
  rw [pSeq_step (lit_char (t := "}") (c := '}') rfl (by decide))]
  rw [pSeq_step (by rw [pLit_space]; exact lit_char (t := "[") (c := '[') rfl (by decide))]
  rw [pSeq_step (ppName_ok hd (ends_cons (by decide)))]
  rw [pSeq_step (lit_char (t := "]") (c := ']') rfl (by decide)), pSeq_nil]
  simp

theorem ppOldCont_cat {n d : Chars} {ws : List Chars} (hn : Plain n) : ppOldCont (oldCatText n ws d) = none := by
  unfold ppOldCont oldCatText
  rw [pSeq_step (ppName_ok hn (ends_cons (by decide)))]
  rw [pSeq_fail (by rw [pLit_space]; exact lit_char_none (t := "[") rfl (by decide) (by decide))]
  rfl

theorem ppOldCont_ok {n l u d il : Chars} (hn : Plain n) (hl : NumberText l) (hu : NumberText u) (hd : NumberText d)
    (hil : il = [] ∨ il = ['i']) :
    ppOldCont (oldContText n l u d il) =
      some ([n, ['['], l, [','], u, [']'], ['['], d, [']']] ++ (if il = [] then [] else [il]), []) := by
  unfold ppOldCont oldContText
  rw [pSeq_step (ppName_ok hn (ends_cons (by decide)))]
  rw [pSeq_step (by rw [pLit_space]; exact lit_char (t := "[") (c := '[') rfl (by decide))]
  rw [pSeq_step (ppNumber_ok hl (numEnd_cons (by decide)))]
  rw [pSeq_step (lit_char (t := ",") (c := ',') rfl (by decide))]
  rw [pSeq_step (ppNumber_space hu (numEnd_cons (by decide)))]
  rw [pSeq_step (lit_char (t := "]") (c := ']') rfl (by decide))]
  rw [pSeq_step (by rw [pLit_space]; exact lit_char (t := "[") (c := '[') rfl (by decide))]
  rw [pSeq_step (ppNumber_ok hd (numEnd_cons (by decide)))]
  rw [pSeq_step (lit_char (t := "]") (c := ']') rfl (by decide))]
  rcases hil with rfl | rfl
  · rw [pSeq_step (show pOpt (pWord (fun c => "il".toList.contains c)) [] = some ([], []) from rfl), pSeq_nil]
    simp
  · rw [pSeq_step (show pOpt (pWord (fun c => "il".toList.contains c)) ['i'] = some ([['i']], []) from rfl), pSeq_nil]
    simp

theorem ppOldCat_cont {n l u d il : Chars} (hn : Plain n) : ppOldCat (oldContText n l u d il) = none := by
  unfold ppOldCat oldContText
  rw [pSeq_step (ppName_ok hn (ends_cons (by decide)))]
  rw [pSeq_fail (by rw [pLit_space]; exact lit_char_none (t := "{") (x := '[') rfl (by decide) (by decide))]
  rfl

theorem oldChoices_take {n : Chars} {C : List Chars} {d : Chars} :
    everyOther (((n :: ['{'] :: (C ++ [['}'], ['['], d, [']']])).take
      ((n :: ['{'] :: (C ++ [['}'], ['['], d, [']']])).length - 4)).drop 2) = everyOther C := by
  have e : n :: ['{'] :: (C ++ [['}'], ['['], d, [']']]) = (n :: ['{'] :: C) ++ [['}'], ['['], d, [']']] := rfl
  rw [e, List.length_append, show ([['}'], ['['], d, [']']] : List Chars).length = 4 from rfl, Nat.add_sub_cancel, List.take_left]
  rfl

theorem oldDefault_at {n : Chars} {C : List Chars} {d : Chars} :
    (n :: ['{'] :: (C ++ [['}'], ['['], d, [']']])).getD
      ((n :: ['{'] :: (C ++ [['}'], ['['], d, [']']])).length - 2) [] = d := by
  have e : n :: ['{'] :: (C ++ [['}'], ['['], d, [']']]) = (n :: ['{'] :: C) ++ [['}'], ['['], d, [']']] := rfl
  rw [e, List.length_append, show ([['}'], ['['], d, [']']] : List Chars).length = 4 from rfl, List.getD_eq_getElem?_getD,
    List.getElem?_append_right (by omega)]
  have : (n :: ['{'] :: C).length + 4 - 2 - (n :: ['{'] :: C).length = 2 := by omega
  rw [this]
  rfl

theorem readOldParam_cat {T : PyText} {h : HP} {cs : List Val} (hw : h.wf = true) (hn : Plain h.name.toList)
    (hk : h.kind = .cat cs) (hv : ∀ v ∈ cs, ∃ t, v = .str t ∧ Plain t.toList) :
    readOldParam T (oldCatText h.name.toList (cs.map T.chars) (T.chars h.default)) = .ok h := by
  obtain ⟨hb, hp⟩ := words_back T hv
  have hd : h.default ∈ cs := pyIn_words hv (by
    simp only [HP.wf, hk, Bool.and_eq_true] at hw
    exact hw.2)
  obtain ⟨t, ht, hpt⟩ := hv _ hd
  have h2 := remake_cat hw hk (w := none) rfl
  have htc : T.chars h.default = t.toList := by rw [ht]; rfl
  unfold readOldParam readOldCont
  rw [ppOldCont_cat hn]
  simp only
  unfold readOldCat
  cases hc : cs.map T.chars with
  | nil =>
    rw [List.map_eq_nil_iff] at hc
    subst hc
    cases hd
  | cons w ws =>
    rw [hc] at hb hp
    rw [ppOldCat_ok hn (htc ▸ hpt) hp]
    simp only [oldChoices_take, oldDefault_at, everyOther_toks, hb, List.getD_cons_zero, String.ofList_toList]
    rw [htc, strVal_chars, ← ht, h2]

/-- An integer hyperparameter is made from the floats that its bounds and its default are read as. -/
theorem readOldParam_int {T : PyText} {n : Name} {l u m : Int} {l' u' m' : Rat} (hn : Plain n.toList)
    (h1 : T.parseFloat (toString l) = some l') (h2 : T.parseFloat (toString u) = some u')
    (h3 : T.parseFloat (toString m) = some m') :
    readOldParam T (oldContText n.toList (toString l).toList (toString u).toList (toString m).toList ['i']) =
      mkInt n l' u' (some m') := by
  unfold readOldParam readOldCont
  rw [ppOldCont_ok hn (numberText_int _) (numberText_int _) (numberText_int _) (.inr rfl)]
  simp only [List.cons_append, List.nil_append, List.getD_cons_zero, List.getD_cons_succ, PyText.readFloat, String.ofList_toList, h1, h2, h3]
  rw [if_neg (by decide), if_pos (by decide)]
  unfold readOldCat
  rw [ppOldCat_cont hn]
  cases mkInt n l' u' (some m') <;> rfl

theorem readOldParam_flt {T : PyText} (hT : NumberTexts T) {h : HP} {l u m : Rat} (hn : Plain h.name.toList)
    (h2 : mkFlt h.name l u (some m) = .ok h) :
    readOldParam T (oldContText h.name.toList (T.strFloat l).toList (T.strFloat u).toList (T.strFloat m).toList []) = .ok h := by
  unfold readOldParam readOldCont
  rw [ppOldCont_ok hn (hT.shape _) (hT.shape _) (hT.shape _) (.inl rfl)]
  simp only [if_true, List.append_nil, List.getD_cons_zero, List.getD_cons_succ, List.getD_nil, PyText.readFloat, String.ofList_toList, hT.float, h2]
  rw [if_neg (by decide), if_neg (by decide)]
  simp only
  unfold readOldCat
  rw [ppOldCat_cont hn]

theorem oldCatText_shape {n d : Chars} {ws : List Chars} (hn : Plain n) (hd : Plain d) (hw : ∀ w ∈ ws, Plain w) :
    Line parChar (oldCatText n ws d) ∧ ']' ∈ oldCatText n ws d := by
  obtain ⟨a, r, ea, ha⟩ := hn.first
  refine ⟨⟨?_, ⟨a, _, by unfold oldCatText; rw [ea]; rfl, ha⟩,
    n ++ ' ' :: '{' :: (joinWith ", ".toList ws ++ '}' :: ' ' :: '[' :: d), ']', by simp [oldCatText], by decide⟩, by simp [oldCatText]⟩
  have hcm : ∀ c ∈ ", ".toList, parChar c = true := by decide
  intro c hc
  unfold oldCatText at hc
  simp only [List.mem_append, List.mem_cons, List.not_mem_nil, or_false] at hc
  rcases hc with hc | rfl | rfl | hc | rfl | rfl | rfl | hc | rfl
  · exact hn.par c hc
  · decide
  · decide
  · rcases mem_joinWith hc with hc | ⟨w, hw', hc⟩
    · exact hcm c hc
    · exact (hw w hw').par c hc
  · decide
  · decide
  · decide
  · exact hd.par c hc
  · decide

theorem oldContText_shape {n l u d il : Chars} (hn : Plain n) (hl : Plain l) (hu : Plain u) (hd : Plain d)
    (hil : il = [] ∨ il = ['i']) : Line parChar (oldContText n l u d il) ∧ ']' ∈ oldContText n l u d il := by
  obtain ⟨a, r, ea, ha⟩ := hn.first
  refine ⟨⟨?_, ⟨a, _, by unfold oldContText; rw [ea]; rfl, ha⟩, ?_⟩, by simp [oldContText]⟩
  · intro c hc
    unfold oldContText at hc
    simp only [List.mem_append, List.mem_cons] at hc
    rcases hc with hc | rfl | rfl | hc | rfl | rfl | hc | rfl | rfl | rfl | hc | rfl | hc
    · exact hn.par c hc
    · decide
    · decide
    · exact hl.par c hc
    · decide
    · decide
    · exact hu.par c hc
    · decide
    · decide
    · decide
    · exact hd.par c hc
    · decide
    · rcases hil with rfl | rfl
      · cases hc
      · rw [List.mem_singleton.1 hc]; decide
  · rcases hil with rfl | rfl
    · exact ⟨n ++ ' ' :: '[' :: (l ++ ',' :: ' ' :: (u ++ ']' :: ' ' :: '[' :: d)), ']', by simp [oldContText], by decide⟩
    · exact ⟨n ++ ' ' :: '[' :: (l ++ ',' :: ' ' :: (u ++ ']' :: ' ' :: '[' :: (d ++ [']']))), 'i', by simp [oldContText], by decide⟩

/-- The line of a hyperparameter. -/
theorem old_hp_line {T : PyText} (hT : NumberTexts T) {weighted : Name → Bool} {h : HP} (hw : h.wf = true) (hh : OldHP T h)
    (hwt : weighted h.name = false) :
    ∃ line, buildOldParam T weighted h = .ok line ∧ (Line parChar line ∧ ']' ∈ line) ∧ readOldParam T line = .ok h := by
  obtain ⟨⟨hn, hk'⟩, hold⟩ := hh
  cases hk : h.kind with
  | cat cs =>
    rw [hk] at hk'
    simp only at hk'
    obtain ⟨-, hp⟩ := words_back T hk'
    have hd : h.default ∈ cs := pyIn_words hk' (by
      simp only [HP.wf, hk, Bool.and_eq_true] at hw
      exact hw.2)
    refine ⟨oldCatText h.name.toList (cs.map T.chars) (T.chars h.default), ?_,
      oldCatText_shape hn (hp (T.chars h.default) (List.mem_map.2 ⟨_, hd, rfl⟩)) hp, readOldParam_cat hw hn hk hk'⟩
    unfold buildOldParam
    simp [hk, hwt, oldCatText]
  | ord cs => rw [hk] at hold; exact hold.elim
  | const v => rw [hk] at hold; exact hold.elim
  | int l u =>
    rw [hk] at hold
    obtain ⟨m, hm, h2⟩ := remake_int hw hk
    refine ⟨oldContText h.name.toList (toString l).toList (toString u).toList (toString m).toList ['i'], ?_,
      oldContText_shape hn (numberText_int l).plain (numberText_int u).plain (numberText_int m).plain (.inr rfl), ?_⟩
    · unfold buildOldParam
      simp [hk, hm, oldContText, Val.num?, trunc_int', PyText.chars, PyText.str]
    · rw [readOldParam_int hn hold.1 hold.2.1 (hold.2.2 m hm), h2]
  | flt l u =>
    obtain ⟨m, hm, h2⟩ := remake_flt hw hk
    refine ⟨oldContText h.name.toList (T.strFloat l).toList (T.strFloat u).toList (T.strFloat m).toList [], ?_,
      oldContText_shape hn (hT.shape l).plain (hT.shape u).plain (hT.shape m).plain (.inl rfl), readOldParam_flt hT hn h2⟩
    unfold buildOldParam
    simp [hk, hm, oldContText, PyText.chars, PyText.str]

/-! ## Conditions -/

/-- The values of a test, as words. -/
def oldWords (T : PyText) (l : Lit) : List Chars :=
  match l.test with
  | .bin _ v _ => [T.chars v]
  | .isIn vs _ => vs.map T.chars

/-- The line of a literal condition. -/
def oldLitText (T : PyText) (l : Lit) : Chars :=
  l.child.name.toList ++ ' ' :: '|' :: ' ' :: (l.parent.name.toList ++ ' ' :: 'i' :: 'n' :: ' ' :: '{' ::
    (joinWith ", ".toList (oldWords T l) ++ ['}']))

/-- Its tokens. -/
def oldLitToks (T : PyText) (l : Lit) : List Chars :=
  l.child.name.toList :: ['|'] :: l.parent.name.toList :: ['i', 'n'] :: ['{'] :: (choiceToks (oldWords T l) ++ [['}']])

theorem joinStrings_words (T : PyText) : ∀ {vs : List Val}, (∀ v ∈ vs, ∃ t, v = .str t) → joinStrings vs = .ok (vs.map T.chars)
  | [], _ => rfl
  | v :: vs, h => by
    obtain ⟨t, rfl⟩ := h v (by simp)
    rw [joinStrings, joinStrings_words T (fun u hu => h u (by simp [hu]))]
    rfl

/-- What the values of a writable test look like. -/
theorem oldLit_words {T : PyText} {l : Lit} (hp : WritableHP l.parent) (hl : OldLit l) :
    (∃ w ws, oldWords T l = w :: ws) ∧ (∀ w ∈ oldWords T l, Plain w) ∧
      (((∃ v x, l.test = .bin .eq v x ∧ (oldWords T l).map strVal = [v]) ∨
        ∃ u v vs xs, l.test = .isIn (u :: v :: vs) xs ∧ (oldWords T l).map strVal = u :: v :: vs)) ∧
      buildOldLit T l = .ok (oldLitText T l) := by
  obtain ⟨⟨cs, hk⟩, hwl, heq⟩ := hl
  have hcs : ∀ v ∈ cs, ∃ t, v = .str t ∧ Plain t.toList := by
    have := hp.2
    rw [hk] at this
    exact this
  unfold WritableLit at hwl
  unfold oldWords buildOldLit oldLitText oldWords
  cases ht : l.test with
  | bin op v x =>
    obtain rfl := heq op v x ht
    rw [ht] at hwl
    have hv : v ∈ cs := by
      unfold Typed at hwl
      rw [hk] at hwl
      exact hwl
    obtain ⟨h1, h2⟩ := words_back T (cs := [v]) (by
      intro u hu
      rw [List.mem_singleton.1 hu]
      exact hcs v hv)
    exact ⟨⟨_, _, rfl⟩, h2, .inl ⟨v, x, rfl, h1⟩, by simp⟩
  | isIn vs xs =>
    rw [ht] at hwl
    obtain ⟨hlen, hty⟩ := hwl
    have hvs : ∀ v ∈ vs, ∃ t, v = .str t ∧ Plain t.toList := by
      intro v hv
      have := hty v hv
      unfold Typed at this
      rw [hk] at this
      exact hcs v this
    obtain ⟨h1, h2⟩ := words_back T hvs
    have h3 := joinStrings_words T (vs := vs) (fun v hv => (hvs v hv).imp fun _ k => k.1)
    match vs, hlen, h1, h2, h3 with
    | u :: v :: vs, _, h1, h2, h3 =>
      refine ⟨⟨_, _, rfl⟩, h2, .inr ⟨u, v, vs, xs, rfl, h1⟩, ?_⟩
      simp only
      rw [h3]
      simp

theorem ppOldCond_ok {T : PyText} {l : Lit} (hc : Plain l.child.name.toList) (hp : WritableHP l.parent) (hl : OldLit l) :
    ppOldCond (oldLitText T l) = some (oldLitToks T l, []) := by
  obtain ⟨⟨w, ws, e⟩, hw, -, -⟩ := oldLit_words (T := T) hp hl
  unfold ppOldCond oldLitText oldLitToks
  rw [e] at hw ⊢
  rw [pSeq_step (ppName_ok hc (ends_cons (by decide)))]
  rw [pSeq_step (by rw [pLit_space]; exact lit_char (t := "|") (c := '|') rfl (by decide))]
  rw [pSeq_step (by rw [show ∀ x, ppName (' ' :: x) = ppName x from fun x => tok_space _ _]; exact ppName_ok hp.1 (ends_cons (by decide)))]
  rw [pSeq_step (by rw [pLit_space]; exact pLit_ok (t := "in") (by decide) (by decide))]
  rw [pSeq_step (by rw [pLit_space]; exact lit_char (t := "{") (c := '{') rfl (by decide))]
  rw [pSeq_step (ppChoices_ok hw (ends_cons (by decide)) (lit_char_none (t := ",") (c := ',') rfl (by decide) (by decide)))]
  rw [pSeq_step (lit_char (t := "}") (c := '}') rfl (by decide)), pSeq_nil]
  simp

theorem oldLitText_line {T : PyText} {l : Lit} (hc : Plain l.child.name.toList) (hp : WritableHP l.parent) (hl : OldLit l) :
    Line okChar (oldLitText T l) ∧ '|' ∈ oldLitText T l := by
  obtain ⟨-, hw, -, -⟩ := oldLit_words (T := T) hp hl
  obtain ⟨a, r, ea, ha⟩ := hc.first
  refine ⟨⟨?_, ⟨a, _, by unfold oldLitText; rw [ea]; rfl, ha⟩, l.child.name.toList ++ ' ' :: '|' :: ' ' ::
    (l.parent.name.toList ++ ' ' :: 'i' :: 'n' :: ' ' :: '{' :: joinWith ", ".toList (oldWords T l)), '}', by simp [oldLitText], by decide⟩,
    by simp [oldLitText]⟩
  have hcm : ∀ c ∈ ", ".toList, okChar c = true := by decide
  intro c hm
  unfold oldLitText at hm
  simp only [List.mem_append, List.mem_cons, List.not_mem_nil, or_false] at hm
  rcases hm with hm | rfl | rfl | rfl | hm | rfl | rfl | rfl | rfl | rfl | hm | rfl
  · exact parChar_ok (hc.par c hm)
  · decide
  · decide
  · decide
  · exact parChar_ok (hp.1.par c hm)
  · decide
  · decide
  · decide
  · decide
  · decide
  · rcases mem_joinWith hm with hm | ⟨w, hw', hm⟩
    · exact hcm c hm
    · exact parChar_ok ((hw w hw').par c hm)
  · decide

theorem readOldLit_ok {T : PyText} {s : Space} (hlk : Looked s) {l : Lit} (hw : l.wf = true) (hp : WritableHP l.parent) (hl : OldLit l)
    (hpm : l.parent ∈ s.com.map Node.hp) (hcm : l.child ∈ s.com.map Node.hp) : readOldLit s (oldLitToks T l) = .ok (.lit l) := by
  obtain ⟨-, -, hv, -⟩ := oldLit_words (T := T) hp hl
  unfold readOldLit oldLitToks
  simp only [List.getD_cons_zero, List.getD_cons_succ, String.ofList_toList, getHP_ok hlk hpm, getHP_ok hlk hcm,
    List.drop_succ_cons, List.drop_zero, List.dropLast_concat, everyOther_toks]
  rcases hv with ⟨v, x, ht, e⟩ | ⟨u, v, vs, xs, ht, e⟩
  · simp only [e, mkBin_own hw ht]
    rfl
  · simp only [e, mkIn_own hw ht]
    rfl

/-- A writable condition gives lines, which are read as this condition in every space that has its hyperparameters. -/
theorem old_cond_lines {T : PyText} {c : Cond} (hw : c.wf = true) (hc : OldCond c)
    (hp : ∀ l ∈ c.dlcs, WritableHP l.parent ∧ Plain l.child.name.toList) :
    ∃ ls : List Lit, ls ≠ [] ∧ buildOldCond T c = .ok (joinWith "\n".toList (ls.map (oldLitText T))) ∧
      (∀ l ∈ ls, (Line okChar (oldLitText T l) ∧ '|' ∈ oldLitText T l) ∧ ppOldCond (oldLitText T l) = some (oldLitToks T l, []) ∧
        l.child.name = c.childStr) ∧
      ∀ s, Looked s → CondIn s c → readOldCond s (ls.map (oldLitToks T)) = .ok c := by
  cases hc with
  | @lit l hl =>
    have hd := hp l (by simp [Cond.dlcs])
    have hwl : l.wf = true := by
      simp only [Cond.wf, Cond.wf0, Bool.and_eq_true] at hw
      exact hw.1
    refine ⟨[l], by simp, ?_, ?_, ?_⟩
    · simp only [buildOldCond, (oldLit_words hd.1 hl).2.2.2]
      rfl
    · intro k hk
      rw [List.mem_singleton.1 hk]
      exact ⟨oldLitText_line hd.2 hd.1 hl, ppOldCond_ok hd.2 hd.1 hl, by simp [Cond.childStr, Cond.child?, Cond.dlcs]⟩
    · intro s hlk hci
      obtain ⟨h3, h4⟩ := hci l (by simp [Cond.dlcs])
      unfold readOldCond
      simp only [List.map_cons, List.map_nil, mapExcept, readOldLit_ok hlk hwl hd.1 hl h3 h4]
  | @and cs hcs =>
    have hlits : ∃ ls : List Lit, cs = ls.map Cond.lit ∧ ∀ l ∈ ls, OldLit l := by
      clear hw hp
      induction cs with
      | nil => exact ⟨[], rfl, by simp⟩
      | cons c cs ih =>
        obtain ⟨ls, rfl, hls⟩ := ih (fun d hd => hcs d (by simp [hd]))
        obtain ⟨l, rfl, hl⟩ := hcs c (by simp)
        refine ⟨l :: ls, rfl, ?_⟩
        intro m hm
        rcases List.mem_cons.1 hm with rfl | hm
        · exact hl
        · exact hls m hm
    obtain ⟨ls, rfl, hls⟩ := hlits
    simp only [Cond.wf, Bool.and_eq_true] at hw
    obtain ⟨h2, h3⟩ := wf0_and.1 hw.1
    have hd : (Cond.and (ls.map Cond.lit)).dlcs = ls := by rw [Cond.dlcs, dlcsL_lits]
    have hs : sameChild ls = true := by rw [← hd]; exact hw.2
    have hlw : ∀ l ∈ ls, l.wf = true := by
      intro l hl
      have := h3 (.lit l) (List.mem_map.2 ⟨l, hl, rfl⟩)
      simpa [Cond.wf0] using this
    rw [hd] at hp
    have h2' : 2 ≤ ls.length := by simpa using h2
    have hsame : ∀ k ∈ ls, k.child.name = (Cond.and (ls.map Cond.lit)).childStr := by
      match ls, h2' with
      | l :: m :: ls, _ =>
        intro k hk
        have hch : (Cond.and ((l :: m :: ls).map Cond.lit)).childStr = l.child.name := by
          unfold Cond.childStr Cond.child?
          rw [hd]
          rfl
        rw [hch]
        simp only [sameChild, List.all_eq_true] at hs
        rcases List.mem_cons.1 hk with rfl | hk
        · rfl
        · exact HP.pyEq_name (hs k hk)
    refine ⟨ls, ?_, ?_, ?_, ?_⟩
    · rintro rfl
      simp at h2'
    · simp only [buildOldCond]
      have key : ∀ ks : List Lit, (∀ k ∈ ks, k ∈ ls) → buildOldConds T (ks.map Cond.lit) = .ok (ks.map (oldLitText T)) := by
        intro ks
        induction ks with
        | nil => intro _; rfl
        | cons k ks ih =>
          intro hk
          have hm := hk k (by simp)
          rw [List.map_cons, buildOldConds, buildOldCond, (oldLit_words (hp k hm).1 (hls k hm)).2.2.2]
          simp only
          rw [ih (fun x hx => hk x (by simp [hx]))]
          rfl
      rw [key ls (fun _ h => h)]
    · intro k hk
      exact ⟨oldLitText_line (hp k hk).2 (hp k hk).1 (hls k hk), ppOldCond_ok (hp k hk).2 (hp k hk).1 (hls k hk), hsame k hk⟩
    · intro s hlk hci
      have key : ∀ ks : List Lit, (∀ k ∈ ks, k ∈ ls) → mapExcept (readOldLit s) (ks.map (oldLitToks T)) = .ok (ks.map Cond.lit) := by
        intro ks
        induction ks with
        | nil => intro _; rfl
        | cons k ks ih =>
          intro hk
          have hm := hk k (by simp)
          have hin := hci k (by rw [hd]; exact hm)
          rw [List.map_cons, mapExcept, readOldLit_ok hlk (hlw k hm) (hp k hm).1 (hls k hm) hin.1 hin.2]
          simp only
          rw [ih (fun x hx => hk x (by simp [hx]))]
          rfl
      unfold readOldCond
      rw [key ls (fun _ h => h)]
      match ls, h2', hs with
      | l :: m :: ls, h2', hs =>
        simp only [List.map_cons]
        rw [← List.map_cons, ← List.map_cons]
        simp only [mkAnd]
        rw [if_neg (by simp), if_pos (by rw [dlcsL_lits]; exact hs)]

/-! ## Clauses -/

theorem oldClauses_ok {T : PyText} {hs : List HP} (hh : ∀ h ∈ hs, WritableHP h ∧ IsCat h) {s : Space} (hlk : Looked s)
    (hin : ∀ h ∈ hs, h ∈ s.com.map Node.hp) : ∀ {g : Forb} {gs : List Forb}, (∀ k ∈ g :: gs, GoodEq T hs k) →
    oldClauses s (pairToks T (pairsOf (g :: gs)) ++ [['}']]) = .ok (g :: gs) := by
  have hval : ∀ {h : HP} {v : Val}, h ∈ hs → Typed h v → strVal (T.chars v) = v := by
    intro h v hm hv
    obtain ⟨hw, cs, hk⟩ := hh h hm
    unfold Typed at hv
    have h2 := hw.2
    rw [hk] at hv h2
    obtain ⟨t, rfl, -⟩ := h2 v hv
    exact strVal_chars t
  intro g gs
  induction gs generalizing g with
  | nil =>
    intro hg
    obtain ⟨h, v, x, rfl, hw, hv, hm⟩ := hg g (by simp)
    simp only [pairsOf, pairToks, List.flatMap_nil, List.cons_append, List.nil_append, oldClauses]
    rw [if_pos (by decide), String.ofList_toList, getHP_ok hlk (hin h hm)]
    simp only
    rw [hval hm hv.1, mkForbEq_own hw]
  | cons k gs ih =>
    intro hg
    obtain ⟨h, v, x, rfl, hw, hv, hm⟩ := hg g (by simp)
    have hrest := ih (g := k) (fun j hj => hg j (by simp [hj]))
    obtain ⟨h', v', x', rfl, -⟩ := hg k (by simp)
    simp only [pairsOf, pairToks, List.flatMap_cons, List.cons_append, List.nil_append] at hrest ⊢
    rw [oldClauses]
    rw [if_pos (by decide), String.ofList_toList, getHP_ok hlk (hin h hm)]
    simp only
    rw [hval hm hv.1, mkForbEq_own hw, hrest]

theorem readOldForb_ok {T : PyText} (hT : NumberTexts T) {hs : List HP} (hh : ∀ h ∈ hs, WritableHP h ∧ IsCat h) {s : Space}
    (hlk : Looked s) (hin : ∀ h ∈ hs, h ∈ s.com.map Node.hp) {gs : List Forb} (hne : gs ≠ []) (hg : ∀ k ∈ gs, GoodEq T hs k) :
    readOldForb s (forbText T (pairsOf gs)) = .ok (.and gs) := by
  cases gs with
  | nil => exact absurd rfl hne
  | cons g gs =>
    have hp := goodEq_pair hT (fun h hm => (hh h hm).1) hg
    have hc := oldClauses_ok hh hlk hin hg
    obtain ⟨h, v, x, rfl, -⟩ := hg g (by simp)
    unfold readOldForb
    rw [show pairsOf (.eq h v x :: gs) = (h.name, v) :: pairsOf gs from rfl] at hp hc ⊢
    rw [ppForbidden_ok hp]
    simp only [List.drop_succ_cons, List.drop_zero]
    rw [hc]

/-! ## Reading the lines -/

theorem readOldLine_par {T : PyText} {f : OldFile} {line : Chars} {h : HP} (hl : Line parChar line) (hb : ']' ∈ line)
    (hr : readOldParam T line = .ok h) : readOldLine T f line = .ok { f with hps := f.hps ++ [h] } := by
  obtain ⟨he1, he2⟩ := hl.ends
  obtain ⟨hc, ⟨a, r, e, ha⟩, -⟩ := hl
  unfold readOldLine
  rw [cleanLine_id (fun c hm => parChar_ok (hc c hm)) he1 he2]
  simp only
  rw [if_neg (fun hm => parChar_ne (hc _ hm) (x := '|') (by decide) rfl), if_neg (fun hm => hm.2 hb), if_neg, if_neg, hr]
  · simp [e]
  · rintro ⟨h1, -⟩
    rw [e] at h1
    simp only [List.head?_cons, Option.some.injEq] at h1
    rw [h1] at ha
    exact absurd ha (by decide)

theorem readOldLine_forb {T : PyText} {f : OldFile} {cs : Chars} (hcs : ∀ x ∈ cs, parChar x = true) :
    readOldLine T f ('{' :: (cs ++ ['}'])) = .ok { f with forbs := f.forbs ++ ['{' :: (cs ++ ['}'])] } := by
  have hall : ∀ x ∈ '{' :: (cs ++ ['}']), parChar x = true := by
    intro x hx
    rcases List.mem_cons.1 hx with rfl | hx
    · decide
    rcases List.mem_append.1 hx with hx | hx
    · exact hcs x hx
    · rw [List.mem_singleton.1 hx]; decide
  unfold readOldLine
  rw [cleanLine_id (fun x hx => parChar_ok (hall x hx)) (ends_cons (by decide))
    (by rw [← List.cons_append, List.reverse_append]; exact ends_cons (by decide))]
  simp only
  rw [if_neg (fun hm => parChar_ne (hall _ hm) (x := '|') (by decide) rfl), if_neg (by simp), if_pos]
  refine ⟨rfl, ?_⟩
  rw [← List.cons_append, List.getLast?_append]
  rfl

theorem readOldLine_cond {T : PyText} {f : OldFile} {line r : Chars} {toks : List Chars} (hl : Line okChar line)
    (hb : '|' ∈ line) (hp : ppOldCond line = some (toks, r)) :
    readOldLine T f line = .ok { f with conds := f.conds ++ [toks] } := by
  unfold readOldLine
  rw [cleanLine_id hl.1 hl.ends.1 hl.ends.2]
  simp only
  rw [if_pos hb, hp]

theorem readOldLine_empty (T : PyText) (f : OldFile) : readOldLine T f [] = .ok f := by
  unfold readOldLine
  simp [cleanLine, strip, skipWs]

theorem readOldLines_append {T : PyText} : ∀ {a b : List Chars} {f : OldFile}, readOldLines T f (a ++ b) = match readOldLines T f a with
    | .error e => .error e
    | .ok f' => readOldLines T f' b
  | [], b, f => rfl
  | x :: a, b, f => by
    rw [List.cons_append, readOldLines, readOldLines]
    cases readOldLine T f x with
    | error e => rfl
    | ok f' => exact readOldLines_append

theorem readOldLines_filter {T : PyText} : ∀ {a : List Chars} {f : OldFile},
    readOldLines T f a = readOldLines T f (a.filter (fun l => !l.isEmpty))
  | [], f => rfl
  | [] :: a, f => by
    rw [readOldLines, readOldLine_empty]
    exact readOldLines_filter
  | (c :: l) :: a, f => by
    rw [List.filter_cons_of_pos (by simp), readOldLines, readOldLines]
    cases readOldLine T f (c :: l) with
    | error e => rfl
    | ok f' => exact readOldLines_filter

theorem readOldLines_params {T : PyText} : ∀ (hs : List HP) (ls : List Chars) {f : OldFile},
    List.Forall₂ (fun h l => (Line parChar l ∧ ']' ∈ l) ∧ readOldParam T l = .ok h) hs ls →
    readOldLines T f ls = .ok { f with hps := f.hps ++ hs }
  | [], _, f, .nil => by simp [readOldLines]
  | x :: hs, l :: ls, f, .cons ⟨h1, h2⟩ ht => by
    rw [readOldLines, readOldLine_par h1.1 h1.2 h2]
    simp only
    rw [readOldLines_params hs ls ht]
    simp

theorem readOldLines_conds {T : PyText} : ∀ (ls : List Lit) {f : OldFile},
    (∀ l ∈ ls, (Line okChar (oldLitText T l) ∧ '|' ∈ oldLitText T l) ∧ ppOldCond (oldLitText T l) = some (oldLitToks T l, [])) →
    readOldLines T f (ls.map (oldLitText T)) = .ok { f with conds := f.conds ++ ls.map (oldLitToks T) }
  | [], f, _ => by simp [readOldLines]
  | l :: ls, f, h => by
    obtain ⟨h1, h2⟩ := h l (by simp)
    rw [List.map_cons, readOldLines, readOldLine_cond h1.1 h1.2 h2]
    simp only
    rw [readOldLines_conds ls (fun k hk => h k (by simp [hk]))]
    simp

theorem readOldLines_forbs {T : PyText} : ∀ (ls : List Chars) {f : OldFile},
    (∀ l ∈ ls, ∃ cs, l = '{' :: (cs ++ ['}']) ∧ ∀ x ∈ cs, parChar x = true) →
    readOldLines T f ls = .ok { f with forbs := f.forbs ++ ls }
  | [], f, _ => by simp [readOldLines]
  | l :: ls, f, h => by
    obtain ⟨cs, e, h1⟩ := h l (by simp)
    rw [readOldLines, e, readOldLine_forb h1]
    simp only
    rw [readOldLines_forbs ls (fun k hk => h k (by simp [hk]))]
    simp

/-! ## Lines of one child -/

theorem uniqueBy_skip {α : Type} {key : α → String} : ∀ {a b : List α} {seen : List String}, (∀ x ∈ a, key x ∈ seen) →
    uniqueBy key seen (a ++ b) = uniqueBy key seen b
  | [], _, _, _ => rfl
  | x :: a, b, seen, h => by
    rw [List.cons_append, uniqueBy, if_pos (h x (by simp))]
    exact uniqueBy_skip (fun y hy => h y (by simp [hy]))

/-- Lines that come in groups, each with one child, are put back into these groups. -/
theorem perChild_groups {tkss : List (List (List Chars))} {ks : List Chars} (h : List.Forall₂ (fun tks k => tks ≠ [] ∧
    ∀ t ∈ tks, t.getD 0 [] = k) tkss ks) (hn : ks.Nodup) : perChild tkss.flatten = tkss := by
  have hA : ∀ {seen : List String}, (∀ k ∈ ks, String.ofList k ∉ seen) →
      uniqueBy String.ofList seen (tkss.flatten.map (fun c => c.getD 0 [])) = ks := by
    induction h with
    | nil => intro _ _; rfl
    | @cons tks k tkss ks h0 _ ih =>
      intro seen hs
      obtain ⟨hne, hk⟩ := h0
      simp only [List.nodup_cons] at hn
      match tks, hne, hk with
      | t :: tks, _, hk =>
        rw [List.flatten_cons, List.map_append, List.map_cons, List.cons_append, hk t (by simp), uniqueBy,
          if_neg (hs k (by simp)), uniqueBy_skip, ih hn.2]
        · intro k' hk' hm
          rcases List.mem_cons.1 hm with e | hm
          · have := congrArg String.toList e
            simp only [String.toList_ofList] at this
            exact hn.1 (this ▸ hk')
          · exact hs k' (by simp [hk']) hm
        · intro x hx
          obtain ⟨t', ht', rfl⟩ := List.mem_map.1 hx
          rw [hk t' (by simp [ht'])]
          simp
  have hB : ks.map (fun n => tkss.flatten.filter (fun c => c.getD 0 [] == n)) = tkss := by
    clear hA
    induction h with
    | nil => rfl
    | @cons tks k tkss ks h0 ht ih =>
      obtain ⟨-, hk⟩ := h0
      simp only [List.nodup_cons] at hn
      have hoth : ∀ {tkss : List (List (List Chars))} {ks : List Chars}, List.Forall₂ (fun tks k => tks ≠ [] ∧
          ∀ t ∈ tks, t.getD 0 [] = k) tkss ks → k ∉ ks → ∀ t ∈ tkss.flatten, t.getD 0 [] ≠ k := by
        intro tkss ks ht
        induction ht with
        | nil => intro _ t ht; cases ht
        | @cons a b as bs h1 _ ih =>
          intro hk t ht
          simp only [List.mem_cons, not_or] at hk
          rw [List.flatten_cons] at ht
          rcases List.mem_append.1 ht with ht | ht
          · rw [h1.2 t ht]
            exact fun e => hk.1 e.symm
          · exact ih hk.2 t ht
      rw [List.map_cons]
      congr 1
      · rw [List.flatten_cons, List.filter_append, List.filter_eq_self.2, List.filter_eq_nil_iff.2, List.append_nil]
        · intro t hm
          simpa using hoth ht hn.1 t hm
        · intro t hm
          simpa using hk t hm
      · refine Eq.trans ?_ (ih hn.2)
        apply List.map_congr_left
        intro n hm
        rw [List.flatten_cons, List.filter_append, List.filter_eq_nil_iff.2, List.nil_append]
        intro t hm'
        rw [hk t hm']
        simp only [beq_iff_eq]
        rintro rfl
        exact hn.1 hm
  unfold perChild
  rw [hA (by simp), hB]

theorem joinWith_flatten {sep : Chars} : ∀ {lss : List (List Chars)}, (∀ ls ∈ lss, ls ≠ []) →
    joinWith sep (lss.map (joinWith sep)) = joinWith sep lss.flatten
  | [], _ => rfl
  | [] :: _, h => absurd rfl (h [] (by simp))
  | (w :: a) :: lss, h => by
    rw [List.map_cons, joinWith_cons, List.flatten_cons, joinWith_append]
    congr 1
    have key : ∀ lss : List (List Chars), (∀ ls ∈ lss, ls ≠ []) →
        (lss.map (joinWith sep)).flatMap (fun x => sep ++ x) = lss.flatten.flatMap (fun x => sep ++ x) := by
      intro lss
      induction lss with
      | nil => intro _; rfl
      | cons ls lss ih =>
        intro h
        match ls, h ls (by simp) with
        | w :: a, _ =>
          rw [List.map_cons, List.flatMap_cons, List.flatten_cons, List.flatMap_append, ih (fun x hx => h x (by simp [hx])),
            joinWith_cons, List.flatMap_cons]
          simp only [List.append_assoc]
    exact key lss (fun x hx => h x (by simp [hx]))

/-! ## Adding the conditions and the clauses together -/

theorem rebuild_rules {calls : List Call} {s : Space} (h : Reach calls s) (hown : OwnClauses calls) {F : List Forb}
    (hwF : ∀ f ∈ F, f.wf = true) (hoF : ∀ f ∈ F, ∀ x ∈ clauseHps f, x ∈ s.com.map Node.hp) (hne : NoEmptyClause F)
    (hF : ∀ a : Assign, (∃ f ∈ allForbs calls, Forbids a f) ↔ ∃ f ∈ F, Forbids a f) :
    ∃ s1 s2, ({} : Space).add (s.com.map Node.hp) [] [] = (s1, none) ∧ Reach [s.hpCall] s1 ∧
      s1.add [] (s.com.filterMap Node.cond) F = (s2, none) ∧
      Reach [s.hpCall, ⟨[], s.com.filterMap Node.cond, F⟩] s2 ∧
      s2.com.map Node.core = s.com.map Node.core ∧
      (∀ v al, s2.check v al = s.check v al) ∧ (∀ d al, Config.ofValues s2 d al = Config.ofValues s d al) ∧
      s2.defaultConfig = s.defaultConfig := by
  obtain ⟨s1, ha, h1⟩ := add_hps h
  have hr := rebuild_fits h
  have eH0 : allHps ([s.hpCall] ++ [s.ruleCall]) = s.com.map Node.hp := by simp [allHps, Space.hpCall, Space.ruleCall]
  have eC0 : allConds ([s.hpCall] ++ [s.ruleCall]) = s.com.filterMap Node.cond := by
    simp [allConds, Space.hpCall, Space.ruleCall]
  have eH : allHps ([s.hpCall] ++ [⟨[], s.com.filterMap Node.cond, F⟩]) = s.com.map Node.hp := by simp [allHps, Space.hpCall]
  have eC : allConds ([s.hpCall] ++ [⟨[], s.com.filterMap Node.cond, F⟩]) = s.com.filterMap Node.cond := by
    simp [allConds, Space.hpCall]
  have eF : allForbs ([s.hpCall] ++ [⟨[], s.com.filterMap Node.cond, F⟩]) = F := by simp [allForbs, Space.hpCall]
  have p := pre_of_reach h
  have hkn : ∀ n, Known ([s.hpCall] ++ [s.ruleCall]) n → Known ([s.hpCall] ++ [⟨[], s.com.filterMap Node.cond, F⟩]) n := by
    intro n hn
    unfold Known at hn ⊢
    rw [eH0] at hn
    rwa [eH]
  have kC : Call.wf ⟨[], s.com.filterMap Node.cond, F⟩ := ⟨by simp, (ruleCall_wf h).2.1, hwF⟩
  have hfit : Fits [s.hpCall] ⟨[], s.com.filterMap Node.cond, F⟩ := by
    refine ⟨by rw [eH]; exact hps_nodup h, fun c hc n hn => hkn n (hr.children c hc n hn),
      fun c hc l hl => hkn _ (hr.parents c hc l hl), ?_, ?_, ?_⟩
    · intro c hc x hx e
      rw [eC] at hx
      exact hr.single c hc x (by rw [eC0]; exact hx) e
    · have := hr.acyclic
      rw [← parentRel_iff, eC0] at this
      rw [← parentRel_iff, eC]
      exact this
    · intro f hf n hn
      rw [names_eq] at hn
      obtain ⟨x, hx, rfl⟩ := List.mem_map.1 hn
      unfold Known
      rw [eH]
      exact ⟨x, hoF f hf x hx, rfl⟩
  obtain ⟨s2, p2, hb⟩ := add_candidate h1 kC hfit (by
    unfold OwnClauses
    rw [eF, eH]
    exact hoF) (by rw [eF]; exact hne)
  rw [eH, eC, eF] at p2
  have hp := hps_perm h
  have hcore : s.com.map Node.core = s2.com.map Node.core :=
    core_eq p p2 hp.symm (parentRel_nodeConds h).symm (fun n => (lastCond_nodeConds h n).symm)
  obtain ⟨k1, k2, k3⟩ := same_default_on p p2 hp.symm hown hoF hF hcore
  obtain ⟨c, hc⟩ := (sinv_of_reach h).default
  rw [k3] at hc
  rw [hc] at hb
  exact ⟨s1, s2, ha, h1, hb, Reach.snoc h1 kC hb, hcore.symm, fun v al => (k1 v al).symm, fun d al => (k2 d al).symm, k3.symm⟩

end Verif
