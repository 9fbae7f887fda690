import Verif.Props.PcsNew

/-!
# Parts of a line, and of a file, in the new pcs format
-/

set_option autoImplicit false

namespace Verif
open Verif.Spec

/-! ## A parser that wants a character fails without it -/

/-- What is left has `n` fewer of the character. -/
def EatsR (p : Chars → Option (Chars × Chars)) (c : Char) (n : Nat) : Prop :=
  ∀ cs t r, p cs = some (t, r) → r.count c + n ≤ cs.count c

def Eats (p : Parser) (c : Char) (n : Nat) : Prop := ∀ cs ts r, p cs = some (ts, r) → r.count c + n ≤ cs.count c

theorem count_dropWhile_le (p : Char → Bool) (c : Char) (cs : Chars) : (cs.dropWhile p).count c ≤ cs.count c :=
  (List.dropWhile_sublist p).count_le c

theorem eatsR_word {p : Char → Bool} {c : Char} : EatsR (rWord p) c 0 := by
  intro cs t r h
  unfold rWord at h
  simp only at h
  split at h
  · cases h
  · cases h
    simpa using count_dropWhile_le p c cs

theorem eatsR_lit {c : Char} : ∀ {t : Chars}, EatsR (rLit t) c (t.count c)
  | [], cs, t, r, h => by
    simp only [rLit, Option.some.injEq, Prod.mk.injEq] at h
    rw [← h.2]; simp
  | x :: xs, [], t, r, h => by simp [rLit] at h
  | x :: xs, y :: cs, t, r, h => by
    unfold rLit at h
    split at h
    · rename_i hxy
      have e : x = y := by simpa using hxy
      subst e
      cases hr : rLit xs cs with
      | none => simp [hr] at h
      | some w =>
        obtain ⟨t', r'⟩ := w
        simp only [hr, Option.some.injEq, Prod.mk.injEq] at h
        have := eatsR_lit (c := c) (t := xs) cs t' r' hr
        rw [← h.2, List.count_cons, List.count_cons]
        omega
    · cases h

theorem eatsR_seq {p q : Chars → Option (Chars × Chars)} {c : Char} (hp : EatsR p c 0) (hq : EatsR q c 0) : EatsR (rSeq p q) c 0 := by
  intro cs t r h
  unfold rSeq at h
  cases h1 : p cs with
  | none => simp [h1] at h
  | some w =>
    obtain ⟨t1, r1⟩ := w
    simp only [h1] at h
    cases h2 : q r1 with
    | none => simp [h2] at h
    | some w2 =>
      obtain ⟨t2, r2⟩ := w2
      simp only [h2, Option.some.injEq, Prod.mk.injEq] at h
      have := hp _ _ _ h1
      have := hq _ _ _ h2
      rw [← h.2]
      omega

theorem eatsR_alt {p q : Chars → Option (Chars × Chars)} {c : Char} (hp : EatsR p c 0) (hq : EatsR q c 0) : EatsR (rAlt p q) c 0 := by
  intro cs t r h
  unfold rAlt at h
  cases h1 : p cs with
  | none => rw [h1] at h; exact hq _ _ _ h
  | some w => rw [h1] at h; simp only at h; rw [h] at h1; exact hp _ _ _ h1

theorem eatsR_opt {p : Chars → Option (Chars × Chars)} {c : Char} (hp : EatsR p c 0) : EatsR (rOpt p) c 0 := by
  intro cs t r h
  unfold rOpt at h
  cases h1 : p cs with
  | none => rw [h1] at h; cases h; simp
  | some w => rw [h1] at h; simp only at h; rw [h] at h1; exact hp _ _ _ h1

theorem eatsR_le {p : Chars → Option (Chars × Chars)} {c : Char} {n m : Nat} (h : EatsR p c n) (hm : m ≤ n) : EatsR p c m :=
  fun cs t r e => by have := h cs t r e; omega

theorem eats_tok {p : Chars → Option (Chars × Chars)} {c : Char} {n : Nat} (hp : EatsR p c n) : Eats (tok p) c n := by
  intro cs t r h
  unfold tok at h
  cases h1 : p (skipWs cs) with
  | none => simp [h1] at h
  | some w =>
    obtain ⟨t1, r1⟩ := w
    simp only [h1, Option.some.injEq, Prod.mk.injEq] at h
    have := hp _ _ _ h1
    have h3 : (skipWs cs).count c ≤ cs.count c := count_dropWhile_le isWs c cs
    rw [← h.2]
    omega

theorem eats_lit {t : String} {c : Char} : Eats (pLit t) c (t.toList.count c) := eats_tok eatsR_lit

theorem eats_le {p : Parser} {c : Char} {n m : Nat} (h : Eats p c n) (hm : m ≤ n) : Eats p c m :=
  fun cs t r e => by have := h cs t r e; omega

theorem eats_nil {c : Char} : Eats (pSeq []) c 0 := by
  intro cs t r h
  cases h
  simp

theorem eats_cons {p : Parser} {ps : List Parser} {c : Char} {n m : Nat} (hp : Eats p c n) (hq : Eats (pSeq ps) c m) :
    Eats (pSeq (p :: ps)) c (n + m) := by
  intro cs t r h
  unfold pSeq at h
  cases h1 : p cs with
  | none => simp [h1] at h
  | some w =>
    obtain ⟨t1, r1⟩ := w
    simp only [h1] at h
    cases h2 : pSeq ps r1 with
    | none => simp [h2] at h
    | some w2 =>
      obtain ⟨t2, r2⟩ := w2
      simp only [h2, Option.some.injEq, Prod.mk.injEq] at h
      have := hp _ _ _ h1
      have := hq _ _ _ h2
      rw [← h.2]
      omega

theorem eats_alt {p q : Parser} {c : Char} (hp : Eats p c 0) (hq : Eats q c 0) : Eats (pAlt p q) c 0 := by
  intro cs t r h
  unfold pAlt at h
  cases h1 : p cs with
  | none => rw [h1] at h; exact hq _ _ _ h
  | some w => rw [h1] at h; simp only at h; rw [h] at h1; exact hp _ _ _ h1

theorem eats_opt {p : Parser} {c : Char} (hp : Eats p c 0) : Eats (pOpt p) c 0 := by
  intro cs t r h
  unfold pOpt at h
  cases h1 : p cs with
  | none => rw [h1] at h; cases h; simp
  | some w => rw [h1] at h; simp only at h; rw [h] at h1; exact hp _ _ _ h1

theorem eats_manyN {p : Parser} {c : Char} (hp : Eats p c 0) : ∀ n, Eats (pManyN p n) c 0
  | 0, cs, t, r, h => by cases h; simp
  | n + 1, cs, t, r, h => by
    unfold pManyN at h
    cases h1 : p cs with
    | none => rw [h1] at h; cases h; simp
    | some w =>
      obtain ⟨t1, r1⟩ := w
      simp only [h1] at h
      cases h2 : pManyN p n r1 with
      | none => simp [h2] at h
      | some w2 =>
        obtain ⟨t2, r2⟩ := w2
        simp only [h2, Option.some.injEq, Prod.mk.injEq] at h
        have := hp _ _ _ h1
        have := eats_manyN hp n _ _ _ h2
        rw [← h.2]
        omega

theorem eats_many {p : Parser} {c : Char} (hp : Eats p c 0) : Eats (pMany p) c 0 := fun cs t r h => eats_manyN hp _ _ _ _ h

theorem eats_name {c : Char} : Eats ppName c 0 := eats_tok eatsR_word

theorem eats_number {c : Char} : Eats ppNumber c 0 := by
  have l : ∀ t : Chars, EatsR (rLit t) c 0 := fun t => eatsR_le eatsR_lit (Nat.zero_le _)
  have hs : EatsR rSign c 0 := eatsR_alt (l _) (l _)
  have hi : EatsR rInt c 0 := eatsR_seq (eatsR_opt hs) eatsR_word
  have hf : EatsR rFloat c 0 := eatsR_seq (eatsR_opt hs) (eatsR_seq (eatsR_opt hi) (eatsR_seq (l _) hi))
  exact eats_tok (eatsR_alt (eatsR_seq (eatsR_alt hf hi) (eatsR_seq (eatsR_alt (l _) (l _)) hi)) (eatsR_alt hf hi))

theorem eats_type {c : Char} : Eats ppType c 0 := by
  have l : ∀ t : String, Eats (pLit t) c 0 := fun t => eats_le eats_lit (Nat.zero_le _)
  exact eats_alt (l _) (eats_alt (l _) (eats_alt (l _) (l _)))

theorem eats_choices {c : Char} : Eats ppChoices c 0 :=
  eats_cons (n := 0) (m := 0) eats_name (eats_cons (n := 0) (m := 0)
    (eats_many (eats_cons (n := 0) (m := 0) (eats_le eats_lit (Nat.zero_le _)) (eats_cons (n := 0) (m := 0) eats_name eats_nil))) eats_nil)

theorem eats_cat (c : Char) : Eats ppCatParam c ("{}[]".toList.count c) := by
  refine eats_le (eats_cons eats_name (eats_cons eats_type (eats_cons eats_lit (eats_cons eats_choices (eats_cons eats_lit
    (eats_cons eats_lit (eats_cons eats_name (eats_cons eats_lit eats_nil)))))))) ?_
  simp [List.count_cons]
  omega

theorem eats_cont (c : Char) : Eats ppContParam c ("[][]".toList.count c) := by
  refine eats_le (eats_cons eats_name (eats_cons eats_type (eats_cons eats_lit (eats_cons eats_number (eats_cons eats_lit
    (eats_cons eats_number (eats_cons eats_lit (eats_cons eats_lit (eats_cons eats_number (eats_cons eats_lit
    (eats_cons (eats_opt (eats_le eats_lit (Nat.zero_le _))) eats_nil))))))))))) ?_
  simp [List.count_cons]
  omega

/-! ## A line that is not complete -/

theorem plain_count {w : Chars} (h : Plain w) {c : Char} (hc : nameChar c = false) : w.count c = 0 :=
  List.count_eq_zero.2 fun hm => by rw [h.name c hm] at hc; cases hc

theorem join_count {ws : List Chars} (h : ∀ w ∈ ws, Plain w) {c : Char} (hc : nameChar c = false) (hs : ", ".toList.count c = 0) :
    (joinWith ", ".toList ws).count c = 0 :=
  List.count_eq_zero.2 fun hm => by
    rcases mem_joinWith hm with hx | ⟨w, hw, hx⟩
    · exact List.count_eq_zero.1 hs hx
    · exact List.count_eq_zero.1 (plain_count (h w hw) hc) hx

theorem cut_count {q l : Chars} {c b : Char} (hq : q <+: l ++ [b]) (hne : q ≠ l ++ [b]) : q.count c ≤ l.count c := by
  rw [List.prefix_concat_iff] at hq
  rcases hq with e | hq
  · exact absurd e hne
  · exact hq.sublist.count_le c

/-- No proper part of the line of a hyperparameter is of the form of a parameter. -/
theorem hp_line_cut {T : PyText} (hT : NumberTexts T) {weighted : Name → Bool} {h : HP} (hw : h.wf = true) (hh : WritableHP h)
    (hwt : weighted h.name = false) {l : Chars} (hl : buildParam T weighted h = .ok l) {q : Chars} (hq : q <+: l) (hne : q ≠ l) :
    ppContParam q = none ∧ ppCatParam q = none := by
  have cat : ∀ (n d : Chars) (ty : String) (ws : List Chars), Plain n → Plain d → (∀ w ∈ ws, Plain w) → ty.toList.count ']' = 0 →
      q <+: catText n ty ws d → q ≠ catText n ty ws d → q.count ']' = 0 := by
    intro n d ty ws hn hd hws hty h1 h2
    have e : catText n ty ws d = (n ++ ' ' :: (ty.toList ++ ' ' :: '{' :: (joinWith ", ".toList ws ++ '}' :: ' ' :: '[' :: d))) ++ [']'] := by
      simp [catText]
    rw [e] at h1 h2
    have := cut_count (c := ']') h1 h2
    simp only [List.count_append, List.count_cons, plain_count hn (by decide : nameChar ']' = false),
      plain_count hd (by decide : nameChar ']' = false), join_count hws (by decide : nameChar ']' = false) (by decide), hty] at this
    simpa using this
  have cont : ∀ (n l u d : Chars) (ty : String), Plain n → Plain l → Plain u → Plain d → ty.toList.count ']' = 0 →
      ty.toList.count '{' = 0 → q <+: contText n ty l u d → q ≠ contText n ty l u d → q.count ']' ≤ 1 ∧ q.count '{' = 0 := by
    intro n l u d ty hn hl hu hd hty hty2 h1 h2
    have e : contText n ty l u d = (n ++ ' ' :: (ty.toList ++ ' ' :: '[' :: (l ++ ',' :: ' ' :: (u ++ ']' :: ' ' :: '[' :: d)))) ++ [']'] := by
      simp [contText]
    rw [e] at h1 h2
    have k1 := cut_count (c := ']') h1 h2
    have k2 := cut_count (c := '{') h1 h2
    simp only [List.count_append, List.count_cons, plain_count hn (by decide : nameChar ']' = false),
      plain_count hl (by decide : nameChar ']' = false), plain_count hu (by decide : nameChar ']' = false),
      plain_count hd (by decide : nameChar ']' = false), hty] at k1
    simp only [List.count_append, List.count_cons, plain_count hn (by decide : nameChar '{' = false),
      plain_count hl (by decide : nameChar '{' = false), plain_count hu (by decide : nameChar '{' = false),
      plain_count hd (by decide : nameChar '{' = false), hty2] at k2
    exact ⟨by simpa using k1, by simpa using k2⟩
  have none1 : q.count ']' ≤ 1 → ppContParam q = none := by
    intro hc
    cases hp : ppContParam q with
    | none => rfl
    | some w =>
      have := eats_cont ']' q w.1 w.2 hp
      have e : "[][]".toList.count ']' = 2 := by decide
      omega
  have none2 : q.count ']' = 0 ∨ q.count '{' = 0 → ppCatParam q = none := by
    intro hc
    cases hp : ppCatParam q with
    | none => rfl
    | some w =>
      have k1 := eats_cat ']' q w.1 w.2 hp
      have k2 := eats_cat '{' q w.1 w.2 hp
      have e1 : "{}[]".toList.count ']' = 1 := by decide
      have e2 : "{}[]".toList.count '{' = 1 := by decide
      omega
  obtain ⟨hn, hk'⟩ := hh
  cases hk : h.kind with
  | cat cs =>
    rw [hk] at hk'
    simp only at hk'
    obtain ⟨-, hp⟩ := words_back T hk'
    have hd : h.default ∈ cs := pyIn_words hk' (by
      simp only [HP.wf, hk, Bool.and_eq_true] at hw
      exact hw.2)
    have e : l = catText h.name.toList "categorical" (cs.map T.chars) (T.chars h.default) := by
      unfold buildParam at hl
      simp only [hk, hwt] at hl
      simp at hl
      rw [← hl]
      simp [catText]
    rw [e] at hq hne
    have := cat _ _ _ _ hn (hp (T.chars h.default) (List.mem_map.2 ⟨_, hd, rfl⟩)) hp (by decide) hq hne
    exact ⟨none1 (by omega), none2 (.inl this)⟩
  | ord cs =>
    rw [hk] at hk'
    simp only at hk'
    have hv' : ∀ v ∈ cs, ∃ t, v = .str t ∧ Plain t.toList := fun v hm => (hk'.1 v hm).imp fun t ht => ⟨ht.1, ht.2.1⟩
    obtain ⟨-, hp⟩ := words_back T hv'
    have hd : h.default ∈ cs := pyIn_words hv' (by
      simp only [HP.wf, hk, Bool.and_eq_true] at hw
      exact hw.2)
    have e : l = catText h.name.toList "ordinal" (cs.map T.chars) (T.chars h.default) := by
      unfold buildParam at hl
      simp only [hk, Except.ok.injEq] at hl
      rw [← hl]
      simp [catText]
    rw [e] at hq hne
    have := cat _ _ _ _ hn (hp (T.chars h.default) (List.mem_map.2 ⟨_, hd, rfl⟩)) hp (by decide) hq hne
    exact ⟨none1 (by omega), none2 (.inl this)⟩
  | const v => rw [hk] at hk'; exact hk'.elim
  | int a b =>
    obtain ⟨m, hm, h2⟩ := remake_int hw hk
    have e : l = contText h.name.toList "integer" (T.chars (.int a)) (T.chars (.int b)) (T.chars (.int m)) := by
      unfold buildParam at hl
      simp only [hk, Except.ok.injEq] at hl
      rw [← hl]
      simp [hm, contText, Val.num?, trunc_int']
    rw [e] at hq hne
    have := cont _ _ _ _ _ hn (numberText_int a).plain (numberText_int b).plain (numberText_int m).plain (by decide) (by decide) hq hne
    exact ⟨none1 this.1, none2 (.inr this.2)⟩
  | flt a b =>
    obtain ⟨m, hm, h2⟩ := remake_flt hw hk
    have e : l = contText h.name.toList "real" (T.chars (.flt a)) (T.chars (.flt b)) (T.chars (.flt m)) := by
      unfold buildParam at hl
      simp only [hk, Except.ok.injEq] at hl
      rw [← hl]
      simp [hm, contText]
    rw [e] at hq hne
    have := cont _ _ _ _ _ hn (hT.shape a).plain (hT.shape b).plain (hT.shape m).plain (by decide) (by decide) hq hne
    exact ⟨none1 this.1, none2 (.inr this.2)⟩

theorem readParam_none {T : PyText} {line : Chars} (h1 : ppContParam line = none) (h2 : ppCatParam line = none) :
    readParam T line = .error .runtimeError := by
  have r1 : readContinuous T line = .ok none := by unfold readContinuous; rw [h1]
  have r2 : readDiscrete line none = .ok none := by
    unfold readDiscrete
    simp only [h2]
    split
    · rfl
    · split <;> rfl
  unfold readParam
  rw [r1]
  simp only
  rw [r2]

theorem strip_prefix {q : Chars} (h : Ends isWs q) : strip q <+: q := by
  unfold strip
  rw [skipWs_of h]
  have := List.dropWhile_suffix isWs (l := q.reverse)
  have h2 := List.reverse_prefix.2 this
  rwa [List.reverse_reverse] at h2

/-- A part of the line of a hyperparameter is passed over, or reading it raises. -/
theorem readLine_cut {T : PyText} (hT : NumberTexts T) {weighted : Name → Bool} {h : HP} (hw : h.wf = true) (hh : WritableHP h)
    (hwt : weighted h.name = false) {l : Chars} (hl : buildParam T weighted h = .ok l) {q : Chars} (hq : q <+: l) (hne : q ≠ l)
    (f : PcsFile) : readLine T f q = .ok f ∨ ∃ e, readLine T f q = .error e := by
  obtain ⟨c, cs, hl', h1, h2, -⟩ := hp_line hT hw hh hwt
  rw [hl'] at hl
  have el : c :: (cs ++ [']']) = l := by simpa using hl
  cases q with
  | nil => exact .inl (readLine_empty T f)
  | cons x q =>
    have hall : ∀ y ∈ l, parChar y = true := by
      rw [← el]
      intro y hy
      rcases List.mem_cons.1 hy with rfl | hy
      · exact nameChar_par h1
      rcases List.mem_append.1 hy with hy | hy
      · exact h2 y hy
      · rw [List.mem_singleton.1 hy]; decide
    have hx : x = c := by
      rw [← el, List.cons_prefix_cons] at hq
      exact hq.1
    subst hx
    have hends : Ends isWs (x :: q) := ends_cons (nameChar_ws h1)
    have hclean : cleanLine (x :: q) = strip (x :: q) := by
      unfold cleanLine
      rw [takeWhile_all, List.filter_eq_self.2]
      · intro y hy
        simp only [Bool.and_eq_true, bne_iff_ne]
        have := hall y (hq.subset hy)
        exact ⟨parChar_ne this (by decide), parChar_ne this (by decide)⟩
      · intro y hy
        simp only [bne_iff_ne]
        exact parChar_ne (hall y (hq.subset hy)) (by decide)
    have hsp := strip_prefix hends
    have hpl : strip (x :: q) <+: l := hsp.trans hq
    have hnl : strip (x :: q) ≠ l := by
      intro e
      apply hne
      apply hq.eq_of_length_le
      rw [← e]
      exact hsp.length_le
    obtain ⟨hp1, hp2⟩ := hp_line_cut hT hw hh hwt (by rw [hl', el]) hpl hnl
    have hread : ∃ e, readParam T (strip (x :: q)) = .error e := ⟨_, readParam_none hp1 hp2⟩
    obtain ⟨e, he⟩ := hread
    unfold readLine
    rw [hclean]
    simp only
    rw [if_neg (fun hm => parChar_ne (hall _ (hpl.subset hm)) (x := '|') (by decide) rfl)]
    split
    · exact .inl rfl
    · split
      · rename_i hb
        exfalso
        have h0 := hb.1
        cases hs : strip (x :: q) with
        | nil => rw [hs] at h0; cases h0
        | cons y r =>
          rw [hs] at h0 hsp
          rw [List.cons_prefix_cons] at hsp
          cases h0
          rw [← hsp.1] at h1
          exact absurd h1 (by decide)
      · split
        · exact .inl rfl
        · rw [he]
          exact .inr ⟨e, rfl⟩

/-! ## A file that is not complete -/

/-- The lines of a part of a text: complete lines and a part of the next one. -/
theorem split_prefix {c : Char} : ∀ {ls : List Chars} {pre : Chars}, (∀ l ∈ ls, c ∉ l) → pre <+: joinWith [c] ls →
    ∃ k q, splitChar c pre = ls.take k ++ [q] ∧ q <+: ls.getD k []
  | [], pre, _, h => by
    have : pre = [] := by simpa [joinWith] using h
    subst this
    exact ⟨0, [], by simp [splitChar], by simp⟩
  | [l], pre, hl, h => by
    have h' : pre <+: l := by simpa [joinWith] using h
    exact ⟨0, pre, by simpa using splitChar_word (fun hm => hl l (by simp) (h'.subset hm)), by simpa using h'⟩
  | l :: m :: ls, pre, hl, h => by
    have e : joinWith [c] (l :: m :: ls) = l ++ c :: joinWith [c] (m :: ls) := by
      rw [joinWith]
      · simp
      · simp
    rw [e] at h
    rcases List.prefix_or_prefix_of_prefix h (List.prefix_append l (c :: joinWith [c] (m :: ls))) with h1 | h1
    · exact ⟨0, pre, by simpa using splitChar_word (fun hm => hl l (by simp) (h1.subset hm)), by simpa using h1⟩
    · obtain ⟨r, rfl⟩ := h1
      rw [List.prefix_append_right_inj] at h
      cases r with
      | nil => exact ⟨0, l, by simpa using splitChar_word (hl l (by simp)), by simp⟩
      | cons x r =>
        rw [List.cons_prefix_cons] at h
        obtain ⟨rfl, h⟩ := h
        obtain ⟨k, q, h1, h2⟩ := split_prefix (fun y hy => hl y (by simp [hy])) h
        refine ⟨k + 1, q, ?_, by simpa using h2⟩
        rw [splitChar_append, splitChar_word (hl l (by simp)), h1]
        simp

end Verif
