import Verif.Spec.JsonText

/-!
# Reading back the text of a JSON file
-/

set_option autoImplicit false

namespace Verif.JText
open Verif Spec

theorem prefix_cases {α : Type} {p a b : List α} (h : p <+: a ++ b) :
    (p <+: a ∧ p ≠ a) ∨ ∃ p', p = a ++ p' ∧ p' <+: b := by
  obtain ⟨t, ht⟩ := h
  rcases List.append_eq_append_iff.1 ht with ⟨as, h1, h2⟩ | ⟨bs, h1, h2⟩
  · by_cases has : as = []
    · right
      subst has
      exact ⟨[], by simpa using h1.symm, List.nil_prefix⟩
    · left
      refine ⟨⟨as, h1.symm⟩, ?_⟩
      intro e
      rw [h1] at e
      exact has (by simpa using e)
  · exact .inr ⟨bs, h1, ⟨t, h2.symm⟩⟩

/-! ## Numbers -/

theorem digitChar_spec : ∀ d, d < 10 → (digitChar d).isDigit = true ∧ (digitChar d).toNat - 48 = d ∧ (d ≠ 0 → digitChar d ≠ '0') := by
  decide

theorem digitsRev_spec : ∀ (k n : Nat), n < k →
    digitsRev k n ≠ [] ∧ (∀ d ∈ digitsRev k n, d < 10) ∧ (digitsRev k n).foldr (fun d m => m * 10 + d) 0 = n ∧
      (n ≠ 0 → ∀ d, (digitsRev k n).getLast? = some d → d ≠ 0) ∧ (n = 0 → digitsRev k n = [0])
  | 0, n, h => by omega
  | k + 1, n, h => by
    unfold digitsRev
    by_cases hn : n < 10
    · rw [if_pos hn]
      refine ⟨by simp, by simpa using hn, by simp, ?_, by rintro rfl; rfl⟩
      intro h0 d hd
      simp at hd
      omega
    · rw [if_neg hn]
      obtain ⟨h1, h2, h3, h4, _⟩ := digitsRev_spec k (n / 10) (by omega)
      refine ⟨by simp, ?_, ?_, ?_, by omega⟩
      · intro d hd
        rcases List.mem_cons.1 hd with rfl | hd
        · omega
        · exact h2 d hd
      · rw [List.foldr_cons, h3]
        omega
      · intro _ d hd
        rw [List.getLast?_cons] at hd
        cases hl : (digitsRev k (n / 10)).getLast? with
        | none => rw [List.getLast?_eq_none_iff] at hl; exact absurd hl h1
        | some e =>
          rw [hl] at hd
          simp at hd
          subst hd
          exact h4 (by omega) e hl

theorem natOf_map : ∀ (ds : List Nat) (a : Nat), (∀ d ∈ ds, d < 10) →
    (ds.map digitChar).foldl (fun n c => n * 10 + (c.toNat - 48)) a = ds.foldl (fun n d => n * 10 + d) a
  | [], a, _ => rfl
  | d :: ds, a, h => by
    simp only [List.map_cons, List.foldl_cons]
    rw [(digitChar_spec d (h d (by simp))).2.1]
    exact natOf_map ds _ (fun e he => h e (by simp [he]))

theorem natOf_natText (n : Nat) : natOf (natText n) = n := by
  obtain ⟨_, h2, h3, _, _⟩ := digitsRev_spec (n + 1) n (by omega)
  unfold natOf natText
  rw [natOf_map _ _ (by simpa using h2), List.foldl_reverse]
  exact h3

theorem natText_whole (n : Nat) : WholeText (natText n) := by
  obtain ⟨h1, h2, _, h4, h5⟩ := digitsRev_spec (n + 1) n (by omega)
  unfold natText
  by_cases hn : n = 0
  · rw [h5 hn]
    exact .inl (by decide)
  · right
    cases hr : (digitsRev (n + 1) n).reverse with
    | nil => simp at hr; exact absurd hr h1
    | cons d ds =>
      have hd : d ≠ 0 := h4 hn d (by rw [← List.head?_reverse, hr]; rfl)
      have hm : ∀ e ∈ d :: ds, e < 10 := fun e he => h2 e (by rw [← hr] at he; simpa using he)
      refine ⟨digitChar d, ds.map digitChar, rfl, (digitChar_spec d (hm d (by simp))).1, (digitChar_spec d (hm d (by simp))).2.2 hd, ?_⟩
      intro c hc
      obtain ⟨e, he, rfl⟩ := List.mem_map.1 hc
      exact (digitChar_spec e (hm e (by simp [he]))).1

/-- The characters of numbers. -/
def NumChar (c : Char) : Prop := c.isDigit = true ∨ c = '-' ∨ c = '+' ∨ c = '.' ∨ c = 'e'

/-- The rest begins with nothing that could belong to a number. -/
def Stop (r : Chars) : Prop := ∀ c, r.head? = some c → c.isDigit = false ∧ c ≠ '.' ∧ c ≠ 'e' ∧ c ≠ 'E'

theorem takeWhile_append_stop {ds r : Chars} (h : ∀ c ∈ ds, c.isDigit = true) (hr : ∀ c, r.head? = some c → c.isDigit = false) :
    (ds ++ r).takeWhile isDig = ds ∧ (ds ++ r).dropWhile isDig = r := by
  induction ds with
  | nil =>
    cases r with
    | nil => simp
    | cons c r => simp [isDig, hr c rfl]
  | cons d ds ih =>
    obtain ⟨i1, i2⟩ := ih (fun c hc => h c (by simp [hc]))
    have hd : isDig d = true := h d (by simp)
    simp [hd, i1, i2]

theorem scanInt_whole {t r : Chars} (h : WholeText t) (hr : ∀ c, r.head? = some c → c.isDigit = false) : scanInt (t ++ r) = some (t, r) := by
  rcases h with rfl | ⟨d, ds, rfl, h1, h2, h3⟩
  · rfl
  · obtain ⟨k1, k2⟩ := takeWhile_append_stop h3 hr
    have hd : isDig d = true := h1
    simp [scanInt, h2, hd, k1, k2]

theorem scanFrac_digits {ds r : Chars} (h : Digits ds) (hr : ∀ c, r.head? = some c → c.isDigit = false) :
    scanFrac ('.' :: (ds ++ r)) = ('.' :: ds, r) := by
  obtain ⟨h1, h2⟩ := h
  cases ds with
  | nil => exact absurd rfl h1
  | cons d ds =>
    obtain ⟨k1, k2⟩ := takeWhile_append_stop (ds := ds) (fun c hc => h2 c (by simp [hc])) hr
    have hd : isDig d = true := h2 d (by simp)
    simp [scanFrac, hd, k1, k2]

theorem scanFrac_none {r : Chars} (hr : ∀ c, r.head? = some c → c ≠ '.') : scanFrac r = ([], r) := by
  match r with
  | [] => rfl
  | [c] => rfl
  | c :: d :: r => simp [scanFrac, hr c rfl]

theorem scanExp_none {r : Chars} (hr : ∀ c, r.head? = some c → c ≠ 'e' ∧ c ≠ 'E') : scanExp r = ([], r) := by
  match r with
  | [] => rfl
  | c :: r =>
    obtain ⟨h1, h2⟩ := hr c rfl
    simp [scanExp, h1, h2]

theorem scanExp_some {sg ds r : Chars} (hs : sg = [] ∨ sg = ['-'] ∨ sg = ['+']) (h : Digits ds)
    (hr : ∀ c, r.head? = some c → c.isDigit = false) : scanExp ('e' :: (sg ++ ds ++ r)) = ('e' :: (sg ++ ds), r) := by
  obtain ⟨h1, h2⟩ := h
  cases ds with
  | nil => exact absurd rfl h1
  | cons d ds =>
    obtain ⟨k1, k2⟩ := takeWhile_append_stop (ds := ds) (fun c hc => h2 c (by simp [hc])) hr
    have hd : isDig d = true := h2 d (by simp)
    have hd' : d.isDigit = true := hd
    rcases hs with rfl | rfl | rfl
    · have n1 : d ≠ '+' := by rintro rfl; simp [Char.isDigit] at hd'
      have n2 : d ≠ '-' := by rintro rfl; simp [Char.isDigit] at hd'
      simp [scanExp, n1, n2, hd, k1, k2]
    · simp [scanExp, hd, k1, k2]
    · simp [scanExp, hd, k1, k2]

/-- Reading a number. -/
theorem scanNum_parts (T : PyText) {sign whole frac exp r : Chars} (h1 : sign = [] ∨ sign = ['-']) (h2 : WholeText whole)
    (h3 : frac = [] ∨ ∃ ds, Digits ds ∧ frac = '.' :: ds)
    (h4 : exp = [] ∨ ∃ sg ds, (sg = [] ∨ sg = ['-'] ∨ sg = ['+']) ∧ Digits ds ∧ exp = 'e' :: (sg ++ ds)) (hr : Stop r) :
    scanNum T (sign ++ whole ++ frac ++ exp ++ r) =
      if frac = [] ∧ exp = [] then some (.int (if sign = ['-'] then -(natOf whole : Int) else natOf whole), r)
      else (T.parseFloat (String.ofList (sign ++ whole ++ frac ++ exp))).map (fun q => (.flt q, r)) := by
  have hw0 : ∃ d ds, whole = d :: ds ∧ d ≠ '-' := by
    rcases h2 with rfl | ⟨d, ds, rfl, hd, _⟩
    · exact ⟨'0', [], rfl, by decide⟩
    · exact ⟨d, ds, rfl, by rintro rfl; simp [Char.isDigit] at hd⟩
  -- what follows the digits
  have e1 : scanExp (exp ++ r) = (exp, r) := by
    rcases h4 with rfl | ⟨sg, ds, hs, hd, rfl⟩
    · exact scanExp_none (fun c hc => ⟨(hr c hc).2.2.1, (hr c hc).2.2.2⟩)
    · have := scanExp_some hs hd (fun c hc => (hr c hc).1)
      simpa using this
  have hexp : ∀ c, (exp ++ r).head? = some c → c.isDigit = false ∧ c ≠ '.' := by
    intro c hc
    rcases h4 with rfl | ⟨sg, ds, hs, hd, rfl⟩
    · exact ⟨(hr c hc).1, (hr c hc).2.1⟩
    · simp at hc; subst hc; exact ⟨by decide, by decide⟩
  have e2 : scanFrac (frac ++ (exp ++ r)) = (frac, exp ++ r) := by
    rcases h3 with rfl | ⟨ds, hd, rfl⟩
    · exact scanFrac_none (fun c hc => (hexp c hc).2)
    · exact scanFrac_digits hd (fun c hc => (hexp c hc).1)
  have hfr : ∀ c, (frac ++ (exp ++ r)).head? = some c → c.isDigit = false := by
    intro c hc
    rcases h3 with rfl | ⟨ds, hd, rfl⟩
    · exact (hexp c hc).1
    · simp at hc; subst hc; decide
  have e3 := scanInt_whole h2 hfr
  have e4 : sign ++ whole ++ frac ++ exp ++ r = sign ++ (whole ++ (frac ++ (exp ++ r))) := by simp
  rw [e4]
  unfold scanNum
  obtain ⟨d, ds, hwd, hdm⟩ := hw0
  rcases h1 with rfl | rfl
  · rw [List.nil_append]
    have hb : ((whole ++ (frac ++ (exp ++ r))).head? == some '-') = false := by
      rw [hwd]; simp [hdm]
    simp only [hb, Bool.false_eq_true, if_false, List.nil_append, e3, e2, e1]
    simp
  · simp only [List.cons_append, List.nil_append, List.head?_cons, List.tail_cons, BEq.rfl, if_true, e3, e2, e1]

theorem scanNum_int (T : PyText) (n : Int) {r : Chars} (hr : Stop r) : scanNum T (intText n ++ r) = some (.int n, r) := by
  cases n with
  | ofNat n =>
    have := scanNum_parts T (sign := []) (frac := []) (exp := []) (.inl rfl) (natText_whole n) (.inl rfl) (.inl rfl) hr
    simp only [List.nil_append, List.append_nil, and_self, if_true, natOf_natText] at this
    simpa [intText] using this
  | negSucc n =>
    have := scanNum_parts T (sign := ['-']) (frac := []) (exp := []) (.inr rfl) (natText_whole (n + 1)) (.inl rfl) (.inl rfl) hr
    simp only [List.append_nil, and_self, if_true, natOf_natText] at this
    simp only [intText]
    rw [show '-' :: natText (n + 1) ++ r = ['-'] ++ natText (n + 1) ++ r by simp, this]
    simp [Int.negSucc_eq]

theorem scanNum_flt {T : PyText} (hT : FloatTexts T) (q : Rat) {r : Chars} (hr : Stop r) :
    scanNum T ((T.strFloat q).toList ++ r) = some (.flt q, r) := by
  have hs := hT.shape q
  generalize hx : (T.strFloat q).toList = x at hs
  cases hs with
  | mk sign whole frac exp h1 h2 h3 h4 h5 =>
    rw [scanNum_parts T h1 h2 h3 h4 hr, if_neg (by rintro ⟨a, b⟩; rcases h5 with h | h <;> contradiction), ← hx]
    simp [hT.read q]

theorem whole_num {t : Chars} (h : WholeText t) : ∀ c ∈ t, NumChar c := by
  rcases h with rfl | ⟨d, ds, rfl, h1, _, h3⟩
  · intro c hc; simp at hc; subst hc; exact .inl (by decide)
  · intro c hc
    rcases List.mem_cons.1 hc with rfl | hc
    · exact .inl h1
    · exact .inl (h3 c hc)

theorem float_num {t : Chars} (h : FloatText t) : ∀ c ∈ t, NumChar c := by
  cases h with
  | mk sign whole frac exp h1 h2 h3 h4 h5 =>
    intro c hc
    simp only [List.mem_append] at hc
    rcases hc with ((hc | hc) | hc) | hc
    · rcases h1 with rfl | rfl
      · simp at hc
      · simp at hc; exact .inr (.inl hc)
    · exact whole_num h2 c hc
    · rcases h3 with rfl | ⟨ds, hd, rfl⟩
      · simp at hc
      · rcases List.mem_cons.1 hc with rfl | hc
        · exact .inr (.inr (.inr (.inl rfl)))
        · exact .inl (hd.2 c hc)
    · rcases h4 with rfl | ⟨sg, ds, hs, hd, rfl⟩
      · simp at hc
      · rcases List.mem_cons.1 hc with rfl | hc
        · exact .inr (.inr (.inr (.inr rfl)))
        · rcases List.mem_append.1 hc with hc | hc
          · rcases hs with rfl | rfl | rfl <;> simp at hc
            · exact .inr (.inl hc)
            · exact .inr (.inr (.inl hc))
          · exact .inl (hd.2 c hc)

theorem int_num (n : Int) : ∀ c ∈ intText n, NumChar c := by
  cases n with
  | ofNat n => exact whole_num (natText_whole n)
  | negSucc n =>
    intro c hc
    rcases List.mem_cons.1 hc with rfl | hc
    · exact .inr (.inl rfl)
    · exact whole_num (natText_whole (n + 1)) c hc

/-! What is left after a number is a part of the text. -/

theorem dropWhile_mem {p : Char → Bool} {r : Chars} {c : Char} (h : c ∈ r.dropWhile p) : c ∈ r :=
  (List.dropWhile_suffix p).subset h

theorem scanInt_rest {s i r : Chars} (h : scanInt s = some (i, r)) : ∀ c ∈ r, c ∈ s := by
  cases s with
  | nil => simp [scanInt] at h
  | cons d s =>
    simp only [scanInt] at h
    by_cases h0 : d = '0'
    · simp only [h0, if_true, Option.some.injEq, Prod.mk.injEq] at h
      rw [← h.2]
      exact fun c hc => by simp [hc]
    · by_cases h1 : isDig d = true
      · simp only [h0, h1, if_true, if_false, Option.some.injEq, Prod.mk.injEq] at h
        rw [← h.2]
        exact fun c hc => by simp [dropWhile_mem hc]
      · simp [h0, h1] at h

theorem scanFrac_rest (s : Chars) : ∀ c ∈ (scanFrac s).2, c ∈ s := by
  match s with
  | [] => simp [scanFrac]
  | [d] => simp [scanFrac]
  | a :: b :: s =>
    simp only [scanFrac]
    split
    · intro c hc; simp [dropWhile_mem hc]
    · exact fun c hc => hc

theorem scanExp_rest (s : Chars) : ∀ c ∈ (scanExp s).2, c ∈ s := by
  unfold scanExp
  repeat' split
  all_goals first
    | exact fun c hc => hc
    | (intro c hc; simp [dropWhile_mem hc])

theorem scanNum_rest {T : PyText} {s r : Chars} {v : Val} (h : scanNum T s = some (v, r)) : ∀ c ∈ r, c ∈ s := by
  unfold scanNum at h
  dsimp only at h
  split at h
  · cases h
  · rename_i i r1 hi
    have h1 : ∀ c ∈ r1, c ∈ s := by
      intro c hc
      have := scanInt_rest hi c hc
      split at this
      · exact List.mem_of_mem_tail this
      · exact this
    have h2 : ∀ c ∈ (scanExp (scanFrac r1).2).2, c ∈ s := fun c hc => h1 c (scanFrac_rest _ c (scanExp_rest _ c hc))
    split at h
    · simp only [Option.some.injEq, Prod.mk.injEq] at h
      rw [← h.2]
      exact h2
    · simp only [Option.map_eq_some_iff, Prod.mk.injEq] at h
      obtain ⟨q, _, _, rfl⟩ := h
      exact h2

/-! ## Texts -/

theorem hexVal_hexChar : ∀ d, d < 16 → hexVal (hexChar d) = some d := by decide

theorem hex4_uText {n : Nat} (h : n < 65536) (r : Chars) : hex4 ((uText n).drop 2 ++ r) = some (n, r) := by
  have e := fun d => hexVal_hexChar (d % 16) (Nat.mod_lt _ (by decide))
  simp only [uText, List.drop_succ_cons, List.drop_zero, List.cons_append, List.nil_append, hex4, e, Option.some.injEq,
    Prod.mk.injEq, and_true]
  omega

theorem hex4_short {r : Chars} (h : r.length < 4) : hex4 r = none := by
  match r, h with
  | [], _ => rfl
  | [_], _ => rfl
  | [_, _], _ => rfl
  | [_, _, _], _ => rfl

theorem uText_prefix {n : Nat} {p : Chars} (h : p <+: uText n) (hne : p ≠ uText n) :
    p = [] ∨ p = ['\\'] ∨ ∃ q, p = '\\' :: 'u' :: q ∧ q.length < 4 := by
  have hl : p.length < 6 := by
    rcases Nat.lt_or_ge p.length 6 with h6 | h6
    · exact h6
    · exact absurd (h.eq_of_length_le (by simpa [uText] using h6)) hne
  obtain ⟨t, ht⟩ := h
  unfold uText at ht
  match p, ht, hl with
  | [], _, _ => exact .inl rfl
  | [a], ht, _ => simp at ht; exact .inr (.inl (by rw [ht.1]))
  | a :: b :: q, ht, hl =>
    simp only [List.cons_append, List.cons.injEq] at ht
    exact .inr (.inr ⟨q, by rw [ht.1, ht.2.1], by simp at hl; omega⟩)

theorem char_valid (c : Char) : c.toNat < 55296 ∨ (57343 < c.toNat ∧ c.toNat < 1114112) := c.valid

theorem uText_cons (n : Nat) (r : Chars) : uText n ++ r = '\\' :: 'u' :: ((uText n).drop 2 ++ r) := rfl

theorem uEscape_small {c : Char} (h : c.toNat < 65536) (r : Chars) :
    uEscape ((uText c.toNat).drop 2 ++ r) = some (c, r) := by
  unfold uEscape
  rw [hex4_uText h]
  have hv := char_valid c
  have h1 : isHigh c.toNat = false := decide_eq_false (by omega)
  have h2 : isSurrogate c.toNat = false := decide_eq_false (by omega)
  simp only [h1, h2, Bool.false_eq_true, if_false, Char.ofNat_toNat]

theorem uEscape_pair {n m : Nat} (hn : 55296 ≤ n ∧ n ≤ 56319) (hm : 56320 ≤ m ∧ m ≤ 57343) (r : Chars) :
    uEscape ((uText n).drop 2 ++ (uText m ++ r)) = some (Char.ofNat (65536 + ((n - 55296) * 1024 + (m - 56320))), r) := by
  unfold uEscape
  rw [hex4_uText (by omega), uText_cons m r]
  have h1 : isHigh n = true := decide_eq_true hn
  try dsimp only
  rw [if_pos h1]
  try dsimp only
  rw [if_pos ⟨rfl, rfl⟩, hex4_uText (by omega)]
  try dsimp only
  rw [if_pos hm]

theorem uEscape_half {n m : Nat} (hn : 55296 ≤ n ∧ n ≤ 56319) {p : Chars} (hp : p <+: uText m) (hne : p ≠ uText m) :
    uEscape ((uText n).drop 2 ++ p) = none := by
  unfold uEscape
  rw [hex4_uText (by omega)]
  have h1 : isHigh n = true := decide_eq_true hn
  try dsimp only
  rw [if_pos h1]
  rcases uText_prefix hp hne with rfl | rfl | ⟨q, rfl, hq⟩
  · rfl
  · rfl
  · dsimp only
    rw [if_pos ⟨rfl, rfl⟩, hex4_short hq]

theorem uEscape_big {c : Char} (h : ¬ c.toNat < 65536) (r : Chars) :
    uEscape ((uText (55296 + (c.toNat - 65536) / 1024 % 1024)).drop 2 ++ (uText (56320 + (c.toNat - 65536) % 1024) ++ r)) = some (c, r) := by
  have hv := char_valid c
  rw [uEscape_pair (by omega) (by omega)]
  have : 65536 + ((55296 + (c.toNat - 65536) / 1024 % 1024 - 55296) * 1024 + (56320 + (c.toNat - 65536) % 1024 - 56320)) = c.toNat := by
    omega
  rw [this, Char.ofNat_toNat]

theorem scanStr_plain {c : Char} (h1 : ¬ c = '"') (h2 : ¬ c = '\\') (h3 : ¬ c.toNat < 32) (k : Nat) (r : Chars) :
    scanStr (k + 1) (c :: r) = (scanStr k r).map (fun p => (c :: p.1, p.2)) := by
  conv => lhs; unfold scanStr
  rw [if_neg h1, if_neg h2, if_neg h3]

theorem scanStr_u {k : Nat} {q r : Chars} {c : Char} (h : uEscape q = some (c, r)) :
    scanStr (k + 1) ('\\' :: 'u' :: q) = (scanStr k r).map (fun p => (c :: p.1, p.2)) := by
  conv => lhs; unfold scanStr
  rw [if_neg (by decide), if_pos rfl]
  try dsimp only
  rw [if_pos rfl, h]

theorem scanStr_u_none {k : Nat} {q : Chars} (h : uEscape q = none) : scanStr (k + 1) ('\\' :: 'u' :: q) = none := by
  conv => lhs; unfold scanStr
  rw [if_neg (by decide), if_pos rfl]
  try dsimp only
  rw [if_pos rfl, h]

/-- Reading one character of a text. -/
theorem scanStr_escape (c : Char) (k : Nat) (r : Chars) :
    scanStr (k + 1) (escape c ++ r) = (scanStr k r).map (fun p => (c :: p.1, p.2)) := by
  unfold escape
  split
  · subst_vars; rfl
  split
  · subst_vars; rfl
  split
  · subst_vars; rfl
  split
  · subst_vars; rfl
  split
  · subst_vars; rfl
  split
  · subst_vars; rfl
  split
  · subst_vars; rfl
  split
  · rename_i h1 h2 _ _ _ _ _ h3
    exact scanStr_plain h1 h2 (by omega) k r
  split
  · rename_i h
    rw [uText_cons]
    exact scanStr_u (uEscape_small h r)
  · rename_i h
    rw [List.append_assoc, uText_cons]
    exact scanStr_u (uEscape_big h r)

theorem scanStr_text : ∀ (s : List Char) (k : Nat) (r : Chars), s.length < k →
    scanStr k (s.flatMap escape ++ '"' :: r) = some (s, r)
  | s, 0, r, h => by omega
  | [], k + 1, r, _ => rfl
  | c :: s, k + 1, r, h => by
    simp only [List.flatMap_cons, List.append_assoc]
    rw [scanStr_escape, scanStr_text s k r (by simpa using h)]
    rfl

theorem escape_length (c : Char) : 1 ≤ (escape c).length := by
  unfold escape uText
  repeat' split
  all_goals simp

theorem flatMap_escape_length (s : List Char) : s.length ≤ (s.flatMap escape).length := by
  induction s with
  | nil => simp
  | cons c s ih =>
    have := escape_length c
    simp only [List.flatMap_cons, List.length_append, List.length_cons]
    omega

theorem scanString_text (s : String) (r : Chars) : scanString (s.toList.flatMap escape ++ '"' :: r) = some (s, r) := by
  unfold scanString
  rw [scanStr_text]
  · simp
  · have := flatMap_escape_length s.toList
    simp only [List.length_append, List.length_cons]
    omega

theorem scanStr_nil (k : Nat) : scanStr k [] = none := by cases k <;> rfl

theorem uEscape_short {p : Chars} (h : p.length < 4) : uEscape p = none := by
  unfold uEscape
  rw [hex4_short h]

/-- A text that was cut within one character. -/
theorem scanStr_cut_escape (c : Char) (k : Nat) {p : Chars} (h : p <+: escape c) (hne : p ≠ escape c) : scanStr k p = none := by
  cases k with
  | zero => rfl
  | succ k =>
  have two : ∀ x : Char, p <+: ['\\', x] → p ≠ ['\\', x] → scanStr (k + 1) p = none := by
    rintro x ⟨t, ht⟩ hn
    match p, ht, hn with
    | [], _, _ => rfl
    | [a], ht, _ => simp at ht; rw [ht.1]; rfl
    | a :: b :: q, ht, hn =>
      simp only [List.cons_append, List.cons.injEq, List.append_eq_nil_iff] at ht
      exact absurd (by rw [ht.1, ht.2.1, ht.2.2.1]) hn
  have ucut : ∀ q : Chars, q.length < 4 → scanStr (k + 1) ('\\' :: 'u' :: q) = none := by
    intro q hq
    exact scanStr_u_none (uEscape_short hq)
  have uone : ∀ n, p <+: uText n → p ≠ uText n → scanStr (k + 1) p = none := by
    intro n h hn
    rcases uText_prefix h hn with rfl | rfl | ⟨q, rfl, hq⟩
    · rfl
    · rfl
    · exact ucut q hq
  unfold escape at h hne
  split at h
  · rename_i e; rw [if_pos e] at hne; exact two _ h hne
  rename_i e1; rw [if_neg e1] at hne
  split at h
  · rename_i e; rw [if_pos e] at hne; exact two _ h hne
  rename_i e2; rw [if_neg e2] at hne
  split at h
  · rename_i e; rw [if_pos e] at hne; exact two _ h hne
  rename_i e3; rw [if_neg e3] at hne
  split at h
  · rename_i e; rw [if_pos e] at hne; exact two _ h hne
  rename_i e4; rw [if_neg e4] at hne
  split at h
  · rename_i e; rw [if_pos e] at hne; exact two _ h hne
  rename_i e5; rw [if_neg e5] at hne
  split at h
  · rename_i e; rw [if_pos e] at hne; exact two _ h hne
  rename_i e6; rw [if_neg e6] at hne
  split at h
  · rename_i e; rw [if_pos e] at hne; exact two _ h hne
  rename_i e7; rw [if_neg e7] at hne
  split at h
  · rename_i e
    rw [if_pos e] at hne
    obtain ⟨t, ht⟩ := h
    match p, ht, hne with
    | [], _, _ => rfl
    | a :: q, ht, hne =>
      simp only [List.cons_append, List.cons.injEq, List.append_eq_nil_iff] at ht
      exact absurd (by rw [ht.1, ht.2.1]) hne
  rename_i e8; rw [if_neg e8] at hne
  split at h
  · rename_i e; rw [if_pos e] at hne; exact uone _ h hne
  · rename_i e9
    rw [if_neg e9] at hne
    rcases prefix_cases h with ⟨g1, g2⟩ | ⟨p', rfl, hp'⟩
    · exact uone _ g1 g2
    · have hv := char_valid c
      have hp2 : p' ≠ uText (56320 + (c.toNat - 65536) % 1024) := by
        rintro rfl; exact hne rfl
      rw [uText_cons]
      exact scanStr_u_none (uEscape_half (by omega) hp' hp2)

/-- A text that was cut before its closing quote. -/
theorem scanStr_cut : ∀ (s : List Char) (k : Nat) {p : Chars}, p <+: s.flatMap escape ++ ['"'] → p ≠ s.flatMap escape ++ ['"'] →
    scanStr k p = none
  | s, 0, p, _, _ => rfl
  | [], k + 1, p, h, hne => by
    obtain ⟨t, ht⟩ := h
    match p, ht, hne with
    | [], _, _ => rfl
    | a :: q, ht, hne =>
      simp only [List.flatMap_nil, List.nil_append, List.cons_append, List.cons.injEq, List.append_eq_nil_iff] at ht
      exact absurd (by rw [ht.1, ht.2.1]; rfl) hne
  | c :: s, k + 1, p, h, hne => by
    rw [List.flatMap_cons, List.append_assoc] at h hne
    rcases prefix_cases h with ⟨g1, g2⟩ | ⟨p', rfl, hp'⟩
    · exact scanStr_cut_escape c (k + 1) g1 g2
    · rw [scanStr_escape, scanStr_cut s k hp' (by rintro rfl; exact hne rfl)]
      rfl

theorem scanString_cut (s : String) {p : Chars} (h : p <+: s.toList.flatMap escape ++ ['"'])
    (hne : p ≠ s.toList.flatMap escape ++ ['"']) : scanString p = none := by
  unfold scanString
  rw [scanStr_cut _ _ h hne]
  rfl

end Verif.JText
