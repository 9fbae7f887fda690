import Verif.Lemmas.PcsLine

/-!
# Reading the line of a condition
-/

set_option autoImplicit false

namespace Verif
open Verif.Spec

/-! ## Words -/

theorem wsWords_word : ∀ {w : Chars} {cur r : Chars}, (∀ c ∈ w, isWs c = false) → wsWords cur (w ++ r) = wsWords (cur ++ w) r
  | [], cur, r, _ => by simp
  | c :: w, cur, r, h => by
    rw [List.cons_append, wsWords, if_neg (by simp [h c (by simp)]), wsWords_word (fun x hx => h x (by simp [hx]))]
    simp

theorem wsWords_space {cur r : Chars} (h : cur ≠ []) : wsWords cur (' ' :: r) = cur :: wsWords [] r := by
  rw [wsWords, if_pos (by decide), if_neg (by simpa using h)]

theorem wsSplit_space (r : Chars) : wsSplit (' ' :: r) = wsSplit r := by
  unfold wsSplit
  rw [wsWords, if_pos (by decide), if_pos (by simp)]

/-- Words without whitespace. -/
def Words (ws : List Chars) : Prop := ∀ w ∈ ws, w ≠ [] ∧ ∀ c ∈ w, isWs c = false

theorem wsSplit_join {r : Chars} (hr : r = [] ∨ r = [' ']) : ∀ {ws : List Chars}, Words ws → wsSplit (joinWith " ".toList ws ++ r) = ws := by
  have key : ∀ {ws : List Chars} {w : Chars}, Words (w :: ws) →
      wsWords [] (w ++ (ws.flatMap (fun x => " ".toList ++ x) ++ r)) = w :: ws := by
    intro ws
    induction ws with
    | nil =>
      intro w h
      obtain ⟨h1, h2⟩ := h w (by simp)
      rw [wsWords_word h2]
      rcases hr with rfl | rfl
      · simp [wsWords, h1]
      · simp only [List.nil_append, List.flatMap_nil]
        rw [wsWords_space h1]
        simp [wsWords]
    | cons x ws ih =>
      intro w h
      obtain ⟨h1, h2⟩ := h w (by simp)
      rw [wsWords_word h2, List.nil_append, List.flatMap_cons, List.append_assoc,
        show (" ".toList : Chars) = [' '] from rfl, List.append_assoc, List.singleton_append, wsWords_space h1]
      have := ih (w := x) (fun y hy => h y (by simp [hy]))
      rw [show (" ".toList : Chars) = [' '] from rfl] at this
      rw [this]
  intro ws h
  cases ws with
  | nil => rcases hr with rfl | rfl <;> rfl
  | cons w ws =>
    rw [joinWith_cons, List.append_assoc]
    exact key h

theorem splitTwice_word {c : Char} : ∀ {w : Chars}, c ∉ w → splitTwice c w = [w]
  | [], _ => rfl
  | [x], _ => rfl
  | x :: y :: w, h => by
    rw [splitTwice, if_neg (fun e => h (by simp [e.1])), splitTwice_word (fun hm => h (List.mem_cons_of_mem _ hm))]

theorem splitTwice_append {c : Char} : ∀ {a b : Chars}, c ∉ a → splitTwice c (a ++ c :: c :: b) = a :: splitTwice c b
  | [], b, _ => by simp [splitTwice]
  | [x], b, h => by
    have hx : x ≠ c := fun e => h (by simp [e])
    rw [List.singleton_append, splitTwice, if_neg (fun e => hx e.1), splitTwice, if_pos ⟨rfl, rfl⟩]
  | x :: y :: a, b, h => by
    have hx : x ≠ c := fun e => h (by simp [e])
    have := splitTwice_append (c := c) (a := y :: a) (b := b) (fun hm => h (List.mem_cons_of_mem _ hm))
    rw [List.cons_append, List.cons_append, splitTwice, if_neg (fun e => hx e.1), ← List.cons_append, this]

/-- The parts between the connectives, as words. -/
theorem splitTwice_words {c : Char} : ∀ {ps : List (List Chars)} {p : List Chars} {pre : Chars},
    (pre = [] ∨ pre = [' ']) → (∀ q ∈ p :: ps, Words q ∧ c ∉ joinWith " ".toList q) → c ≠ ' ' →
    (splitTwice c (pre ++ (joinWith " ".toList p ++ ps.flatMap (fun q => ' ' :: c :: c :: ' ' :: joinWith " ".toList q)))).map
      wsSplit = p :: ps
  | [], p, pre, hpre, h, hc => by
    obtain ⟨h1, h2⟩ := h p (by simp)
    have hw : wsSplit (pre ++ joinWith " ".toList p) = p := by
      have := wsSplit_join (r := []) (.inl rfl) h1
      rw [List.append_nil] at this
      rcases hpre with rfl | rfl
      · exact this
      · rw [List.singleton_append, wsSplit_space, this]
    rw [List.flatMap_nil, List.append_nil, splitTwice_word, List.map_singleton, hw]
    intro hm
    rcases List.mem_append.1 hm with hm | hm
    · rcases hpre with rfl | rfl
      · cases hm
      · exact hc (List.mem_singleton.1 hm)
    · exact h2 hm
  | q :: ps, p, pre, hpre, h, hc => by
    obtain ⟨h1, h2⟩ := h p (by simp)
    have hw : wsSplit (pre ++ (joinWith " ".toList p ++ [' '])) = p := by
      have := wsSplit_join (r := [' ']) (.inr rfl) h1
      rcases hpre with rfl | rfl
      · exact this
      · rw [List.singleton_append, wsSplit_space, this]
    have e : pre ++ (joinWith " ".toList p ++ (q :: ps).flatMap (fun q => ' ' :: c :: c :: ' ' :: joinWith " ".toList q)) =
        (pre ++ (joinWith " ".toList p ++ [' '])) ++ c :: c :: ([' '] ++ (joinWith " ".toList q ++
          ps.flatMap (fun q => ' ' :: c :: c :: ' ' :: joinWith " ".toList q))) := by
      simp [List.flatMap_cons]
    rw [e, splitTwice_append, List.map_cons, hw, splitTwice_words (.inr rfl) (fun x hx => h x (by simp [hx])) hc]
    intro hm
    rcases List.mem_append.1 hm with hm | hm
    · rcases hpre with rfl | rfl
      · cases hm
      · exact hc (List.mem_singleton.1 hm)
    · rcases List.mem_append.1 hm with hm | hm
      · exact h2 hm
      · exact hc (List.mem_singleton.1 hm)

/-! ## A test -/

/-- The text of a value of a writable hyperparameter is a word, and is read back. -/
theorem value_text {T : PyText} (hT : NumberTexts T) {h : HP} (hh : WritableHP h) {v : Val} (hv : Typed h v) :
    Plain (T.chars v) ∧ condValue T h (T.chars v) = .ok v := by
  unfold WritableHP at hh
  unfold Typed at hv
  unfold condValue
  cases hk : h.kind with
  | cat cs =>
    rw [hk] at hh hv
    obtain ⟨t, rfl, ht⟩ := hh.2 v hv
    exact ⟨ht, by simp only; rw [show T.chars (.str t) = t.toList from rfl, strVal_chars]⟩
  | ord cs =>
    rw [hk] at hh hv
    obtain ⟨t, rfl, ht, -⟩ := hh.2.1 v hv
    exact ⟨ht, by simp only; rw [show T.chars (.str t) = t.toList from rfl, strVal_chars]⟩
  | const c => rw [hk] at hh; exact hh.2.elim
  | int l u =>
    rw [hk] at hv
    obtain ⟨n, rfl⟩ := hv
    exact ⟨(numberText_int n).plain, by simp only [PyText.readInt, PyText.chars, PyText.str, String.ofList_toList, hT.int]⟩
  | flt l u =>
    rw [hk] at hv
    obtain ⟨q, rfl⟩ := hv
    exact ⟨(hT.shape q).plain, by simp only [PyText.readFloat, PyText.chars, PyText.str, String.ofList_toList, hT.float]⟩

/-- The tokens of a test. -/
def litToks (T : PyText) (l : Lit) : List Chars :=
  match l.test with
  | .bin op v _ => [l.parent.name.toList, op.sign.toList, T.chars v]
  | .isIn vs _ => l.parent.name.toList :: "in".toList :: ['{'] :: (choiceToks (vs.map T.chars) ++ [['}']])

/-- What may follow a test. -/
def TestEnd (r : Chars) : Prop := Ends nameChar r ∧ pLit "," r = none ∧ pLit "}" r = none

theorem testEnd_nil : TestEnd [] := ⟨ends_nil _, rfl, rfl⟩

theorem testEnd_sep {c : Char} {r : Chars} (hw : isWs c = false) (h1 : c ≠ ',') (h2 : c ≠ '}') : TestEnd (' ' :: c :: r) := by
  refine ⟨ends_cons (by decide), ?_, ?_⟩
  · rw [pLit_space]; exact lit_char_none (t := ",") (c := ',') rfl hw h1
  · rw [pLit_space]; exact lit_char_none (t := "}") (c := '}') rfl hw h2

theorem sign_ok {op : BOp} : op.sign.toList ≠ [] ∧ (∀ c ∈ op.sign.toList, ("in!=><".toList.contains c) = true) ∧
    (∀ c ∈ op.sign.toList, isWs c = false) := by
  cases op <;> exact ⟨by decide, by decide, by decide⟩

theorem ppChoices_space (r : Chars) : ppChoices (' ' :: r) = ppChoices r := by
  unfold ppChoices
  rw [pSeq, pSeq, show ppName (' ' :: r) = ppName r from tok_space _ _]

theorem ppTest_space (r : Chars) : ppTest (' ' :: r) = ppTest r := by
  unfold ppTest
  rw [pSeq, pSeq, show ppName (' ' :: r) = ppName r from tok_space _ _]

theorem pOpt_none {p : Parser} {cs : Chars} (h : p cs = none) : pOpt p cs = some ([], cs) := by
  unfold pOpt; rw [h]

theorem pOpt_some {p : Parser} {cs : Chars} {x : List Chars × Chars} (h : p cs = some x) : pOpt p cs = some x := by
  unfold pOpt; rw [h]

theorem plain_brace {w r : Chars} (h : Plain w) : pLit "{" (w ++ r) = none := by
  cases w with
  | nil => exact absurd rfl h.1
  | cons c w =>
    exact lit_char_none (t := "{") (c := '{') rfl (h.ws c (by simp)) ((h.2 c (by simp)).ne (by decide))

theorem ppTest_ok {T : PyText} (hT : NumberTexts T) {l : Lit} (hp : WritableHP l.parent) (hl : WritableLit l) {r : Chars} (hr : TestEnd r) :
    ppTest (testText T l ++ r) = some (litToks T l, r) := by
  unfold WritableLit at hl
  unfold testText litToks
  cases ht : l.test with
  | bin op v x =>
    rw [ht] at hl
    obtain ⟨hv, -⟩ := value_text hT hp hl
    simp only
    have e : l.parent.name.toList ++ " ".toList ++ op.sign.toList ++ " ".toList ++ T.chars v ++ r =
        l.parent.name.toList ++ (' ' :: (op.sign.toList ++ (' ' :: (T.chars v ++ r)))) := by
      simp
    have ho : ppOperation (' ' :: (op.sign.toList ++ (' ' :: (T.chars v ++ r)))) = some ([op.sign.toList], ' ' :: (T.chars v ++ r)) := by
      rw [show ppOperation (' ' :: (op.sign.toList ++ (' ' :: (T.chars v ++ r)))) =
        ppOperation (op.sign.toList ++ (' ' :: (T.chars v ++ r))) from tok_space _ _]
      exact pWord_ok sign_ok.1 sign_ok.2.1 sign_ok.2.2 (ends_cons (by decide))
    have hch := ppChoices_ok (w := T.chars v) (ws := []) (r := r) (by simpa using hv) hr.1 hr.2.1
    rw [e]
    unfold ppTest
    rw [pSeq_step (ppName_ok hp.1 (ends_cons (by decide))), pSeq_step ho,
      pSeq_step (pOpt_none (by rw [pLit_space]; exact plain_brace hv)),
      pSeq_step (by rw [ppChoices_space]; exact hch), pSeq_step (pOpt_none hr.2.2), pSeq_nil]
    simp [choiceToks]
  | isIn vs xs =>
    rw [ht] at hl
    obtain ⟨h2, hl⟩ := hl
    simp only
    have e : l.parent.name.toList ++ " in {".toList ++ joinWith ", ".toList (vs.map T.chars) ++ "}".toList ++ r =
        l.parent.name.toList ++ (' ' :: ("in".toList ++ (' ' :: '{' :: (joinWith ", ".toList (vs.map T.chars) ++ '}' :: r)))) := by
      simp
    have ho : ∀ x : Chars, ppOperation (' ' :: ("in".toList ++ (' ' :: x))) = some (["in".toList], ' ' :: x) := by
      intro x
      rw [show ppOperation (' ' :: ("in".toList ++ (' ' :: x))) = ppOperation ("in".toList ++ (' ' :: x)) from
        tok_space (rWord (fun c => "in!=><".toList.contains c)) ("in".toList ++ (' ' :: x))]
      exact pWord_ok (by decide) (by decide) (by decide) (ends_cons (by decide))
    rw [e]
    match vs, h2, hl with
    | v :: vs, _, hl =>
      have hch := ppChoices_ok (w := T.chars v) (ws := vs.map T.chars) (r := '}' :: r) (by
        intro w hw
        rw [← List.map_cons (f := T.chars)] at hw
        obtain ⟨u, hu, rfl⟩ := List.mem_map.1 hw
        exact (value_text hT hp (hl u hu)).1) (ends_cons (by decide))
        (lit_char_none (t := ",") (c := ',') rfl (by decide) (by decide))
      unfold ppTest
      rw [pSeq_step (ppName_ok hp.1 (ends_cons (by decide))), pSeq_step (ho _),
        pSeq_step (pOpt_some (by rw [pLit_space]; exact lit_char (t := "{") (c := '{') rfl (by decide))),
        List.map_cons, pSeq_step hch, pSeq_step (pOpt_some (lit_char (t := "}") (c := '}') rfl (by decide))), pSeq_nil]
      simp [choiceToks]

/-! ## The words of a test -/

theorem words_choices {ws : List Chars} (h : ∀ w ∈ ws, Plain w) : Words (choiceToks ws) := by
  have hcomma : ([','] : Chars) ≠ [] ∧ ∀ c ∈ ([','] : Chars), isWs c = false := by decide
  cases ws with
  | nil => intro w hw; cases hw
  | cons x ws =>
    intro w hw
    rcases List.mem_cons.1 hw with rfl | hw
    · exact ⟨(h w (by simp)).1, (h w (by simp)).ws⟩
    · obtain ⟨y, hy, hw⟩ := List.mem_flatMap.1 hw
      rcases List.mem_cons.1 hw with rfl | hw
      · exact hcomma
      · rw [List.mem_singleton.1 hw]
        exact ⟨(h y (by simp [hy])).1, (h y (by simp [hy])).ws⟩

/-- A character in the tokens of a test. -/
theorem litToks_char {T : PyText} (hT : NumberTexts T) {l : Lit} (hp : WritableHP l.parent) (hl : WritableLit l) :
    Words (litToks T l) ∧ ∀ w ∈ litToks T l, ∀ c ∈ w, WordChar c ∨ c ∈ ",{}=".toList := by
  unfold WritableLit at hl
  unfold litToks
  have hsign : ∀ op : BOp, ∀ c ∈ op.sign.toList, WordChar c ∨ c ∈ ",{}=".toList := by
    intro op
    unfold WordChar
    cases op <;> decide
  have hin : ∀ c ∈ "in".toList, WordChar c := by unfold WordChar; decide
  cases ht : l.test with
  | bin op v x =>
    rw [ht] at hl
    obtain ⟨hv, -⟩ := value_text hT hp hl
    simp only
    refine ⟨?_, ?_⟩
    · intro w hw
      simp only [List.mem_cons, List.not_mem_nil, or_false] at hw
      rcases hw with rfl | rfl | rfl
      · exact ⟨hp.1.1, hp.1.ws⟩
      · exact ⟨sign_ok.1, sign_ok.2.2⟩
      · exact ⟨hv.1, hv.ws⟩
    · intro w hw
      simp only [List.mem_cons, List.not_mem_nil, or_false] at hw
      rcases hw with rfl | rfl | rfl
      · exact fun c hc => .inl (hp.1.2 c hc)
      · exact hsign op
      · exact fun c hc => .inl (hv.2 c hc)
  | isIn vs xs =>
    rw [ht] at hl
    have hpl : ∀ w ∈ vs.map T.chars, Plain w := by
      intro w hw
      obtain ⟨u, hu, rfl⟩ := List.mem_map.1 hw
      exact (value_text hT hp (hl.2 u hu)).1
    simp only
    have hb : ∀ c : Char, c = '{' ∨ c = '}' ∨ c = ',' → isWs c = false ∧ c ∈ ",{}=".toList := by
      rintro c (rfl | rfl | rfl) <;> decide
    refine ⟨?_, ?_⟩
    · intro w hw
      simp only [List.mem_cons, List.mem_append, List.not_mem_nil, or_false] at hw
      rcases hw with rfl | rfl | rfl | hw | rfl
      · exact ⟨hp.1.1, hp.1.ws⟩
      · decide
      · decide
      · exact words_choices hpl w hw
      · decide
    · intro w hw
      simp only [List.mem_cons, List.mem_append, List.not_mem_nil, or_false] at hw
      rcases hw with rfl | rfl | rfl | hw | rfl
      · exact fun c hc => .inl (hp.1.2 c hc)
      · exact fun c hc => .inl (hin c hc)
      · exact fun c hc => .inr (hb c (.inl (List.mem_singleton.1 hc))).2
      · cases hc : vs.map T.chars with
        | nil => rw [hc] at hw; cases hw
        | cons x ws =>
          rw [hc] at hw hpl
          rcases List.mem_cons.1 hw with rfl | hw
          · exact fun c hc => .inl ((hpl w (by simp)).2 c hc)
          · obtain ⟨y, hy, hw⟩ := List.mem_flatMap.1 hw
            rcases List.mem_cons.1 hw with rfl | hw
            · exact fun c hc => .inr (hb c (.inr (.inr (List.mem_singleton.1 hc)))).2
            · rw [List.mem_singleton.1 hw]
              exact fun c hc => .inl ((hpl y (by simp [hy])).2 c hc)
      · exact fun c hc => .inr (hb c (.inr (.inl (List.mem_singleton.1 hc)))).2

theorem mem_joinWith {sep : Chars} {c : Char} : ∀ {ws : List Chars}, c ∈ joinWith sep ws → c ∈ sep ∨ ∃ w ∈ ws, c ∈ w
  | [], h => by cases h
  | w :: ws, h => by
    rw [joinWith_cons] at h
    rcases List.mem_append.1 h with h | h
    · exact .inr ⟨w, by simp, h⟩
    · obtain ⟨x, hx, h⟩ := List.mem_flatMap.1 h
      rcases List.mem_append.1 h with h | h
      · exact .inl h
      · exact .inr ⟨x, by simp [hx], h⟩

theorem litToks_join {T : PyText} (hT : NumberTexts T) {l : Lit} (hp : WritableHP l.parent) (hl : WritableLit l) :
    '&' ∉ joinWith " ".toList (litToks T l) ∧ '|' ∉ joinWith " ".toList (litToks T l) := by
  have key : ∀ c, c ∈ joinWith " ".toList (litToks T l) → c = ' ' ∨ WordChar c ∨ c ∈ ",{}=".toList := by
    intro c hc
    rcases mem_joinWith hc with hc | ⟨w, hw, hc⟩
    · exact .inl (List.mem_singleton.1 hc)
    · exact .inr ((litToks_char hT hp hl).2 w hw c hc)
  constructor
  · intro hm
    rcases key _ hm with h | h | h
    · exact absurd h (by decide)
    · exact h.amp rfl
    · exact absurd h (by decide)
  · intro hm
    rcases key _ hm with h | h | h
    · exact absurd h (by decide)
    · exact h.ne (x := '|') (by decide) rfl
    · exact absurd h (by decide)

/-- The words of a test are read as this test. -/
theorem condSpec_lit {T : PyText} (hT : NumberTexts T) {s : Space} (hlk : Looked s) {l : Lit} (hw : l.wf = true)
    (hpm : l.parent ∈ s.com.map Node.hp) (hcm : l.child ∈ s.com.map Node.hp) (hp : WritableHP l.parent) (hl : WritableLit l) :
    condSpec T s l.child.name (litToks T l) = .ok (.lit l) := by
  have e1 := getHP_ok hlk hpm
  have e2 := getHP_ok hlk hcm
  unfold WritableLit at hl
  unfold condSpec litToks
  cases ht : l.test with
  | bin op v x =>
    rw [ht] at hl
    obtain ⟨-, hv⟩ := value_text hT hp hl
    have h2 := mkBin_own hw ht
    have hor : (op = .lt ∨ op = .gt) → l.parent.kind.orderable = true := by
      intro ho
      simp only [Lit.wf, ht, Bool.and_eq_true, Bool.or_eq_true, Bool.not_eq_true', beq_iff_eq] at hw
      rcases hw.2.2 with h | h
      · rcases ho with rfl | rfl <;> exact absurd h (by decide)
      · exact h
    simp only [e2, List.getElem?_cons_zero, List.getElem?_cons_succ, String.ofList_toList, e1, hv]
    cases op with
    | eq =>
      rw [if_neg (by decide), if_pos (by decide), h2]; rfl
    | ne =>
      rw [if_neg (by decide), if_neg (by decide), if_pos (by decide), h2]; rfl
    | lt =>
      rw [if_neg (by decide), if_neg (by decide), if_neg (by decide)]
      have ho := hor (.inl rfl)
      split
      · rename_i hk; rw [hk] at ho; cases ho
      · rename_i hk; rw [hk] at ho; cases ho
      · rw [if_pos (by decide), h2]; rfl
    | gt =>
      rw [if_neg (by decide), if_neg (by decide), if_neg (by decide)]
      have ho := hor (.inr rfl)
      split
      · rename_i hk; rw [hk] at ho; cases ho
      · rename_i hk; rw [hk] at ho; cases ho
      · rw [if_neg (by decide), if_pos (by decide), h2]; rfl
  | isIn vs xs =>
    rw [ht] at hl
    have h2 := mkIn_own hw ht
    have hm : mapExcept (condValue T l.parent) (vs.map T.chars) = .ok vs := by
      have key : ∀ vs : List Val, (∀ v ∈ vs, Typed l.parent v) → mapExcept (condValue T l.parent) (vs.map T.chars) = .ok vs := by
        intro vs
        induction vs with
        | nil => intro _; rfl
        | cons v vs ih =>
          intro hl
          rw [List.map_cons, mapExcept, (value_text hT hp (hl v (by simp))).2]
          simp only
          rw [ih (fun u hu => hl u (by simp [hu]))]
      exact key vs hl.2
    simp only [e2, List.getElem?_cons_zero, List.getElem?_cons_succ, String.ofList_toList, e1]
    rw [if_pos trivial, List.drop_succ_cons, List.drop_succ_cons, List.drop_succ_cons, List.drop_zero, List.dropLast_concat, everyOther_toks, hm]
    match vs, hl, h2 with
    | v :: u :: vs, _, h2 => simp only [h2]; rfl

/-! ## The line of a condition -/

/-- The line of a condition with the given tests and the connective made of the given character. -/
def lineText (T : PyText) (child : Name) (c : Char) (l : Lit) (ls : List Lit) : Chars :=
  child.toList ++ ' ' :: '|' :: ' ' :: (testText T l ++ ls.flatMap (fun m => ' ' :: c :: c :: ' ' :: testText T m))

/-- Its tokens. -/
def lineToks (T : PyText) (child : Name) (c : Char) (l : Lit) (ls : List Lit) : List Chars :=
  child.toList :: ['|'] :: (litToks T l ++ ls.flatMap (fun m => [c, c] :: litToks T m))

theorem connective {c : Char} (hc : c = '&' ∨ c = '|') (r : Chars) :
    pAlt (pLit "&&") (pLit "||") (' ' :: c :: c :: r) = some ([[c, c]], r) := by
  rcases hc with rfl | rfl <;> rfl

theorem ppCondition_ok {T : PyText} (hT : NumberTexts T) {child : Name} {c : Char} {l : Lit} {ls : List Lit} (hc : c = '&' ∨ c = '|')
    (hn : Plain child.toList) (hl : ∀ m ∈ l :: ls, WritableHP m.parent ∧ WritableLit m) :
    ppCondition (lineText T child c l ls) = some (lineToks T child c l ls, []) := by
  have hsep : ∀ r : Chars, TestEnd (' ' :: c :: r) := by
    intro r
    rcases hc with rfl | rfl <;> exact testEnd_sep (by decide) (by decide) (by decide)
  have hm := pMany_ok (p := pSeq [pAlt (pLit "&&") (pLit "||"), ppTest])
    (txt := fun m => ' ' :: c :: c :: ' ' :: testText T m) (tks := fun m => [c, c] :: litToks T m)
    (G := TestEnd) (rest := []) testEnd_nil rfl ls (by
      intro m hm r hr
      obtain ⟨h1, h2⟩ := hl m (by simp [hm])
      show pSeq _ (' ' :: c :: c :: ' ' :: (testText T m ++ r)) = _
      rw [pSeq_step (connective hc _), pSeq_step (by rw [ppTest_space]; exact ppTest_ok hT h1 h2 hr), pSeq_nil]
      simp) (fun m _ r => hsep _) (by simp)
  rw [List.append_nil] at hm
  obtain ⟨h1, h2⟩ := hl l (by simp)
  have hend : TestEnd (ls.flatMap (fun m => ' ' :: c :: c :: ' ' :: testText T m)) := by
    cases ls with
    | nil => exact testEnd_nil
    | cons m ls => exact hsep _
  unfold ppCondition lineText lineToks
  rw [pSeq_step (ppName_ok hn (ends_cons (by decide))),
    pSeq_step (by rw [pLit_space]; exact lit_char (t := "|") (c := '|') rfl (by decide)),
    pSeq_step (by rw [ppTest_space]; exact ppTest_ok hT h1 h2 hend), pSeq_step hm, pSeq_nil]
  simp

theorem joinWith_append {sep : Chars} {w : Chars} {a b : List Chars} :
    joinWith sep ((w :: a) ++ b) = joinWith sep (w :: a) ++ b.flatMap (fun x => sep ++ x) := by
  rw [List.cons_append, joinWith_cons, joinWith_cons, List.flatMap_append, List.append_assoc]

theorem litToks_cons (T : PyText) (l : Lit) : ∃ w a, litToks T l = w :: a := by
  unfold litToks
  split
  · exact ⟨_, _, rfl⟩
  · exact ⟨_, _, rfl⟩

theorem join_toks {T : PyText} {c : Char} {l : Lit} {ls : List Lit} :
    joinWith " ".toList (litToks T l ++ ls.flatMap (fun m => [c, c] :: litToks T m)) =
      joinWith " ".toList (litToks T l) ++ ls.flatMap (fun m => ' ' :: c :: c :: ' ' :: joinWith " ".toList (litToks T m)) := by
  obtain ⟨w, a, e⟩ := litToks_cons T l
  rw [e, joinWith_append]
  congr 1
  induction ls with
  | nil => rfl
  | cons m ls ih =>
    rw [List.flatMap_cons, List.flatMap_append, List.flatMap_cons, ih]
    obtain ⟨w', a', e'⟩ := litToks_cons T m
    simp only [List.flatMap_cons, e', joinWith_cons]
    simp

theorem mapExcept_wsSplit {g : List Chars → Except Err Cond} {ps : List Chars} :
    mapExcept (fun p => g (wsSplit p)) ps = mapExcept g (ps.map wsSplit) := by
  induction ps with
  | nil => rfl
  | cons p ps ih => rw [List.map_cons, mapExcept, mapExcept, ih]

theorem hasTwice_no {c : Char} {t : Chars} (h : c ∉ t) : hasTwice c t = false := by
  unfold hasTwice
  rw [← Bool.not_eq_true, hasSub_iff]
  intro hi
  exact h (hi.subset (by simp))

theorem hasTwice_yes {c : Char} {a b : Chars} : hasTwice c (a ++ c :: c :: b) = true :=
  hasSub_iff.2 ⟨a, b, by simp⟩

/-- The tests are read back. -/
theorem tests_back {T : PyText} (hT : NumberTexts T) {s : Space} (hlk : Looked s) {child : Name} {ls : List Lit}
    (hl : ∀ m ∈ ls, m.child.name = child ∧ m.wf = true ∧ m.parent ∈ s.com.map Node.hp ∧ m.child ∈ s.com.map Node.hp ∧
      WritableHP m.parent ∧ WritableLit m) :
    mapExcept (condSpec T s child) (ls.map (litToks T)) = .ok (ls.map Cond.lit) := by
  induction ls with
  | nil => rfl
  | cons l ls ih =>
    obtain ⟨rfl, h1, h2, h3, h4, h5⟩ := hl l (by simp)
    rw [List.map_cons, mapExcept, condSpec_lit hT hlk h1 h2 h3 h4 h5]
    simp only
    rw [ih (fun m hm => hl m (by simp [hm]))]
    rfl

/-- A line with one test. -/
theorem readCond_lit {T : PyText} (hT : NumberTexts T) {s : Space} (hlk : Looked s) {c : Char} {l : Lit}
    (hw : l.wf = true) (hpm : l.parent ∈ s.com.map Node.hp) (hcm : l.child ∈ s.com.map Node.hp) (hp : WritableHP l.parent)
    (hl : WritableLit l) : readCond T s (lineToks T l.child.name c l []) = .ok (.lit l) := by
  obtain ⟨h1, h2⟩ := litToks_join hT hp hl
  have hs := wsSplit_join (r := []) (.inl rfl) (litToks_char hT hp hl).1
  rw [List.append_nil] at hs
  unfold readCond lineToks
  simp only [List.flatMap_nil, List.append_nil, List.drop_succ_cons, List.drop_zero, List.getD_cons_zero, String.ofList_toList]
  rw [hasTwice_no h2, hasTwice_no h1, hs, condSpec_lit hT hlk hw hpm hcm hp hl]
  simp

/-- A line with several tests. -/
theorem readCond_many {T : PyText} (hT : NumberTexts T) {s : Space} (hlk : Looked s) {child : Name} {c : Char} {l m : Lit} {ls : List Lit}
    (hc : c = '&' ∨ c = '|')
    (hl : ∀ k ∈ l :: m :: ls, k.child.name = child ∧ k.wf = true ∧ k.parent ∈ s.com.map Node.hp ∧ k.child ∈ s.com.map Node.hp ∧
      WritableHP k.parent ∧ WritableLit k) :
    readCond T s (lineToks T child c l (m :: ls)) =
      if c = '|' then mkOr ((l :: m :: ls).map Cond.lit) else mkAnd ((l :: m :: ls).map Cond.lit) := by
  have hj : ∀ k ∈ l :: m :: ls, '&' ∉ joinWith " ".toList (litToks T k) ∧ '|' ∉ joinWith " ".toList (litToks T k) :=
    fun k hk => litToks_join hT (hl k hk).2.2.2.2.1 (hl k hk).2.2.2.2.2
  have hwd : ∀ k ∈ l :: m :: ls, Words (litToks T k) :=
    fun k hk => (litToks_char hT (hl k hk).2.2.2.2.1 (hl k hk).2.2.2.2.2).1
  have hsp : (splitTwice c (joinWith " ".toList (litToks T l) ++
      (m :: ls).flatMap (fun k => ' ' :: c :: c :: ' ' :: joinWith " ".toList (litToks T k)))).map wsSplit =
      (l :: m :: ls).map (litToks T) := by
    have := splitTwice_words (c := c) (ps := (m :: ls).map (litToks T)) (p := litToks T l) (pre := []) (.inl rfl) (by
      intro q hq
      rw [← List.map_cons (f := litToks T)] at hq
      obtain ⟨k, hk, rfl⟩ := List.mem_map.1 hq
      refine ⟨hwd k hk, ?_⟩
      rcases hc with rfl | rfl
      · exact (hj k hk).1
      · exact (hj k hk).2) (by rcases hc with rfl | rfl <;> decide)
    rw [List.nil_append, List.flatMap_map] at this
    exact this
  have hyes : hasTwice c (joinWith " ".toList (litToks T l) ++
      (m :: ls).flatMap (fun k => ' ' :: c :: c :: ' ' :: joinWith " ".toList (litToks T k))) = true := by
    have e : joinWith " ".toList (litToks T l) ++
        (m :: ls).flatMap (fun k => ' ' :: c :: c :: ' ' :: joinWith " ".toList (litToks T k)) =
        (joinWith " ".toList (litToks T l) ++ [' ']) ++ c :: c :: (' ' :: (joinWith " ".toList (litToks T m) ++
          ls.flatMap (fun k => ' ' :: c :: c :: ' ' :: joinWith " ".toList (litToks T k)))) := by simp
    rw [e]
    exact hasTwice_yes
  have hno : ∀ x : Char, (x = '&' ∨ x = '|') → x ≠ c → hasTwice x (joinWith " ".toList (litToks T l) ++
      (m :: ls).flatMap (fun k => ' ' :: c :: c :: ' ' :: joinWith " ".toList (litToks T k))) = false := by
    intro x hx hxc
    apply hasTwice_no
    have hxk : ∀ k ∈ l :: m :: ls, x ∉ joinWith " ".toList (litToks T k) := by
      intro k hk
      rcases hx with rfl | rfl
      · exact (hj k hk).1
      · exact (hj k hk).2
    have hxs : x ≠ ' ' := by rcases hx with rfl | rfl <;> decide
    intro hm
    rcases List.mem_append.1 hm with hm | hm
    · exact hxk l (by simp) hm
    · obtain ⟨k, hk, hm⟩ := List.mem_flatMap.1 hm
      simp only [List.mem_cons] at hm
      rcases hm with h | h | h | h | h
      · exact hxs h
      · exact hxc h
      · exact hxc h
      · exact hxs h
      · exact hxk k (by simp only [List.mem_cons] at hk ⊢; exact .inr hk) h
  have hback := tests_back hT hlk hl
  unfold readCond lineToks
  simp only [List.drop_succ_cons, List.drop_zero, List.getD_cons_zero, String.ofList_toList]
  rw [join_toks]
  rcases hc with rfl | rfl
  · rw [hno '|' (.inr rfl) (by decide), hyes, if_neg (by decide), if_pos rfl, if_neg (by decide), mapExcept_wsSplit, hsp, hback]
  · rw [hno '&' (.inl rfl) (by decide), hyes, if_pos rfl, if_neg (by decide), if_pos rfl, mapExcept_wsSplit, hsp, hback]

/-! ## What is written -/

/-- A text of the given characters that begins with a character of a name and does not end with whitespace. -/
def Line (p : Char → Bool) (t : Chars) : Prop :=
  (∀ c ∈ t, p c = true) ∧ (∃ a r, t = a :: r ∧ nameChar a = true) ∧ ∃ r b, t = r ++ [b] ∧ isWs b = false

theorem Line.ends {p : Char → Bool} {t : Chars} (h : Line p t) : Ends isWs t ∧ Ends isWs t.reverse := by
  obtain ⟨-, ⟨a, r, rfl, ha⟩, r', b, e, hb⟩ := h
  refine ⟨ends_cons (nameChar_ws ha), ?_⟩
  rw [e, List.reverse_append]
  exact ends_cons hb

theorem Spec.Plain.first {w : Chars} (h : Plain w) : ∃ a r, w = a :: r ∧ nameChar a = true := by
  cases w with
  | nil => exact absurd rfl h.1
  | cons a r => exact ⟨a, r, rfl, h.name a (by simp)⟩

theorem Spec.Plain.last {w : Chars} (h : Plain w) : ∃ r b, w = r ++ [b] ∧ isWs b = false := by
  refine ⟨w.dropLast, w.getLast h.1, (List.dropLast_append_getLast h.1).symm, h.ws _ (List.getLast_mem h.1)⟩

theorem Spec.Plain.par {w : Chars} (h : Plain w) : ∀ c ∈ w, parChar c = true := fun c hc => nameChar_par (h.name c hc)

theorem testText_line {T : PyText} (hT : NumberTexts T) {l : Lit} (hp : WritableHP l.parent) (hl : WritableLit l) :
    Line parChar (testText T l) := by
  obtain ⟨a, r, ea, ha⟩ := hp.1.first
  unfold WritableLit at hl
  unfold testText
  have hsp : ∀ c ∈ " ".toList, parChar c = true := by decide
  cases ht : l.test with
  | bin op v x =>
    rw [ht] at hl
    obtain ⟨hv, -⟩ := value_text hT hp hl
    obtain ⟨r', b, eb, hb⟩ := hv.last
    have hsign : ∀ c ∈ op.sign.toList, parChar c = true := by cases op <;> decide
    simp only
    refine ⟨?_, ⟨a, _, by rw [ea]; rfl, ha⟩, _, b, by rw [eb, ← List.append_assoc], hb⟩
    intro c hc
    simp only [List.mem_append] at hc
    rcases hc with (((hc | hc) | hc) | hc) | hc
    · exact hp.1.par c hc
    · exact hsp c hc
    · exact hsign c hc
    · exact hsp c hc
    · exact hv.par c hc
  | isIn vs xs =>
    rw [ht] at hl
    simp only
    refine ⟨?_, ⟨a, _, by rw [ea]; rfl, ha⟩, _, '}', rfl, by decide⟩
    have hin : ∀ c ∈ " in {".toList, parChar c = true := by decide
    have hcl : ∀ c ∈ "}".toList, parChar c = true := by decide
    have hcm : ∀ c ∈ ", ".toList, parChar c = true := by decide
    intro c hc
    simp only [List.mem_append] at hc
    rcases hc with ((hc | hc) | hc) | hc
    · exact hp.1.par c hc
    · exact hin c hc
    · rcases mem_joinWith hc with hc | ⟨w, hw, hc⟩
      · exact hcm c hc
      · obtain ⟨u, hu, rfl⟩ := List.mem_map.1 hw
        exact (value_text hT hp (hl.2 u hu)).1.par c hc
    · exact hcl c hc

theorem buildLit_eq (T : PyText) (l : Lit) : buildLit T l = lineText T l.child.name '&' l [] := by
  simp [buildLit, lineText]

theorem buildPart_lit {T : PyText} (hT : NumberTexts T) {l : Lit} (hn : Plain l.child.name.toList) (hp : WritableHP l.parent)
    (hl : WritableLit l) : buildPart T (.lit l) = .ok (testText T l) := by
  have ht := testText_line hT hp hl
  have hbar : ∀ {t : Chars}, (∀ c ∈ t, parChar c = true) → '|' ∉ t :=
    fun h hm => parChar_ne (h _ hm) (x := '|') (by decide) rfl
  have e : buildLit T l = (l.child.name.toList ++ [' ']) ++ '|' :: (' ' :: testText T l) := by
    simp [buildLit]
  have h1 : '|' ∉ l.child.name.toList ++ [' '] := by
    apply hbar
    intro c hc
    rcases List.mem_append.1 hc with hc | hc
    · exact hn.par c hc
    · rw [List.mem_singleton.1 hc]; decide
  have h2 : '|' ∉ ' ' :: testText T l := by
    apply hbar
    intro c hc
    rcases List.mem_cons.1 hc with rfl | hc
    · decide
    · exact ht.1 c hc
  have hs : strip (' ' :: testText T l) = testText T l := by
    have := strip_id ht.ends.1 ht.ends.2
    unfold strip at this ⊢
    rw [skipWs_space]
    exact this
  unfold buildPart
  simp only
  rw [e, splitChar_append, splitChar_word h1, splitChar_word h2]
  simp only [List.singleton_append, List.getD_cons_succ, List.getD_cons_zero]
  rw [hs]

theorem buildParts {T : PyText} (hT : NumberTexts T) {ls : List Lit}
    (hl : ∀ m ∈ ls, Plain m.child.name.toList ∧ WritableHP m.parent ∧ WritableLit m) :
    mapExcept (buildPart T) (ls.map Cond.lit) = .ok (ls.map (testText T)) := by
  induction ls with
  | nil => rfl
  | cons l ls ih =>
    obtain ⟨h1, h2, h3⟩ := hl l (by simp)
    rw [List.map_cons, mapExcept, buildPart_lit hT h1 h2 h3]
    simp only
    rw [ih (fun m hm => hl m (by simp [hm]))]
    rfl

theorem lineText_line {T : PyText} (hT : NumberTexts T) {child : Name} {c : Char} {l : Lit} {ls : List Lit} (hc : c = '&' ∨ c = '|')
    (hn : Plain child.toList) (hl : ∀ m ∈ l :: ls, WritableHP m.parent ∧ WritableLit m) :
    Line okChar (lineText T child c l ls) ∧ '|' ∈ lineText T child c l ls := by
  have ht : ∀ m ∈ l :: ls, Line parChar (testText T m) := fun m hm => testText_line hT (hl m hm).1 (hl m hm).2
  obtain ⟨a, r, ea, ha⟩ := hn.first
  refine ⟨⟨?_, ⟨a, _, by unfold lineText; rw [ea]; rfl, ha⟩, ?_⟩, by simp [lineText]⟩
  · have hcok : okChar c = true := by rcases hc with rfl | rfl <;> decide
    have hsok : okChar ' ' = true := by decide
    intro x hx
    unfold lineText at hx
    simp only [List.mem_append, List.mem_cons, List.mem_flatMap] at hx
    rcases hx with hx | rfl | rfl | rfl | hx | ⟨m, hm, rfl | rfl | rfl | rfl | hx⟩
    · exact parChar_ok (hn.par x hx)
    · exact hsok
    · decide
    · exact hsok
    · exact parChar_ok ((ht l (by simp)).1 x hx)
    · exact hsok
    · exact hcok
    · exact hcok
    · exact hsok
    · exact parChar_ok ((ht m (by simp [hm])).1 x hx)
  · unfold lineText
    have key : ∀ (p : Chars) (ls : List Lit), (∀ m ∈ ls, Line parChar (testText T m)) → (∃ r b, p = r ++ [b] ∧ isWs b = false) →
        ∃ r b, p ++ ls.flatMap (fun m => ' ' :: c :: c :: ' ' :: testText T m) = r ++ [b] ∧ isWs b = false := by
      intro p ls
      induction ls generalizing p with
      | nil => intro _ h; simpa using h
      | cons m ls ih =>
        intro h _
        obtain ⟨-, -, r, b, e, hb⟩ := h m (by simp)
        rw [List.flatMap_cons, ← List.append_assoc]
        exact ih _ (fun k hk => h k (by simp [hk])) ⟨p ++ ' ' :: c :: c :: ' ' :: r, b, by simp [e], hb⟩
    obtain ⟨-, -, r, b, e, hb⟩ := ht l (by simp)
    obtain ⟨r', b', e', hb'⟩ := key (testText T l) ls (fun m hm => ht m (by simp [hm])) ⟨r, b, e, hb⟩
    exact ⟨child.toList ++ ' ' :: '|' :: ' ' :: r', b', by rw [e']; simp, hb'⟩

theorem lits_of {cs : List Cond} (h : ∀ c ∈ cs, ∃ l, c = .lit l ∧ WritableLit l) :
    ∃ ls : List Lit, cs = ls.map Cond.lit ∧ ∀ l ∈ ls, WritableLit l := by
  induction cs with
  | nil => exact ⟨[], rfl, by simp⟩
  | cons c cs ih =>
    obtain ⟨ls, rfl, hls⟩ := ih (fun d hd => h d (by simp [hd]))
    obtain ⟨l, rfl, hl⟩ := h c (by simp)
    refine ⟨l :: ls, rfl, ?_⟩
    intro m hm
    rcases List.mem_cons.1 hm with rfl | hm
    · exact hl
    · exact hls m hm

/-- A writable condition gives a line, which is read as this condition in every space that has its hyperparameters. -/
theorem cond_line {T : PyText} (hT : NumberTexts T) {c : Cond} (hw : c.wf = true) (hc : WritableCond c)
    (hp : ∀ l ∈ c.dlcs, WritableHP l.parent ∧ Plain l.child.name.toList) :
    ∃ line toks, buildCond T c = .ok line ∧ Line okChar line ∧ '|' ∈ line ∧ ppCondition line = some (toks, []) ∧
      toks.getD 0 [] = c.childStr.toList ∧ ∀ s, Looked s → CondIn s c → readCond T s toks = .ok c := by
  have many : ∀ (x : Char) (ls : List Lit), (x = '&' ∨ x = '|') → c.dlcs = ls → 2 ≤ ls.length → sameChild ls = true →
      (∀ l ∈ ls, l.wf = true) → (∀ l ∈ ls, WritableLit l) →
      ∃ line toks, line = c.childStr.toList ++ ' ' :: '|' :: ' ' :: joinWith (' ' :: x :: x :: [' ']) (ls.map (testText T)) ∧
        Line okChar line ∧ '|' ∈ line ∧ ppCondition line = some (toks, []) ∧
      toks.getD 0 [] = c.childStr.toList ∧ ∀ s, Looked s → CondIn s c → readCond T s toks =
        if x = '|' then mkOr (ls.map Cond.lit) else mkAnd (ls.map Cond.lit) := by
    intro x ls hx hd h2 hs hlw hlt
    match ls, h2 with
    | l :: m :: ls, _ =>
      have hch : c.childStr = l.child.name := by simp [Cond.childStr, Cond.child?, hd]
      have hsame : ∀ k ∈ l :: m :: ls, k.child.name = l.child.name := by
        intro k hk
        simp only [sameChild, List.all_eq_true] at hs
        rcases List.mem_cons.1 hk with rfl | hk
        · rfl
        · exact HP.pyEq_name (hs k hk)
      rw [hd] at hp
      have hpl := (hp l (by simp)).2
      have hl : ∀ k ∈ l :: m :: ls, WritableHP k.parent ∧ WritableLit k := fun k hk => ⟨(hp k hk).1, hlt k hk⟩
      obtain ⟨h1, h2⟩ := lineText_line hT hx hpl hl
      refine ⟨lineText T l.child.name x l (m :: ls), lineToks T l.child.name x l (m :: ls), ?_, h1, h2, ppCondition_ok hT hx hpl hl, ?_, ?_⟩
      · rw [hch, List.map_cons, joinWith_cons, List.flatMap_map]
        rfl
      · rw [hch]; rfl
      · intro s hlk hci
        refine readCond_many hT hlk hx ?_
        intro k hk
        have hin := hci k (by rw [hd]; exact hk)
        exact ⟨by rw [hsame k hk], hlw k hk, hin.1, hin.2, (hl k hk).1, (hl k hk).2⟩
  cases hc with
  | @lit l hl =>
    have hd := hp l (by simp [Cond.dlcs])
    have hl' : ∀ k ∈ l :: [], WritableHP k.parent ∧ WritableLit k := by
      intro k hk
      rw [List.mem_singleton.1 hk]
      exact ⟨hd.1, hl⟩
    have hwl : l.wf = true := by
      simp only [Cond.wf, Cond.wf0, Bool.and_eq_true] at hw
      exact hw.1
    obtain ⟨h1, h2⟩ := lineText_line hT (c := '&') (.inl rfl) hd.2 hl'
    refine ⟨lineText T l.child.name '&' l [], lineToks T l.child.name '&' l [], ?_, h1, h2, ppCondition_ok hT (.inl rfl) hd.2 hl', rfl, ?_⟩
    · simp only [buildCond, buildLit_eq]
    · intro s hlk hci
      obtain ⟨h3, h4⟩ := hci l (by simp [Cond.dlcs])
      exact readCond_lit hT hlk hwl h3 h4 hd.1 hl
  | @and cs hcs =>
    obtain ⟨ls, rfl, hls⟩ := lits_of hcs
    simp only [Cond.wf, Bool.and_eq_true] at hw
    obtain ⟨h2, h3⟩ := wf0_and.1 hw.1
    have hd : (Cond.and (ls.map Cond.lit)).dlcs = ls := by rw [Cond.dlcs, dlcsL_lits]
    have hs : sameChild ls = true := by rw [← hd]; exact hw.2
    have hlw : ∀ l ∈ ls, l.wf = true := by
      intro l hl
      have := h3 (.lit l) (List.mem_map.2 ⟨l, hl, rfl⟩)
      simpa [Cond.wf0] using this
    have hparts : ∀ m ∈ ls, Plain m.child.name.toList ∧ WritableHP m.parent ∧ WritableLit m := by
      intro m hm
      have := hp m (by rw [hd]; exact hm)
      exact ⟨this.2, this.1, hls m hm⟩
    obtain ⟨line, toks, e1, e2, e3, e4, e5, e6⟩ := many '&' ls (.inl rfl) hd (by simpa using h2) hs hlw hls
    refine ⟨line, toks, ?_, e2, e3, e4, e5, ?_⟩
    · simp only [buildCond]
      rw [buildParts hT hparts]
      simp only [e1]
      simp
    · intro s hlk hci
      rw [e6 s hlk hci, if_neg (by decide)]
      simp only [mkAnd]
      rw [if_neg (by omega), if_pos (by rw [dlcsL_lits]; exact hs)]
  | @or cs hcs =>
    obtain ⟨ls, rfl, hls⟩ := lits_of hcs
    simp only [Cond.wf, Bool.and_eq_true] at hw
    obtain ⟨h2, h3⟩ := wf0_or.1 hw.1
    have hd : (Cond.or (ls.map Cond.lit)).dlcs = ls := by rw [Cond.dlcs, dlcsL_lits]
    have hs : sameChild ls = true := by rw [← hd]; exact hw.2
    have hlw : ∀ l ∈ ls, l.wf = true := by
      intro l hl
      have := h3 (.lit l) (List.mem_map.2 ⟨l, hl, rfl⟩)
      simpa [Cond.wf0] using this
    have hparts : ∀ m ∈ ls, Plain m.child.name.toList ∧ WritableHP m.parent ∧ WritableLit m := by
      intro m hm
      have := hp m (by rw [hd]; exact hm)
      exact ⟨this.2, this.1, hls m hm⟩
    obtain ⟨line, toks, e1, e2, e3, e4, e5, e6⟩ := many '|' ls (.inr rfl) hd (by simpa using h2) hs hlw hls
    refine ⟨line, toks, ?_, e2, e3, e4, e5, ?_⟩
    · simp only [buildCond]
      rw [buildParts hT hparts]
      simp only [e1]
      simp
    · intro s hlk hci
      rw [e6 s hlk hci, if_pos rfl]
      simp only [mkOr]
      rw [if_neg (by omega), if_pos (by rw [dlcsL_lits]; exact hs)]

end Verif
