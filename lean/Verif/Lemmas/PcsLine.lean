import Verif.Lemmas.PcsRead

/-!
# Reading the lines of a file
-/

set_option autoImplicit false

namespace Verif
open Verif.Spec

/-- The characters of a line for a hyperparameter or a clause. -/
def parChar (c : Char) : Bool := nameChar c || " ,{}[]=".toList.contains c

/-- The characters of a line. -/
def okChar (c : Char) : Bool := parChar c || c == '|'

theorem nameChar_par {c : Char} (h : nameChar c = true) : parChar c = true := by simp [parChar, h]
theorem parChar_ok {c : Char} (h : parChar c = true) : okChar c = true := by simp [okChar, h]

theorem parChar_ne {c x : Char} (h : parChar c = true) (hx : parChar x = false) : c ≠ x := by
  rintro rfl; rw [h] at hx; cases hx
theorem okChar_ne {c x : Char} (h : okChar c = true) (hx : okChar x = false) : c ≠ x := by
  rintro rfl; rw [h] at hx; cases hx

theorem strip_id {cs : Chars} (h : Ends isWs cs) (h' : Ends isWs cs.reverse) : strip cs = cs := by
  unfold strip
  rw [skipWs_of h, show cs.reverse.dropWhile isWs = cs.reverse from skipWs_of h', List.reverse_reverse]

theorem takeWhile_all {α : Type} {p : α → Bool} : ∀ {l : List α}, (∀ x ∈ l, p x = true) → l.takeWhile p = l
  | [], _ => rfl
  | x :: l, h => by
    rw [List.takeWhile_cons, h x (by simp), takeWhile_all (fun y hy => h y (by simp [hy]))]
    rfl

/-- A line as the writer makes them is not changed by cleaning. -/
theorem cleanLine_id {cs : Chars} (hc : ∀ c ∈ cs, okChar c = true) (h : Ends isWs cs) (h' : Ends isWs cs.reverse) :
    cleanLine cs = cs := by
  unfold cleanLine
  rw [takeWhile_all, List.filter_eq_self.2, strip_id h h']
  · intro c hm
    simp only [Bool.and_eq_true, bne_iff_ne]
    exact ⟨okChar_ne (hc c hm) (by decide), okChar_ne (hc c hm) (by decide)⟩
  · intro c hm
    simp only [bne_iff_ne]
    exact okChar_ne (hc c hm) (by decide)

theorem readLine_empty (T : PyText) (f : PcsFile) : readLine T f [] = .ok f := by
  unfold readLine
  simp [cleanLine, strip, skipWs]

theorem readLine_par {T : PyText} {f : PcsFile} {c : Char} {cs : Chars} (hc : nameChar c = true)
    (hcs : ∀ x ∈ cs, parChar x = true) : readLine T f (c :: (cs ++ [']'])) = match readParam T (c :: (cs ++ [']'])) with
    | .error e => .error e
    | .ok h => match f.space.add [h] [] [] with
      | (_, some e) => .error e
      | (s, none) => .ok { f with space := s } := by
  have hall : ∀ x ∈ c :: (cs ++ [']']), parChar x = true := by
    intro x hx
    rcases List.mem_cons.1 hx with rfl | hx
    · exact nameChar_par hc
    rcases List.mem_append.1 hx with hx | hx
    · exact hcs x hx
    · rw [List.mem_singleton.1 hx]; decide
  unfold readLine
  rw [cleanLine_id (fun x hx => parChar_ok (hall x hx)) (ends_cons (nameChar_ws hc))
    (by rw [← List.cons_append, List.reverse_append]; exact ends_cons (by decide))]
  simp only
  rw [if_neg (fun hm => parChar_ne (hall _ hm) (x := '|') (by decide) rfl), if_neg (by simp), if_neg, if_neg (by simp)]
  · rfl
  · rintro ⟨e, -⟩
    cases e
    exact absurd hc (by decide)

theorem readLine_forb {T : PyText} {f : PcsFile} {cs : Chars} (hcs : ∀ x ∈ cs, parChar x = true) :
    readLine T f ('{' :: (cs ++ ['}'])) = .ok { f with forbs := f.forbs ++ ['{' :: (cs ++ ['}'])] } := by
  have hall : ∀ x ∈ '{' :: (cs ++ ['}']), parChar x = true := by
    intro x hx
    rcases List.mem_cons.1 hx with rfl | hx
    · decide
    rcases List.mem_append.1 hx with hx | hx
    · exact hcs x hx
    · rw [List.mem_singleton.1 hx]; decide
  unfold readLine
  rw [cleanLine_id (fun x hx => parChar_ok (hall x hx)) (ends_cons (by decide))
    (by rw [← List.cons_append, List.reverse_append]; exact ends_cons (by decide))]
  simp only
  rw [if_neg (fun hm => parChar_ne (hall _ hm) (x := '|') (by decide) rfl), if_neg (by simp), if_pos]
  refine ⟨rfl, ?_⟩
  rw [← List.cons_append, List.getLast?_append]
  rfl

theorem readLine_cond {T : PyText} {f : PcsFile} {line r : Chars} {toks : List Chars} (hc : ∀ x ∈ line, okChar x = true)
    (h : Ends isWs line) (h' : Ends isWs line.reverse) (hb : '|' ∈ line) (hp : ppCondition line = some (toks, r)) :
    readLine T f line = .ok { f with conds := f.conds ++ [toks] } := by
  unfold readLine
  rw [cleanLine_id hc h h']
  simp only
  rw [if_pos hb, hp]

theorem readLines_append {T : PyText} : ∀ {a b : List Chars} {f : PcsFile}, readLines T f (a ++ b) = match readLines T f a with
    | .error e => .error e
    | .ok f' => readLines T f' b
  | [], b, f => rfl
  | x :: a, b, f => by
    rw [List.cons_append, readLines, readLines]
    cases readLine T f x with
    | error e => rfl
    | ok f' => exact readLines_append

/-- Empty lines do not matter. -/
theorem readLines_filter {T : PyText} : ∀ {a : List Chars} {f : PcsFile},
    readLines T f a = readLines T f (a.filter (fun l => !l.isEmpty))
  | [], f => rfl
  | [] :: a, f => by
    rw [readLines, readLine_empty]
    simpa using readLines_filter
  | (c :: l) :: a, f => by
    rw [List.filter_cons_of_pos (by simp), readLines, readLines]
    cases readLine T f (c :: l) with
    | error e => rfl
    | ok f' => exact readLines_filter

theorem splitChar_word {c : Char} : ∀ {w : Chars}, c ∉ w → splitChar c w = [w]
  | [], _ => rfl
  | x :: w, h => by
    rw [splitChar, if_neg (fun e => h (by simp [e])), splitChar_word (fun hm => h (by simp [hm]))]

theorem splitChar_ne_nil {c : Char} : ∀ {w : Chars}, splitChar c w ≠ []
  | [] => by simp [splitChar]
  | x :: w => by
    rw [splitChar]
    split
    · simp
    · split <;> simp

theorem splitChar_append {c : Char} : ∀ {a b : Chars}, splitChar c (a ++ c :: b) = splitChar c a ++ splitChar c b
  | [], b => by simp [splitChar]
  | x :: a, b => by
    rw [List.cons_append, splitChar, splitChar, splitChar_append]
    split
    · rfl
    · cases h : splitChar c a with
      | nil => exact absurd h splitChar_ne_nil
      | cons w ws => rfl

theorem splitChar_join {c : Char} : ∀ {ls : List Chars}, (∀ l ∈ ls, c ∉ l) → ls ≠ [] →
    splitChar c (joinWith [c] ls) = ls
  | [], _, h => absurd rfl h
  | [l], h, _ => splitChar_word (h l (by simp))
  | l :: m :: ls, h, _ => by
    rw [joinWith]
    · rw [List.append_assoc, List.singleton_append, splitChar_append, splitChar_word (h l (by simp)),
        splitChar_join (fun x hx => h x (by simp [hx])) (by simp)]
      rfl
    · simp

/-- The lines of a file, as far as they are not empty. -/
theorem split_join_filter {ls : List Chars} (h : ∀ l ∈ ls, '\n' ∉ l ∧ l ≠ []) :
    (splitChar '\n' (joinWith "\n".toList ls)).filter (fun l => !l.isEmpty) = ls := by
  cases ls with
  | nil => rfl
  | cons l ls =>
    rw [show ("\n".toList : Chars) = ['\n'] from rfl, splitChar_join (fun x hx => (h x hx).1) (by simp)]
    rw [List.filter_eq_self]
    intro x hx
    simpa using (h x hx).2

theorem split_lines_filter : ∀ {ls : List Chars}, (∀ l ∈ ls, '\n' ∉ l ∧ l ≠ []) →
    (splitChar '\n' (ls.map (· ++ "\n".toList)).flatten).filter (fun l => !l.isEmpty) = ls
  | [], _ => rfl
  | l :: ls, h => by
    rw [List.map_cons, List.flatten_cons, show ("\n".toList : Chars) = ['\n'] from rfl, List.append_assoc, List.singleton_append,
      splitChar_append, splitChar_word (h l (by simp)).1, List.filter_append]
    have := split_lines_filter (ls := ls) (fun x hx => h x (by simp [hx]))
    rw [show ("\n".toList : Chars) = ['\n'] from rfl] at this
    rw [this]
    have hl := (h l (by simp)).2
    cases l with
    | nil => exact absurd rfl hl
    | cons c l => rfl

theorem file_lines {ps cs fs : List Chars} (hp : ∀ l ∈ ps, '\n' ∉ l ∧ l ≠ []) (hc : ∀ l ∈ cs, '\n' ∉ l ∧ l ≠ [])
    (hf : ∀ l ∈ fs, '\n' ∉ l ∧ l ≠ []) :
    (splitChar '\n' (joinWith "\n".toList ps
          ++ (if cs.isEmpty then [] else "\n\n".toList ++ joinWith "\n".toList cs)
          ++ (if fs.isEmpty then [] else "\n\n".toList ++ (fs.map (· ++ "\n".toList)).flatten))).filter (fun l => !l.isEmpty) =
      ps ++ cs ++ fs := by
  have key : ∀ (a b : Chars), (splitChar '\n' (a ++ "\n\n".toList ++ b)).filter (fun l => !l.isEmpty) =
      (splitChar '\n' a).filter (fun l => !l.isEmpty) ++ (splitChar '\n' b).filter (fun l => !l.isEmpty) := by
    intro a b
    rw [show ("\n\n".toList : Chars) = ['\n', '\n'] from rfl, List.append_assoc]
    show (splitChar '\n' (a ++ '\n' :: ([] ++ '\n' :: b))).filter _ = _
    rw [splitChar_append, splitChar_append, List.filter_append, List.filter_append]
    simp [splitChar]
  have h1 : (splitChar '\n' (joinWith "\n".toList ps
      ++ (if cs.isEmpty then [] else "\n\n".toList ++ joinWith "\n".toList cs))).filter (fun l => !l.isEmpty) = ps ++ cs := by
    cases cs with
    | nil => simpa using split_join_filter hp
    | cons c cs =>
      rw [List.isEmpty_cons, if_neg (by simp), ← List.append_assoc, key, split_join_filter hp, split_join_filter hc]
  cases fs with
  | nil => simpa using h1
  | cons f fs =>
    rw [if_neg (c := (List.isEmpty (f :: fs)) = true) (by simp), ← List.append_assoc, key, h1, split_lines_filter hf]

end Verif
