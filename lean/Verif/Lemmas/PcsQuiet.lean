import Verif.Lemmas.PcsCut
import Verif.Props.Decode
import Verif.Lemmas.PcsForb
import Verif.Lemmas.PcsCond

/-!
# Lines of a pcs file that define no hyperparameter, and their parts
-/

set_option autoImplicit false

namespace Verif

/-- No part of the line changes the space. -/
def Quiet (T : PyText) (l : Chars) : Prop :=
  ∀ q, q <+: l → ∀ f : PcsFile, (∃ e, readLine T f q = .error e) ∨ ∃ f', readLine T f q = .ok f' ∧ f'.space = f.space

theorem quiet_nil (T : PyText) : Quiet T [] := by
  intro q hq f
  have : q = [] := by simpa using hq
  subst this
  exact .inr ⟨f, readLine_empty T f, rfl⟩

theorem readLines_quiet {T : PyText} : ∀ {ls : List Chars} {f f' : PcsFile}, (∀ l ∈ ls, ∃ L, l <+: L ∧ Quiet T L) →
    readLines T f ls = .ok f' → f'.space = f.space
  | [], f, f', _, h => by rw [readLines] at h; cases h; rfl
  | l :: ls, f, f', hq, h => by
    rw [readLines] at h
    obtain ⟨L, h1, h2⟩ := hq l (by simp)
    rcases h2 l h1 f with ⟨e, he⟩ | ⟨g, hg, hs⟩
    · rw [he] at h; cases h
    · rw [hg] at h
      rw [readLines_quiet (fun x hx => hq x (by simp [hx])) h, hs]

theorem ppName_brace (r : Chars) : ppName ('{' :: r) = none := by
  unfold ppName pWord tok
  have : skipWs ('{' :: r) = '{' :: r := skipWs_of (ends_cons (by decide))
  rw [this, rWord_none (ends_cons (by decide))]
  try rfl

theorem strip_cons {c : Char} (hc : isWs c = false) (r : Chars) : ∃ r', strip (c :: r) = c :: r' := by
  have h1 := strip_prefix (ends_cons (r := r) hc)
  cases hs : strip (c :: r) with
  | nil =>
    exfalso
    unfold strip at hs
    rw [skipWs_of (ends_cons hc)] at hs
    simp only [List.reverse_eq_nil_iff, List.dropWhile_eq_nil_iff, List.mem_reverse] at hs
    have := hs c (by simp)
    rw [hc] at this
    cases this
  | cons x r' =>
    rw [hs, List.cons_prefix_cons] at h1
    exact ⟨r', by rw [h1.1]⟩

/-- A line that begins like a clause defines no hyperparameter. -/
theorem quiet_brace {T : PyText} {cs : Chars} : Quiet T ('{' :: cs) := by
  intro q hq f
  cases q with
  | nil => exact .inr ⟨f, readLine_empty T f, rfl⟩
  | cons x q =>
    rw [List.cons_prefix_cons] at hq
    obtain ⟨rfl, -⟩ := hq
    obtain ⟨r, hr⟩ : ∃ r, cleanLine ('{' :: q) = '{' :: r := by
      unfold cleanLine
      rw [List.takeWhile_cons_of_pos (by decide), List.filter_cons_of_pos (by decide)]
      exact strip_cons (by decide) _
    unfold readLine
    rw [hr]
    simp only
    have h1 : ppContParam ('{' :: r) = none := by
      unfold ppContParam
      simp only [pSeq, ppName_brace]
    have h2 : ppCatParam ('{' :: r) = none := by
      unfold ppCatParam
      simp only [pSeq, ppName_brace]
    rw [readParam_none h1 h2]
    split
    · split
      · exact .inl ⟨_, rfl⟩
      · exact .inr ⟨_, rfl, rfl⟩
    · split
      · exact .inr ⟨_, rfl, rfl⟩
      · split
        · exact .inr ⟨_, rfl, rfl⟩
        · exact .inl ⟨_, rfl⟩

theorem mem_strip {c : Char} (hc : isWs c = false) {l : Chars} (h : c ∈ l) : c ∈ strip l := by
  have key : ∀ {l : Chars}, c ∈ l → c ∈ l.dropWhile isWs := by
    intro l
    induction l with
    | nil => intro h; cases h
    | cons x l ih =>
      intro h
      by_cases hx : isWs x = true
      · rw [List.dropWhile_cons_of_pos hx]
        rcases List.mem_cons.1 h with rfl | h
        · rw [hc] at hx; cases hx
        · exact ih h
      · rw [List.dropWhile_cons_of_neg hx]
        exact h
  unfold strip skipWs
  rw [List.mem_reverse]
  exact key (List.mem_reverse.2 (key h))

theorem strip_subset {c : Char} {l : Chars} (h : c ∈ strip l) : c ∈ l := by
  unfold strip skipWs at h
  rw [List.mem_reverse] at h
  have := (List.dropWhile_suffix isWs).subset h
  rw [List.mem_reverse] at this
  exact (List.dropWhile_suffix isWs).subset this

theorem cleanLine_strip {q : Chars} (hc : ∀ c ∈ q, okChar c = true) : cleanLine q = strip q := by
  unfold cleanLine
  rw [takeWhile_all, List.filter_eq_self.2]
  · intro c hm
    simp only [Bool.and_eq_true, bne_iff_ne]
    exact ⟨okChar_ne (hc c hm) (by decide), okChar_ne (hc c hm) (by decide)⟩
  · intro c hm
    simp only [bne_iff_ne]
    exact okChar_ne (hc c hm) (by decide)

/-- A condition defines no hyperparameter. -/
theorem quiet_cond {T : PyText} {w r : Chars} (hw : ∀ c ∈ w, nameChar c = true) (hr : ∀ c ∈ r, okChar c = true) :
    Quiet T (w ++ " | ".toList ++ r) := by
  intro q hq f
  have hall : ∀ c ∈ q, okChar c = true := by
    intro c hc
    have := hq.subset hc
    simp only [List.mem_append] at this
    rcases this with (h1 | h1) | h1
    · exact parChar_ok (nameChar_par (hw c h1))
    · have : ∀ c ∈ " | ".toList, okChar c = true := by decide
      exact this c h1
    · exact hr c h1
  unfold readLine
  rw [cleanLine_strip hall]
  simp only
  split
  · split
    · exact .inl ⟨_, rfl⟩
    · exact .inr ⟨_, rfl, rfl⟩
  · rename_i hb
    have hno : ∀ c ∈ q, nameChar c = true ∨ c = ' ' := by
      have e : w ++ " | ".toList ++ r = (w ++ [' ']) ++ ('|' :: ' ' :: r) := by simp
      rw [e] at hq
      rcases List.prefix_or_prefix_of_prefix hq (List.prefix_append (w ++ [' ']) _) with h1 | ⟨t, rfl⟩
      · intro c hc
        have := h1.subset hc
        simp only [List.mem_append, List.mem_singleton] at this
        rcases this with h2 | h2
        · exact .inl (hw c h2)
        · exact .inr h2
      · rw [List.prefix_append_right_inj] at hq
        cases t with
        | nil =>
          intro c hc
          simp only [List.append_nil, List.mem_append, List.mem_singleton] at hc
          rcases hc with h2 | h2
          · exact .inl (hw c h2)
          · exact .inr h2
        | cons x t =>
          rw [List.cons_prefix_cons] at hq
          obtain ⟨rfl, -⟩ := hq
          exact absurd (mem_strip (by decide) (by simp)) hb
    have hbr : '}' ∉ strip q ∧ ']' ∉ strip q := by
      constructor <;> intro hm <;> rcases hno _ (strip_subset hm) with h1 | h1 <;> revert h1 <;> decide
    rw [if_pos hbr]
    exact .inr ⟨_, rfl, rfl⟩

theorem splitChar_cut {c : Char} : ∀ {r R : Chars}, r <+: R → ∃ k q, splitChar c r = (splitChar c R).take k ++ [q] ∧
    k < (splitChar c R).length ∧ q <+: (splitChar c R).getD k []
  | [], R, _ => by
    refine ⟨0, [], by simp [splitChar], ?_, by simp⟩
    exact List.length_pos_of_ne_nil splitChar_ne_nil
  | x :: r, [], h => by simp at h
  | x :: r, y :: R, h => by
    rw [List.cons_prefix_cons] at h
    obtain ⟨rfl, h⟩ := h
    obtain ⟨k, q, h1, h2, h3⟩ := splitChar_cut (c := c) h
    unfold splitChar
    by_cases e : x = c
    · rw [if_pos e, if_pos e]
      exact ⟨k + 1, q, by simp [h1], by simpa using h2, by simpa using h3⟩
    · rw [if_neg e, if_neg e]
      cases hR : splitChar c R with
      | nil => exact absurd hR splitChar_ne_nil
      | cons b bs =>
        rw [hR] at h1 h2 h3
        cases k with
        | zero =>
          refine ⟨0, x :: q, by simp [h1], by simp, by simpa using h3⟩
        | succ k =>
          refine ⟨k + 1, q, by simp [h1], by simpa using h2, by simpa using h3⟩

theorem splitChar_prefix {c : Char} {r R : Chars} (h : r <+: R) : ∀ l ∈ splitChar c r, ∃ L ∈ splitChar c R, l <+: L := by
  obtain ⟨k, q, h1, h2, h3⟩ := splitChar_cut (c := c) h
  intro l hl
  rw [h1] at hl
  rcases List.mem_append.1 hl with hl | hl
  · exact ⟨l, List.mem_of_mem_take hl, List.prefix_refl l⟩
  · rw [List.mem_singleton.1 hl]
    refine ⟨_, ?_, h3⟩
    simp only [List.getD, List.getElem?_eq_getElem h2, Option.getD_some]
    exact List.getElem_mem h2

end Verif
