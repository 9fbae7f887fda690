import Verif.Model.PyParse
import Mathlib.Data.List.TakeWhile

/-!
# Lemmas about the parser combinators
-/

set_option autoImplicit false

namespace Verif

/-- The rest of the text does not go on with such a character. -/
def Ends (p : Char → Bool) (r : Chars) : Prop := ∀ c, r.head? = some c → p c = false

theorem ends_nil (p : Char → Bool) : Ends p [] := by simp [Ends]

theorem ends_cons {p : Char → Bool} {c : Char} {r : Chars} (h : p c = false) : Ends p (c :: r) := by
  simp [Ends, h]

theorem skipWs_of {cs : Chars} (h : Ends isWs cs) : skipWs cs = cs := by
  cases cs with
  | nil => rfl
  | cons c cs => simp [skipWs, h c rfl]

theorem skipWs_space (cs : Chars) : skipWs (' ' :: cs) = skipWs cs := by
  simp [skipWs, isWs]

theorem takeWhile_word {p : Char → Bool} : ∀ {w : Chars} {r : Chars}, (∀ c ∈ w, p c = true) → Ends p r →
    (w ++ r).takeWhile p = w
  | [], [], _, _ => rfl
  | [], c :: r, _, h => by simp [h c rfl]
  | x :: w, r, hw, h => by
    simp only [List.cons_append, List.takeWhile_cons, hw x (by simp), if_true]
    rw [takeWhile_word (fun c hc => hw c (by simp [hc])) h]

theorem dropWhile_word {p : Char → Bool} : ∀ {w : Chars} {r : Chars}, (∀ c ∈ w, p c = true) → Ends p r →
    (w ++ r).dropWhile p = r
  | [], [], _, _ => rfl
  | [], c :: r, _, h => by simp [h c rfl]
  | x :: w, r, hw, h => by
    simp only [List.cons_append, List.dropWhile_cons, hw x (by simp), if_true]
    exact dropWhile_word (fun c hc => hw c (by simp [hc])) h

theorem rWord_ok {p : Char → Bool} {w r : Chars} (hn : w ≠ []) (hw : ∀ c ∈ w, p c = true) (h : Ends p r) :
    rWord p (w ++ r) = some (w, r) := by
  unfold rWord
  rw [takeWhile_word hw h, dropWhile_word hw h]
  simp [hn]

theorem rWord_none {p : Char → Bool} {r : Chars} (h : Ends p r) : rWord p r = none := by
  cases r with
  | nil => rfl
  | cons c r => simp [rWord, h c rfl]

theorem rLit_ok : ∀ (t r : Chars), rLit t (t ++ r) = some (t, r)
  | [], r => by simp [rLit]
  | c :: t, r => by simp [rLit, rLit_ok t r]

theorem rLit_none {c : Char} {t r : Chars} (h : r.head? ≠ some c) : rLit (c :: t) r = none := by
  cases r with
  | nil => rfl
  | cons x r =>
    have : c ≠ x := fun e => h (by simp [e])
    simp [rLit, this]

theorem tok_space (p : Chars → Option (Chars × Chars)) (cs : Chars) : tok p (' ' :: cs) = tok p cs := by
  unfold tok
  rw [skipWs_space]

theorem tok_ok {p : Chars → Option (Chars × Chars)} {cs t r : Chars} (hs : Ends isWs cs) (h : p cs = some (t, r)) :
    tok p cs = some ([t], r) := by
  unfold tok
  rw [skipWs_of hs, h]

theorem tok_none {p : Chars → Option (Chars × Chars)} {cs : Chars} (hs : Ends isWs cs) (h : p cs = none) :
    tok p cs = none := by
  unfold tok
  rw [skipWs_of hs, h]

theorem ends_append {p : Char → Bool} {w r : Chars} (hn : w ≠ []) (h : ∀ c ∈ w, p c = false) : Ends p (w ++ r) := by
  cases w with
  | nil => exact absurd rfl hn
  | cons x w => exact ends_cons (h x (by simp))

theorem pWord_ok {p : Char → Bool} {w r : Chars} (hn : w ≠ []) (hw : ∀ c ∈ w, p c = true) (hs : ∀ c ∈ w, isWs c = false)
    (h : Ends p r) : pWord p (w ++ r) = some ([w], r) :=
  tok_ok (ends_append hn hs) (rWord_ok hn hw h)

theorem pLit_ok {t : String} {r : Chars} (hn : t.toList ≠ []) (hs : ∀ c ∈ t.toList, isWs c = false) :
    pLit t (t.toList ++ r) = some ([t.toList], r) :=
  tok_ok (ends_append hn hs) (rLit_ok _ _)

theorem pSeq_step {p : Parser} {ps : List Parser} {cs r : Chars} {ts : List Chars} (h : p cs = some (ts, r)) :
    pSeq (p :: ps) cs = (pSeq ps r).map (fun x => (ts ++ x.1, x.2)) := by
  simp only [pSeq, h]
  cases pSeq ps r <;> rfl

theorem pSeq_fail {p : Parser} {ps : List Parser} {cs : Chars} (h : p cs = none) : pSeq (p :: ps) cs = none := by
  simp only [pSeq, h]

theorem pSeq_nil (cs : Chars) : pSeq [] cs = some ([], cs) := rfl

theorem pManyN_ok {α : Type} {p : Parser} {txt : α → Chars} {tks : α → List Chars} {G : Chars → Prop} {rest : Chars}
    (hr : G rest) (hend : p rest = none) : ∀ (l : List α), (∀ x ∈ l, ∀ r, G r → p (txt x ++ r) = some (tks x, r)) →
    (∀ x ∈ l, ∀ r, G (txt x ++ r)) → ∀ (k : Nat), l.length ≤ k →
    pManyN p k (l.flatMap txt ++ rest) = some (l.flatMap tks, rest)
  | [], _, _, 0, _ => rfl
  | [], _, _, k + 1, _ => by simp [pManyN, hend]
  | x :: l, _, _, 0, h => by simp at h
  | x :: l, hp, hG, k + 1, h => by
    have hg : G (l.flatMap txt ++ rest) := by
      cases l with
      | nil => exact hr
      | cons y l => simp only [List.flatMap_cons, List.append_assoc]; exact hG y (by simp) _
    simp only [List.flatMap_cons, List.append_assoc, pManyN]
    rw [hp x (by simp) _ hg]
    simp only
    rw [pManyN_ok hr hend l (fun y hy => hp y (by simp [hy])) (fun y hy => hG y (by simp [hy])) k (by simpa using h)]

theorem pMany_ok {α : Type} {p : Parser} {txt : α → Chars} {tks : α → List Chars} {G : Chars → Prop} {rest : Chars}
    (hr : G rest) (hend : p rest = none) (l : List α) (hp : ∀ x ∈ l, ∀ r, G r → p (txt x ++ r) = some (tks x, r))
    (hG : ∀ x ∈ l, ∀ r, G (txt x ++ r)) (hne : ∀ x ∈ l, txt x ≠ []) :
    pMany p (l.flatMap txt ++ rest) = some (l.flatMap tks, rest) := by
  refine pManyN_ok hr hend l hp hG _ ?_
  rw [List.length_append]
  have : l.length ≤ (l.flatMap txt).length := by
    clear hp hG
    induction l with
    | nil => simp
    | cons x l ih =>
      have := List.length_pos_iff.2 (hne x (by simp))
      have := ih (fun y hy => hne y (by simp [hy]))
      simp only [List.length_cons, List.flatMap_cons, List.length_append]
      omega
  omega

theorem joinWith_cons (sep : Chars) (w : Chars) (ws : List Chars) :
    joinWith sep (w :: ws) = w ++ ws.flatMap (fun x => sep ++ x) := by
  induction ws generalizing w with
  | nil => simp [joinWith]
  | cons x ws ih => simp [joinWith, ih x]

end Verif
