import Verif.Model.Dtype
import Verif.Lemmas.Cache

/-!
# Assigning to arrays of any type of numbers
-/

set_option autoImplicit false

namespace Verif.Dtype
open Verif Verif.Spec

variable {calls : List Call} {s : Space} {t : Elem}

theorem applyCNode_length {v : Vec} {c : CNode} : (applyCNode t s v c).length = v.length := by
  unfold applyCNode
  split
  · exact length_foldl_set (by intro v x; split <;> simp) _ _
  · exact length_foldl_set (by intro v x; simp) _ _

/-- Entries of hyperparameters that are no children stay. -/
theorem applyCNode_other (h : Reach calls s) {v : Vec} {c : CNode} (hk : ∀ n ∈ c.kids, n ∈ s.names) {m : Name}
    (hm : m ∈ s.names) (hmk : m ∉ c.kids) : (applyCNode t s v c).at (s.idx m) = v.at (s.idx m) := by
  have key : ∀ (f : Vec → Name → Vec), (∀ a n, f a n = a ∨ ∃ e, f a n = a.set (s.idx n) e) → ∀ (l : List Name) (a : Vec),
      (∀ n ∈ l, n ∈ s.names ∧ n ≠ m) → Vec.at (l.foldl f a) (s.idx m) = a.at (s.idx m) := by
    intro f hf l
    induction l with
    | nil => intro a _; rfl
    | cons n l ih =>
      intro a hl
      rw [List.foldl_cons, ih _ (fun k hk => hl k (by simp [hk]))]
      obtain ⟨hn, hne⟩ := hl n (by simp)
      rcases hf a n with e | ⟨e, he⟩
      · rw [e]
      · rw [he, at_set_ne (fun k => hne (idx_inj h hn hm k))]
  have hl : ∀ n ∈ c.kids, n ∈ s.names ∧ n ≠ m := fun n hn => ⟨hk n hn, fun e => hmk (e ▸ hn)⟩
  unfold applyCNode
  split
  · exact key _ (by intro a n; split <;> [exact .inl rfl; exact .inr ⟨_, rfl⟩]) _ _ hl
  · exact key _ (by intro a n; exact .inr ⟨_, rfl⟩) _ _ hl

/-- The loop of `change_hp_value`. -/
def loop (t : Elem) (s : Space) (l : List Nat) (v : Vec) : Vec :=
  l.foldl (fun acc j => match s.minConds[j]? with
    | some c => applyCNode t s acc c
    | none => acc) v

theorem changeHp_eq (v : Vec) (n : Name) (x : Rat) (i : Nat) :
    changeHp t s v n x i = loop t s ((s.lookup.lookup n).getD []) (v.set i (t.keep (some x))) := rfl

theorem loop_length {l : List Nat} {v : Vec} : (loop t s l v).length = v.length := by
  unfold loop
  exact length_foldl_set (by intro v x; split <;> simp [applyCNode_length]) _ _

theorem loop_other (h : Reach calls s) {m : Name} (hm : m ∈ s.names) : ∀ (l : List Nat) (v : Vec),
    (∀ j ∈ l, ¬ KidOf s.minConds j m) → (loop t s l v).at (s.idx m) = v.at (s.idx m) := by
  intro l
  induction l with
  | nil => intro v _; rfl
  | cons j l ih =>
    intro v hl
    have hstep : loop t s (j :: l) v = loop t s l (match s.minConds[j]? with
      | some c => applyCNode t s v c
      | none => v) := rfl
    rw [hstep]
    cases hc : s.minConds[j]? with
    | none => exact ih v (fun i hi => hl i (by simp [hi]))
    | some c =>
      rw [ih _ (fun i hi => hl i (by simp [hi]))]
      exact applyCNode_other h (kids_known h (List.mem_of_getElem? hc)) hm (fun hk => hl j (by simp) ⟨c, hc, hk⟩)

theorem changeHp_length {v : Vec} {n : Name} {x : Rat} {i : Nat} : (changeHp t s v n x i).length = v.length := by
  rw [changeHp_eq, loop_length, List.length_set]

theorem changeHp_at (h : Reach calls s) {v : Vec} (hv : v.length = s.len) {n : Name} (hn : n ∈ s.names) {x : Rat} :
    (changeHp t s v n x (s.idx n)).at (s.idx n) = some (t.num x) := by
  rw [changeHp_eq, loop_other h hn, at_set_eq (by rw [hv]; exact idx_lt h hn)]
  · rfl
  · intro j hj hk
    exact (reach_ninv h).toDInv.acyclic n (lookup_path h hj hk)

/-- What holds of everything that is kept holds of all entries. -/
theorem changeHp_all {P : NV → Prop} (hP : ∀ e, P (t.keep e)) {v : Vec} (hv : ∀ e ∈ v, P e) (n : Name) (x : Rat)
    (i : Nat) : ∀ e ∈ changeHp t s v n x i, P e := by
  have hset : ∀ (a : Vec) (j : Nat) (e : NV), (∀ e ∈ a, P e) → P e → ∀ e' ∈ a.set j e, P e' := by
    intro a j e ha he e' h'
    rcases List.mem_or_eq_of_mem_set h' with h1 | h1
    · exact ha e' h1
    · rw [h1]; exact he
  have hfold : ∀ {β : Type} (f : Vec → β → Vec), (∀ a b, (∀ e ∈ a, P e) → ∀ e ∈ f a b, P e) → ∀ (l : List β) (a : Vec),
      (∀ e ∈ a, P e) → ∀ e ∈ l.foldl f a, P e := by
    intro β f hf l
    induction l with
    | nil => intro a ha; exact ha
    | cons b l ih => intro a ha; rw [List.foldl_cons]; exact ih _ (hf a b ha)
  unfold changeHp
  apply hfold
  · intro a j ha
    split
    · unfold applyCNode
      split
      · apply hfold _ _ _ _ ha
        intro b m hb
        split
        · exact hb
        · exact hset _ _ _ hb (hP _)
      · apply hfold _ _ _ _ ha
        intro b m hb
        exact hset _ _ _ hb (hP _)
    · exact ha
  · exact hset _ _ _ hv (hP _)

theorem setItem_ok {c c' : Config} {n : Name} {w : Val} (hs : setItem t s c n w = (c', none)) :
    ∃ x q, findNode s.dag.nodes n = some x ∧ x.hp.kind.legalValue w = true ∧ x.hp.kind.toVec w = some q ∧
      c'.vec = changeHp t s c.vec n q (s.idx n) ∧ c'.vals = none ∧ s.check c'.vec = none := by
  unfold setItem at hs
  cases hf : findNode s.dag.nodes n with
  | none => simp [hf] at hs
  | some x =>
    simp only [hf] at hs
    by_cases hl : x.hp.kind.legalValue w = true
    · simp only [hl, Bool.not_true, Bool.false_eq_true, if_false] at hs
      cases hq : x.hp.kind.toVec w with
      | none => simp [hq] at hs
      | some q =>
        simp only [hq] at hs
        cases hk : s.check (changeHp t s c.vec n q (s.idx n)) false with
        | some e => simp [hk] at hs
        | none =>
          simp only [hk, Prod.mk.injEq, and_true] at hs
          subst hs
          exact ⟨x, q, rfl, hl, hq, rfl, rfl, hk⟩
    · simp [hl] at hs

theorem setItem_err {c c' : Config} {n : Name} {w : Val} {e : Err} (hs : setItem t s c n w = (c', some e)) :
    c' = c := by
  unfold setItem at hs
  split at hs
  · exact (Prod.mk.inj hs).1.symm
  · split at hs
    · exact (Prod.mk.inj hs).1.symm
    · split at hs
      · exact (Prod.mk.inj hs).1.symm
      · simp only at hs
        split at hs
        · exact (Prod.mk.inj hs).1.symm
        · simp at hs

theorem made_cacheOk (h : Reach calls s) {c : Config} (hc : Made t s c) : CacheOk s c := by
  induction hc with
  | vector _ hc => exact cacheOk_vector hc
  | @set c n w _ ih =>
    cases hs : setItem t s c n w with
    | mk c' e =>
      cases e with
      | some e => rw [setItem_err hs]; exact ih
      | none =>
        obtain ⟨x, q, h1, h2, h3, h4, h5, h6⟩ := setItem_ok hs
        refine ⟨?_, ?_⟩
        · simp only [h4, changeHp_length]; exact ih.len
        · intro m w'; simp [h5]
  | get _ ih => exact cacheOk_get h ih _

/-- What holds of everything that is kept holds of all entries of a configuration. -/
theorem made_all {P : NV → Prop} (hP : ∀ e, P (t.keep e)) {c : Config} (hc : Made t s c) : ∀ e ∈ c.vec, P e := by
  induction hc with
  | @vector v al c hv hc =>
    unfold Config.ofVector at hc
    split at hc
    · cases hc
    · cases hc
      intro e he
      rw [← hv e he]
      exact hP e
  | @set c n w _ ih =>
    cases hs : setItem t s c n w with
    | mk c' e =>
      cases e with
      | some e => rw [setItem_err hs]; exact ih
      | none =>
        obtain ⟨x, q, h1, h2, h3, h4, h5, h6⟩ := setItem_ok hs
        simp only
        rw [h4]
        exact changeHp_all hP ih _ _ _
  | get _ ih => rw [getItem_vec]; exact ih

end Verif.Dtype
