import Verif.Model.Alias
import Mathlib.Data.List.Forall2
import Mathlib.Order.Basic
import Mathlib.Order.Nat

/-!
# Lemmas about copying and renaming objects
-/

set_option autoImplicit false

namespace Verif

/-! ## Trees -/

variable {α β γ : Type}

theorem Tree.induct {motive : Tree α → Prop} (hl : ∀ x, motive (.leaf x))
    (hn : ∀ k ts, (∀ t ∈ ts, motive t) → motive (.node k ts)) : ∀ t, motive t
  | .leaf x => hl x
  | .node k ts => hn k ts (go ts)
where
  go : ∀ ts : List (Tree α), ∀ t ∈ ts, motive t
    | [], _, h => by cases h
    | u :: us, t, h => by
      cases h with
      | head => exact Tree.induct hl hn u
      | tail _ h' => exact go us t h'

mutual
/-- Same shape, and the literals are related. -/
def Tree.Rel (P : α → β → Prop) : Tree α → Tree β → Prop
  | .leaf x, .leaf y => P x y
  | .node k ts, .node k' us => k = k' ∧ Tree.RelL P ts us
  | .leaf _, .node _ _ => False
  | .node _ _, .leaf _ => False
def Tree.RelL (P : α → β → Prop) : List (Tree α) → List (Tree β) → Prop
  | [], [] => True
  | t :: ts, u :: us => t.Rel P u ∧ Tree.RelL P ts us
  | [], _ :: _ => False
  | _ :: _, [] => False
end

theorem Tree.relL_iff {P : α → β → Prop} : ∀ {ts : List (Tree α)} {us : List (Tree β)},
    Tree.RelL P ts us ↔ List.Forall₂ (Tree.Rel P) ts us
  | [], [] => by simp [Tree.RelL]
  | t :: ts, u :: us => by simp [Tree.RelL, Tree.relL_iff (ts := ts) (us := us)]
  | [], _ :: _ => by simp [Tree.RelL]
  | _ :: _, [] => by simp [Tree.RelL]

theorem Tree.mem_leavesL {ts : List (Tree α)} {x : α} : x ∈ Tree.leavesL ts ↔ ∃ t ∈ ts, x ∈ t.leaves := by
  induction ts with
  | nil => simp [Tree.leavesL]
  | cons t ts ih => simp [Tree.leavesL, ih]

theorem Tree.Rel.imp {P Q : α → β → Prop} (t : Tree α) : ∀ {u : Tree β},
    (∀ x ∈ t.leaves, ∀ y ∈ u.leaves, P x y → Q x y) → t.Rel P u → t.Rel Q u := by
  induction t using Tree.induct with
  | hl x =>
    intro u h hr
    cases u with
    | leaf y => exact h x (by simp [Tree.leaves]) y (by simp [Tree.leaves]) hr
    | node k us => exact hr
  | hn k ts ih =>
    intro u h hr
    cases u with
    | leaf y => exact hr
    | node k' us =>
      simp only [Tree.Rel, Tree.relL_iff] at hr ⊢
      refine ⟨hr.1, ?_⟩
      replace hr := hr.2
      simp only [Tree.leaves] at h
      induction hr with
      | nil => exact .nil
      | @cons t u ts us h1 h2 ih2 =>
        refine .cons (ih t (by simp) (fun x hx y hy => h x (Tree.mem_leavesL.2 ⟨t, by simp, hx⟩) y
          (Tree.mem_leavesL.2 ⟨u, by simp, hy⟩)) h1) (ih2 (fun t ht => ih t (by simp [ht])) ?_)
        intro x hx y hy
        obtain ⟨t', ht', hx⟩ := Tree.mem_leavesL.1 hx
        obtain ⟨u', hu', hy⟩ := Tree.mem_leavesL.1 hy
        exact h x (Tree.mem_leavesL.2 ⟨t', by simp [ht'], hx⟩) y (Tree.mem_leavesL.2 ⟨u', by simp [hu'], hy⟩)

theorem Tree.Rel.leaf_of {P : α → β → Prop} (t : Tree α) : ∀ {u : Tree β}, t.Rel P u → ∀ y ∈ u.leaves,
    ∃ x ∈ t.leaves, P x y := by
  induction t using Tree.induct with
  | hl x =>
    intro u hr y hy
    cases u with
    | leaf z =>
      simp only [Tree.leaves, List.mem_cons, List.not_mem_nil, or_false] at hy
      subst hy
      exact ⟨x, by simp [Tree.leaves], hr⟩
    | node k us => exact hr.elim
  | hn k ts ih =>
    intro u hr y hy
    cases u with
    | leaf z => exact hr.elim
    | node k' us =>
      simp only [Tree.Rel, Tree.relL_iff] at hr
      have hr := hr.2
      obtain ⟨u, hu, hy⟩ := Tree.mem_leavesL.1 (by simpa [Tree.leaves] using hy)
      obtain ⟨i, hi⟩ := List.mem_iff_getElem?.1 hu
      have hlen := hr.length_eq
      have hi' : i < ts.length := by
        have := (List.getElem?_eq_some_iff.1 hi).1
        omega
      have h1 := hr.get hi' (by omega)
      simp only [List.get_eq_getElem] at h1
      have h2 : us[i]'(by omega) = u := (List.getElem?_eq_some_iff.1 hi).2
      rw [h2] at h1
      obtain ⟨x, hx, hp⟩ := ih ts[i] (List.getElem_mem hi') h1 y hy
      exact ⟨x, by rw [Tree.leaves]; exact Tree.mem_leavesL.2 ⟨_, List.getElem_mem hi', hx⟩, hp⟩

theorem Tree.Rel.leaf_to {P : α → β → Prop} (t : Tree α) : ∀ {u : Tree β}, t.Rel P u → ∀ x ∈ t.leaves,
    ∃ y ∈ u.leaves, P x y := by
  induction t using Tree.induct with
  | hl x =>
    intro u hr y hy
    cases u with
    | leaf z =>
      simp only [Tree.leaves, List.mem_cons, List.not_mem_nil, or_false] at hy
      subst hy
      exact ⟨z, by simp [Tree.leaves], hr⟩
    | node k us => exact hr.elim
  | hn k ts ih =>
    intro u hr x hx
    cases u with
    | leaf z => exact hr.elim
    | node k' us =>
      simp only [Tree.Rel, Tree.relL_iff] at hr
      have hr := hr.2
      obtain ⟨t, ht, hx⟩ := Tree.mem_leavesL.1 (by simpa [Tree.leaves] using hx)
      obtain ⟨i, hi⟩ := List.mem_iff_getElem?.1 ht
      have hlen := hr.length_eq
      have hi' : i < ts.length := (List.getElem?_eq_some_iff.1 hi).1
      have h1 := hr.get hi' (by omega)
      simp only [List.get_eq_getElem] at h1
      have h2 : ts[i] = t := (List.getElem?_eq_some_iff.1 hi).2
      rw [h2] at h1
      obtain ⟨y, hy, hp⟩ := ih t ht h1 x hx
      exact ⟨y, by rw [Tree.leaves]; exact Tree.mem_leavesL.2 ⟨_, List.getElem_mem (by omega), hy⟩, hp⟩

/-! ## Heaps -/

/-- Objects were added, and the old ones are as before. -/
def Heap.Grow (h h' : Heap) : Prop := h.next ≤ h'.next ∧ ∀ i, i < h.next → h'.get i = h.get i

theorem Heap.Grow.refl (h : Heap) : h.Grow h := ⟨le_refl _, fun _ _ => rfl⟩
theorem Heap.Grow.trans {h1 h2 h3 : Heap} (a : h1.Grow h2) (b : h2.Grow h3) : h1.Grow h3 :=
  ⟨le_trans a.1 b.1, fun i hi => (b.2 i (lt_of_lt_of_le hi a.1)).trans (a.2 i hi)⟩

theorem Heap.grow_copy (h : Heap) (o : Nat) : h.Grow (h.copy o).1 := by
  refine ⟨Nat.le_succ _, fun i hi => ?_⟩
  simp only [Heap.copy]
  rw [if_neg (Nat.ne_of_lt hi)]

theorem Heap.copy_get (h : Heap) (o : Nat) : (h.copy o).1.get (h.copy o).2 = h.get o := by simp [Heap.copy]

theorem rename_rename {f : Name → Name} (hf : ∀ n, f (f n) = f n) (x : HP) : (x.rename f).rename f = x.rename f := by
  simp [HP.rename, hf]

theorem Heap.renameAll_next {f : Name → Name} (os : List Nat) : ∀ h : Heap, (h.renameAll f os).next = h.next := by
  induction os with
  | nil => intro h; rfl
  | cons o os ih =>
    intro h
    show (Heap.renameAll f (h.rename f o) os).next = _
    rw [ih]; rfl

theorem Heap.renameAll_get {f : Name → Name} (hf : ∀ n, f (f n) = f n) (os : List Nat) : ∀ (h : Heap) (i : Nat),
    (h.renameAll f os).get i = if i ∈ os then (h.get i).rename f else h.get i := by
  induction os with
  | nil => intro h i; simp [Heap.renameAll]
  | cons o os ih =>
    intro h i
    show (Heap.renameAll f (h.rename f o) os).get i = _
    rw [ih]
    by_cases hio : i = o
    · subst hio
      by_cases hi : i ∈ os
      · simp [Heap.rename, hi, rename_rename hf]
      · simp [Heap.rename, hi]
    · by_cases hi : i ∈ os
      · simp [Heap.rename, hi, hio]
      · simp [Heap.rename, hi, hio]

/-- The copying phase, over a tree. -/
theorem mapAcc_rel {g : Heap → α → Heap × β} {hs : Heap} {P : Heap → α → β → Prop}
    (stable : ∀ h h' x y, h.Grow h' → P h x y → P h' x y) (t : Tree α) :
    ∀ h, (∀ x ∈ t.leaves, ∀ h, hs.Grow h → h.Grow (g h x).1 ∧ P (g h x).1 x (g h x).2) → hs.Grow h →
      h.Grow (t.mapAcc g h).1 ∧ t.Rel (P (t.mapAcc g h).1) (t.mapAcc g h).2 := by
  induction t using Tree.induct with
  | hl x =>
    intro h step hh
    exact step x (by simp [Tree.leaves]) h hh
  | hn k ts ih =>
    intro h step hh
    simp only [Tree.mapAcc, Tree.Rel, true_and, Tree.relL_iff]
    have step' : ∀ t ∈ ts, ∀ x ∈ t.leaves, ∀ h, hs.Grow h → h.Grow (g h x).1 ∧ P (g h x).1 x (g h x).2 :=
      fun t ht x hx => step x (by rw [Tree.leaves]; exact Tree.mem_leavesL.2 ⟨t, ht, hx⟩)
    clear step
    induction ts generalizing h with
    | nil => exact ⟨.refl h, .nil⟩
    | cons t ts ih2 =>
      simp only [Tree.mapAccL]
      obtain ⟨a1, a2⟩ := ih t (by simp) h (step' t (by simp)) hh
      obtain ⟨b1, b2⟩ := ih2 (fun t ht => ih t (by simp [ht])) _ (hh.trans a1) (fun t ht => step' t (by simp [ht]))
      exact ⟨a1.trans b1, .cons (Tree.Rel.imp t (fun x _ y _ hp => stable _ _ x y b1 hp) a2) b2⟩

/-- Fresh objects of earlier steps are not touched again. -/
def Heap.Ext (n : Nat) (h h' : Heap) : Prop := h.next ≤ h'.next ∧ ∀ i, n ≤ i → i < h.next → h'.get i = h.get i

theorem Heap.Ext.refl (n : Nat) (h : Heap) : h.Ext n h := ⟨le_refl _, fun _ _ _ => rfl⟩
theorem Heap.Ext.trans {n : Nat} {h1 h2 h3 : Heap} (a : h1.Ext n h2) (b : h2.Ext n h3) : h1.Ext n h3 :=
  ⟨le_trans a.1 b.1, fun i hn hi => (b.2 i hn (lt_of_lt_of_le hi a.1)).trans (a.2 i hn hi)⟩

/-- A loop; `done` is what has been processed. -/
theorem loop_rel {g : Heap → α → Heap × β} {n : Nat} {Inv : List α → Heap → Prop}
    {P : List α → Heap → α → β → Prop}
    (stable : ∀ done more h h' x y, h.Ext n h' → P done h x y → P (done ++ more) h' x y) (xs : List α) :
    ∀ done h, (∀ x ∈ xs, ∀ done h, Inv done h → Inv (done ++ [x]) (g h x).1 ∧ h.Ext n (g h x).1 ∧
        P (done ++ [x]) (g h x).1 x (g h x).2) → Inv done h →
      Inv (done ++ xs) (loop g h xs).1 ∧ h.Ext n (loop g h xs).1 ∧
        List.Forall₂ (P (done ++ xs) (loop g h xs).1) xs (loop g h xs).2 := by
  induction xs with
  | nil => intro done h _ hi; exact ⟨by rw [List.append_nil]; exact hi, .refl n h, .nil⟩
  | cons x xs ih =>
    intro done h step hi
    obtain ⟨a1, a2, a3⟩ := step x (by simp) done h hi
    obtain ⟨b1, b2, b3⟩ := ih (done ++ [x]) (g h x).1 (fun y hy => step y (by simp [hy])) a1
    simp only [List.append_assoc, List.singleton_append] at b1 b3
    refine ⟨b1, a2.trans b2, .cons ?_ b3⟩
    have := stable (done ++ [x]) xs _ _ _ _ b2 a3
    simp only [List.append_assoc, List.singleton_append] at this
    exact this

end Verif
