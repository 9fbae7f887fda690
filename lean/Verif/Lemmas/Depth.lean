import Verif.Lemmas.Cycle

/-!
# Nodes, linking and depth propagation
-/

set_option autoImplicit false

namespace Verif
open Verif.Spec

/-! ## Looking up and modifying nodes -/

/-- The names of the nodes, in order. -/
def namesOf (ns : Nodes) : List Name := ns.map Node.name

theorem findNode_some {ns : Nodes} {n : Name} {x : Node} (h : findNode ns n = some x) :
    x ∈ ns ∧ x.name = n := by
  unfold findNode at h
  exact ⟨List.mem_of_find?_eq_some h, by simpa using List.find?_some h⟩

theorem findNode_none {ns : Nodes} {n : Name} : findNode ns n = none ↔ n ∉ namesOf ns := by
  unfold findNode namesOf
  simp [List.find?_eq_none]

theorem findNode_isSome {ns : Nodes} {n : Name} (h : n ∈ namesOf ns) :
    ∃ x, findNode ns n = some x := by
  cases hx : findNode ns n with
  | none => exact absurd h (findNode_none.1 hx)
  | some x => exact ⟨x, rfl⟩

theorem mem_namesOf_of_find {ns : Nodes} {n : Name} {x : Node} (h : findNode ns n = some x) :
    n ∈ namesOf ns := by
  obtain ⟨h1, h2⟩ := findNode_some h
  exact List.mem_map.2 ⟨x, h1, h2⟩

theorem findNode_of_mem {ns : Nodes} (hnd : (namesOf ns).Nodup) {x : Node} (hx : x ∈ ns) :
    findNode ns x.name = some x := by
  induction ns with
  | nil => simp at hx
  | cons y ys ih =>
    simp only [namesOf, List.map_cons, List.nodup_cons] at hnd
    unfold findNode at *
    rcases List.mem_cons.1 hx with rfl | h
    · simp
    · have hne : (y.name == x.name) = false := by
        simp
        intro he
        apply hnd.1
        rw [he]
        exact List.mem_map.2 ⟨x, h, rfl⟩
      rw [List.find?_cons, hne]
      exact ih hnd.2 h

theorem namesOf_modify (ns : Nodes) (n : Name) (f : Node → Node)
    (hf : ∀ x, (f x).name = x.name) : namesOf (modifyNode ns n f) = namesOf ns := by
  unfold namesOf modifyNode
  rw [List.map_map]
  apply List.map_congr_left
  intro x _
  simp only [Function.comp_apply]
  split <;> simp [hf]

theorem findNode_modify (ns : Nodes) (n m : Name) (f : Node → Node)
    (hf : ∀ x, (f x).name = x.name) :
    findNode (modifyNode ns n f) m = if m = n then (findNode ns m).map f else findNode ns m := by
  unfold findNode modifyNode
  induction ns with
  | nil => simp
  | cons y ys ih =>
    simp only [List.map_cons, List.find?_cons]
    by_cases hy : y.name = n
    · simp only [hy, if_true, hf]
      by_cases hm : n = m
      · subst hm
        simp
      · have : (n == m) = false := by simpa using hm
        simp only [this]
        have hm' : m ≠ n := fun h => hm h.symm
        simp only [hm', if_false] at ih ⊢
        exact ih
    · simp only [hy, if_false]
      by_cases hm : y.name = m
      · have hmn : m ≠ n := fun h => hy (hm.trans h)
        simp [hm, hmn]
      · have : (y.name == m) = false := by simpa using hm
        simp only [this]
        exact ih

/-- Two node lists that only differ in depths. -/
def SameShape (ns ns' : Nodes) : Prop :=
  ns.map (fun x => { x with depth := 0 }) = ns'.map (fun x => { x with depth := 0 })

theorem SameShape.refl (ns : Nodes) : SameShape ns ns := rfl

theorem SameShape.trans {a b c : Nodes} (h : SameShape a b) (h' : SameShape b c) :
    SameShape a c := Eq.trans h h'

theorem SameShape.symm {a b : Nodes} (h : SameShape a b) : SameShape b a := Eq.symm h

theorem SameShape.find {a b : Nodes} (h : SameShape a b) (n : Name) :
    (findNode a n).map (fun x => { x with depth := 0 })
      = (findNode b n).map (fun x => { x with depth := 0 }) := by
  have key : ∀ l : Nodes, (findNode l n).map (fun x => { x with depth := 0 })
      = (l.map (fun x : Node => { x with depth := 0 })).find? (fun x => x.name == n) := by
    intro l
    unfold findNode
    rw [List.find?_map]
    rfl
  rw [key, key, h]

theorem SameShape.names {a b : Nodes} (h : SameShape a b) : namesOf a = namesOf b := by
  have key : ∀ l : Nodes, namesOf l
      = (l.map (fun x : Node => { x with depth := 0 })).map Node.name := by
    intro l
    unfold namesOf
    rw [List.map_map]
    rfl
  rw [key, key, h]

theorem SameShape.childNames {a b : Nodes} (h : SameShape a b) (n : Name) :
    childNames a n = childNames b n := by
  have := h.find n
  unfold Verif.childNames
  cases ha : findNode a n <;> cases hb : findNode b n <;> simp [ha, hb] at this ⊢
  exact congrArg (List.map Prod.fst) this.2.1

theorem sameShape_setDepth (ns : Nodes) (n : Name) (d : Nat) :
    SameShape ns (modifyNode ns n (fun x => { x with depth := d })) := by
  unfold SameShape modifyNode
  rw [List.map_map]
  apply List.map_congr_left
  intro x _
  simp only [Function.comp_apply]
  split <;> rfl

theorem depthOf_setDepth (ns : Nodes) (n m : Name) (d : Nat) (hn : n ∈ namesOf ns) :
    depthOf (modifyNode ns n (fun x => { x with depth := d })) m
      = if m = n then d else depthOf ns m := by
  unfold depthOf
  rw [findNode_modify ns n m (fun x => { x with depth := d }) (fun _ => rfl)]
  by_cases h : m = n
  · subst h
    obtain ⟨x, hx⟩ := findNode_isSome hn
    simp [hx]
  · simp [h]

/-! ## Depth propagation -/

/-- Parent → child relation of the nodes. -/
def Edge (ns : Nodes) (p c : Name) : Prop := c ∈ childNames ns p

/-- Name of an existing node. -/
def IsNode (ns : Nodes) (n : Name) : Prop := n ∈ namesOf ns

/-- What a run of depth propagation guarantees, relative to the state before. -/
structure PropPost (ns ns' : Nodes) : Prop where
  shape : SameShape ns ns'
  mono : ∀ m, depthOf ns m ≤ depthOf ns' m
  good : ∀ a b, Edge ns a b → depthOf ns a < depthOf ns' a → depthOf ns' a + 1 ≤ depthOf ns' b
  chain : (∀ m, IsNode ns m → Chain (IsNode ns) (Edge ns) m (depthOf ns m)) →
    ∀ m, IsNode ns m → Chain (IsNode ns) (Edge ns) m (depthOf ns' m)

theorem PropPost.refl (ns : Nodes) : PropPost ns ns :=
  ⟨.refl _, fun _ => Nat.le_refl _, fun _ _ _ h => absurd h (Nat.lt_irrefl _), fun h => h⟩

theorem Edge.congr {a b : Nodes} (h : SameShape a b) : Edge a = Edge b := by
  funext p c
  unfold Edge
  rw [h.childNames]

theorem IsNode.congr {a b : Nodes} (h : SameShape a b) : IsNode a = IsNode b := by
  funext n
  unfold IsNode
  rw [h.names]

theorem PropPost.trans {a b c : Nodes} (h : PropPost a b) (h' : PropPost b c) : PropPost a c := by
  refine ⟨h.shape.trans h'.shape, fun m => Nat.le_trans (h.mono m) (h'.mono m), ?_, ?_⟩
  · intro x y hxy hlt
    by_cases hx : depthOf b x < depthOf c x
    · exact h'.good x y (by rw [← Edge.congr h.shape]; exact hxy) hx
    · have h1 := h'.mono x
      have h2 := h'.mono y
      have h3 := h.good x y hxy (by omega)
      omega
  · intro hc m hm
    have := h'.chain
    rw [← Edge.congr h.shape, ← IsNode.congr h.shape] at this
    exact this (h.chain hc) m hm

theorem propDepth_post (r : Name → Nat) :
    ∀ k ns n d, IsNode ns n → (∀ x c, Edge ns x c → IsNode ns c) →
      (∀ x c, Edge ns x c → r c < r x) → r n < k →
      (∀ m, IsNode ns m → Chain (IsNode ns) (Edge ns) m (depthOf ns m)) →
      Chain (IsNode ns) (Edge ns) n d →
      PropPost ns (propDepth k ns n d) ∧ d ≤ depthOf (propDepth k ns n d) n := by
  intro k
  induction k with
  | zero => intro ns n d _ _ _ h; omega
  | succ k ih =>
    intro ns n d hn hE hr hk hch hd
    unfold propDepth
    by_cases hle : d ≤ depthOf ns n
    · rw [if_pos hle]
      exact ⟨.refl _, hle⟩
    · rw [if_neg hle]
      -- the fold over a list of children
      have hfold : ∀ (cs : List Name) (acc : Nodes), SameShape ns acc → (∀ c ∈ cs, Edge ns n c) →
          (∀ m, IsNode ns m → Chain (IsNode ns) (Edge ns) m (depthOf acc m)) →
          PropPost acc (cs.foldl (fun acc c => propDepth k acc c (d + 1)) acc) ∧
          ∀ c ∈ cs, d + 1 ≤ depthOf (cs.foldl (fun acc c => propDepth k acc c (d + 1)) acc) c := by
        intro cs
        induction cs with
        | nil => intro acc _ _ _; exact ⟨.refl _, by simp⟩
        | cons c cs ihc =>
          intro acc hsh hcs hchain
          simp only [List.foldl_cons]
          have hEc : Edge ns n c := hcs c (by simp)
          have hsE := Edge.congr hsh
          have hsV := IsNode.congr hsh
          have h1 := ih acc c (d + 1) (by rw [← hsV]; exact hE n c hEc)
            (by rw [← hsE, ← hsV]; exact hE) (by rw [← hsE]; exact hr)
            (by have := hr n c hEc; omega)
            (by rw [← hsE, ← hsV]; exact hchain)
            (by rw [← hsE, ← hsV]; exact .snoc hd hEc (hE n c hEc))
          have hsh1 : SameShape ns (propDepth k acc c (d + 1)) := hsh.trans h1.1.shape
          have hch1 : ∀ m, IsNode ns m →
              Chain (IsNode ns) (Edge ns) m (depthOf (propDepth k acc c (d + 1)) m) := by
            have := h1.1.chain
            rw [← hsE, ← hsV] at this
            exact this hchain
          have h2 := ihc (propDepth k acc c (d + 1)) hsh1 (fun x hx => hcs x (by simp [hx])) hch1
          refine ⟨h1.1.trans h2.1, ?_⟩
          intro x hx
          rcases List.mem_cons.1 hx with rfl | hx
          · exact Nat.le_trans h1.2 (h2.1.mono x)
          · exact h2.2 x hx
      have hsh := sameShape_setDepth ns n d
      have hdep := fun m => depthOf_setDepth ns n m d hn
      have hch1 : ∀ m, IsNode ns m → Chain (IsNode ns) (Edge ns) m
          (depthOf (modifyNode ns n (fun x => { x with depth := d })) m) := by
        intro m hm
        rw [hdep]
        by_cases h : m = n
        · simp [h, hd]
        · simp [h, hch m hm]
      obtain ⟨hp, hc⟩ := hfold (childNames ns n) _ hsh (fun c hc => hc) hch1
      generalize hres : (childNames ns n).foldl (fun acc c => propDepth k acc c (d + 1))
        (modifyNode ns n (fun x => { x with depth := d })) = res at hp hc ⊢
      have hmono : ∀ m, depthOf ns m ≤ depthOf res m := by
        intro m
        have h1 := hp.mono m
        rw [hdep] at h1
        by_cases h : m = n
        · subst h; simp at h1; omega
        · simpa [h] using h1
      have hdn : d ≤ depthOf res n := by
        have h1 := hp.mono n
        rw [hdep] at h1
        simpa using h1
      refine ⟨⟨hsh.trans hp.shape, hmono, ?_, ?_⟩, hdn⟩
      · intro a b hab hlt
        by_cases h : depthOf (modifyNode ns n (fun x => { x with depth := d })) a < depthOf res a
        · exact hp.good a b (by rw [← Edge.congr hsh]; exact hab) h
        · have h1 := hp.mono a
          rw [hdep] at h h1
          by_cases han : a = n
          · subst han
            simp at h h1
            have h2 := hc b hab
            have : depthOf res a = d := by omega
            omega
          · simp [han] at h h1
            omega
      · intro _ m hm
        have := hp.chain
        rw [← Edge.congr hsh, ← IsNode.congr hsh] at this
        exact this hch1 m hm

end Verif
