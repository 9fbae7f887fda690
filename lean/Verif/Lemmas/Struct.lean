import Verif.Lemmas.Depth
import Verif.Model.Space

/-!
# Structure of the node graph: effect of linking, invariants of `add_condition`
-/

set_option autoImplicit false

namespace Verif
open Verif.Spec

/-! ## Dictionaries -/

theorem dictSet_lookup {β : Type} (d : List (Name × β)) (k k' : Name) (v : β) :
    (dictSet d k v).lookup k' = if k' = k then some v else d.lookup k' := by
  induction d with
  | nil =>
    by_cases h : k' = k
    · simp [dictSet, h]
    · have : (k' == k) = false := by simpa using h
      simp [dictSet, List.lookup, h, this]
  | cons e d ih =>
    obtain ⟨k0, v0⟩ := e
    by_cases h0 : k0 = k
    · subst h0
      simp only [dictSet, if_true]
      by_cases h : k' = k0
      · simp [h]
      · have : (k' == k0) = false := by simpa using h
        simp [List.lookup_cons, h, this]
    · simp only [dictSet, h0, if_false]
      by_cases h : k' = k0
      · subst h
        simp [h0]
      · have : (k' == k0) = false := by simpa using h
        simp only [List.lookup_cons, this]
        exact ih

theorem dictSet_keys {β : Type} (d : List (Name × β)) (k : Name) (v : β) :
    (dictSet d k v).map Prod.fst
      = if k ∈ d.map Prod.fst then d.map Prod.fst else d.map Prod.fst ++ [k] := by
  induction d with
  | nil => simp [dictSet]
  | cons e d ih =>
    obtain ⟨k0, v0⟩ := e
    by_cases h0 : k0 = k
    · simp [dictSet, h0]
    · have h0' : k ≠ k0 := fun h => h0 h.symm
      simp only [dictSet, h0, if_false, List.map_cons, ih, List.mem_cons, h0', false_or]
      split <;> simp

theorem dictSet_nodup {β : Type} {d : List (Name × β)} {k : Name} {v : β}
    (h : (d.map Prod.fst).Nodup) : ((dictSet d k v).map Prod.fst).Nodup := by
  rw [dictSet_keys]
  split
  · exact h
  · rename_i hk
    rw [List.nodup_append]
    refine ⟨h, by simp, ?_⟩
    intro a ha b hb
    simp at hb
    subst hb
    intro hab
    exact hk (hab ▸ ha)

theorem lookup_isSome_iff {β : Type} {d : List (Name × β)} {k : Name} :
    (d.lookup k).isSome = true ↔ k ∈ d.map Prod.fst := by
  induction d with
  | nil => simp
  | cons e d ih =>
    obtain ⟨k0, v0⟩ := e
    by_cases h : k = k0
    · simp [h]
    · have : (k == k0) = false := by simpa using h
      simp only [List.lookup_cons, this, List.map_cons, List.mem_cons, h, false_or]
      exact ih

theorem lookup_of_mem {β : Type} {d : List (Name × β)} (hnd : (d.map Prod.fst).Nodup)
    {k : Name} {v : β} (h : (k, v) ∈ d) : d.lookup k = some v := by
  induction d with
  | nil => simp at h
  | cons e d ih =>
    obtain ⟨k0, v0⟩ := e
    simp only [List.map_cons, List.nodup_cons] at hnd
    rcases List.mem_cons.1 h with h | h
    · cases h; simp
    · have hne : k ≠ k0 := by
        intro he
        exact hnd.1 (he ▸ List.mem_map.2 ⟨(k, v), h, rfl⟩)
      have : (k == k0) = false := by simpa using hne
      simp only [List.lookup_cons, this]
      exact ih hnd.2 h

theorem mem_of_lookup {β : Type} {d : List (Name × β)} {k : Name} {v : β}
    (h : d.lookup k = some v) : (k, v) ∈ d := by
  induction d with
  | nil => simp at h
  | cons e d ih =>
    obtain ⟨k0, v0⟩ := e
    by_cases hk : k = k0
    · subst hk
      simp at h
      simp [h]
    · have : (k == k0) = false := by simpa using hk
      simp only [List.lookup_cons, this] at h
      exact List.mem_cons_of_mem _ (ih h)

/-! ## Sorting -/

theorem insBy_perm {α : Type} (le : α → α → Bool) (x : α) (l : List α) :
    (insBy le x l).Perm (x :: l) := by
  induction l with
  | nil => exact .refl _
  | cons y ys ih =>
    unfold insBy
    split
    · exact .refl _
    · exact (ih.cons y).trans (.swap x y ys)

theorem sortBy_perm {α : Type} (le : α → α → Bool) (l : List α) : (sortBy le l).Perm l := by
  induction l with
  | nil => exact .refl _
  | cons x xs ih => exact (insBy_perm le x _).trans (ih.cons x)

theorem mem_sortBy {α : Type} {le : α → α → Bool} {l : List α} {x : α} :
    x ∈ sortBy le l ↔ x ∈ l := (sortBy_perm le l).mem_iff

theorem insBy_pairwise {α : Type} {le : α → α → Bool}
    (htot : ∀ a b, le a b = true ∨ le b a = true)
    (htr : ∀ a b c, le a b = true → le b c = true → le a c = true) (x : α) (l : List α)
    (h : l.Pairwise (fun a b => le a b = true)) :
    (insBy le x l).Pairwise (fun a b => le a b = true) := by
  induction l with
  | nil => simp [insBy]
  | cons y ys ih =>
    unfold insBy
    have h' := List.pairwise_cons.1 h
    split
    · rename_i hxy
      refine List.pairwise_cons.2 ⟨?_, h⟩
      intro z hz
      rcases List.mem_cons.1 hz with rfl | hz
      · exact hxy
      · exact htr _ _ _ hxy (h'.1 z hz)
    · rename_i hxy
      refine List.pairwise_cons.2 ⟨?_, ih h'.2⟩
      intro z hz
      rcases List.mem_cons.1 ((insBy_perm le x ys).mem_iff.1 hz) with rfl | hz
      · rcases htot z y with h1 | h1
        · exact absurd h1 hxy
        · exact h1
      · exact h'.1 z hz

theorem sortBy_pairwise {α : Type} {le : α → α → Bool}
    (htot : ∀ a b, le a b = true ∨ le b a = true)
    (htr : ∀ a b c, le a b = true → le b c = true → le a c = true) (l : List α) :
    (sortBy le l).Pairwise (fun a b => le a b = true) := by
  induction l with
  | nil => simp [sortBy]
  | cons x xs ih => exact insBy_pairwise htot htr x _ ih

theorem keyLe_total (a b : Nat × Name) : keyLe a b = true ∨ keyLe b a = true := by
  unfold keyLe
  rcases Nat.lt_trichotomy a.1 b.1 with h | h | h
  · left; simp [h]
  · rcases String.le_total a.2 b.2 with h' | h'
    · left; simp [h, h']
    · right; simp [h, h']
  · right; simp [h]

theorem keyLe_trans (a b c : Nat × Name) (h1 : keyLe a b = true) (h2 : keyLe b c = true) :
    keyLe a c = true := by
  unfold keyLe at *
  simp only [Bool.or_eq_true, Bool.and_eq_true, decide_eq_true_eq] at *
  rcases h1 with h1 | ⟨h1, h1'⟩ <;> rcases h2 with h2 | ⟨h2, h2'⟩
  · left; omega
  · left; omega
  · left; omega
  · right; exact ⟨h1.trans h2, String.le_trans h1' h2'⟩

theorem keyLe_antisymm (a b : Nat × Name) (h1 : keyLe a b = true) (h2 : keyLe b a = true) :
    a = b := by
  unfold keyLe at *
  simp only [Bool.or_eq_true, Bool.and_eq_true, decide_eq_true_eq] at *
  rcases h1 with h1 | ⟨h1, h1'⟩ <;> rcases h2 with h2 | ⟨h2, h2'⟩
  · omega
  · omega
  · omega
  · exact Prod.ext h1 (String.le_antisymm h1' h2')

/-! ## The three maps that describe the graph -/

/-- Condition of a node. -/
def condAt (ns : Nodes) (n : Name) : Option Cond := (findNode ns n).bind Node.cond
/-- Condition stored in the children dictionary of `p` under `ch`. -/
def childAt (ns : Nodes) (p ch : Name) : Option Cond :=
  (findNode ns p).bind (fun x => x.children.lookup ch)
/-- Condition stored in the parents dictionary of `n` under `p`. -/
def parentAt (ns : Nodes) (n p : Name) : Option Cond :=
  (findNode ns n).bind (fun x => x.parents.lookup p)
/-- Hyperparameter of a node. -/
def hpAt (ns : Nodes) (n : Name) : Option HP := (findNode ns n).map Node.hp

/-- Dictionaries have distinct keys. -/
def KeysOk (ns : Nodes) : Prop :=
  ∀ x ∈ ns, (x.children.map Prod.fst).Nodup ∧ (x.parents.map Prod.fst).Nodup

theorem edge_iff_childAt {ns : Nodes} {p ch : Name} :
    Edge ns p ch ↔ (childAt ns p ch).isSome = true := by
  unfold Edge childNames childAt
  cases findNode ns p with
  | none => simp
  | some x => simp only [Option.bind_some]; exact lookup_isSome_iff.symm

/-- Same graph: names, hyperparameters, conditions, dictionaries (as maps), and distinct keys. -/
structure SameGraph (ns ns' : Nodes) : Prop where
  names : namesOf ns' = namesOf ns
  hp : ∀ n, hpAt ns' n = hpAt ns n
  cond : ∀ n, condAt ns' n = condAt ns n
  child : ∀ p ch, childAt ns' p ch = childAt ns p ch
  parent : ∀ n p, parentAt ns' n p = parentAt ns n p
  keys : KeysOk ns → KeysOk ns'

theorem SameGraph.refl (ns : Nodes) : SameGraph ns ns :=
  ⟨rfl, fun _ => rfl, fun _ => rfl, fun _ _ => rfl, fun _ _ => rfl, fun h => h⟩

theorem SameGraph.trans {a b c : Nodes} (h : SameGraph a b) (h' : SameGraph b c) :
    SameGraph a c :=
  ⟨h'.names.trans h.names, fun n => (h'.hp n).trans (h.hp n), fun n => (h'.cond n).trans (h.cond n),
   fun p q => (h'.child p q).trans (h.child p q), fun p q => (h'.parent p q).trans (h.parent p q),
   fun hk => h'.keys (h.keys hk)⟩

theorem SameShape.sameGraph {a b : Nodes} (h : SameShape a b) : SameGraph a b := by
  have hf := h.find
  refine ⟨h.names.symm, ?_, ?_, ?_, ?_, ?_⟩
  · intro n
    have := hf n
    unfold hpAt
    cases ha : findNode a n <;> cases hb : findNode b n <;> simp [ha, hb] at this ⊢
    exact this.1.symm
  · intro n
    have := hf n
    unfold condAt
    cases ha : findNode a n <;> cases hb : findNode b n <;> simp [ha, hb] at this ⊢
    exact this.2.2.2.symm
  · intro n q
    have := hf n
    unfold childAt
    cases ha : findNode a n <;> cases hb : findNode b n <;> simp [ha, hb] at this ⊢
    rw [this.2.1]
  · intro n q
    have := hf n
    unfold parentAt
    cases ha : findNode a n <;> cases hb : findNode b n <;> simp [ha, hb] at this ⊢
    rw [this.2.2.1]
  · intro hk x hx
    have : ({ x with depth := 0 } : Node) ∈ a.map (fun x => { x with depth := 0 }) := by
      rw [h]
      exact List.mem_map.2 ⟨x, hx, rfl⟩
    obtain ⟨y, hy, he⟩ := List.mem_map.1 this
    have h1 := hk y hy
    injection he with _ _ e1 e2 _
    rw [e1, e2] at h1
    exact h1

theorem mem_modify {ns : Nodes} {n : Name} {f : Node → Node} {x : Node}
    (h : x ∈ modifyNode ns n f) : ∃ y ∈ ns, x = f y ∧ y.name = n ∨ x = y ∧ y.name ≠ n := by
  unfold modifyNode at h
  obtain ⟨y, hy, he⟩ := List.mem_map.1 h
  refine ⟨y, hy, ?_⟩
  split at he
  · rename_i hn; left; exact ⟨he.symm, hn⟩
  · rename_i hn; right; exact ⟨he.symm, hn⟩

theorem lookup_perm {β : Type} {d d' : List (Name × β)} (hp : d'.Perm d)
    (hnd : (d.map Prod.fst).Nodup) (k : Name) : d'.lookup k = d.lookup k := by
  have hnd' : (d'.map Prod.fst).Nodup := (hp.map Prod.fst).nodup_iff.2 hnd
  cases h : d.lookup k with
  | some v => exact lookup_of_mem hnd' (hp.mem_iff.2 (mem_of_lookup h))
  | none =>
    cases h' : d'.lookup k with
    | none => rfl
    | some v =>
      have := lookup_of_mem hnd (hp.mem_iff.1 (mem_of_lookup h'))
      rw [h] at this
      cases this

/-! ## Effect of `linkNodes` and `reorderNodes` -/

theorem keysOk_modify {ns : Nodes} {n : Name} {f : Node → Node} (hk : KeysOk ns)
    (hf : ∀ x ∈ ns, x.name = n →
      ((f x).children.map Prod.fst).Nodup ∧ ((f x).parents.map Prod.fst).Nodup) :
    KeysOk (modifyNode ns n f) := by
  intro x hx
  obtain ⟨y, hy, h | h⟩ := mem_modify hx
  · rw [h.1]; exact hf y hy h.2
  · rw [h.1]; exact hk y hy

/-- The graph after linking `p → ch` with condition `c`. -/
structure Linked (ns ns' : Nodes) (p ch : Name) (c : Cond) : Prop where
  names : namesOf ns' = namesOf ns
  hp : ∀ n, hpAt ns' n = hpAt ns n
  cond : ∀ n, condAt ns' n = if n = ch then some c else condAt ns n
  child : ∀ q x, childAt ns' q x = if q = p ∧ x = ch then some c else childAt ns q x
  parent : ∀ n q, parentAt ns' n q = if n = ch ∧ q = p then some c else parentAt ns n q
  keys : KeysOk ns → KeysOk ns'

theorem find_link (ns : Nodes) (p ch : Name) (c : Cond) (n : Name) :
    findNode (linkNodes ns p ch c) n =
      (findNode ns n).map (fun x => { x with
        children := if n = p then dictSet x.children ch c else x.children,
        parents := if n = ch then dictSet x.parents p c else x.parents,
        cond := if n = ch then some c else x.cond }) := by
  unfold linkNodes
  rw [findNode_modify _ ch n (fun x => { x with parents := dictSet x.parents p c, cond := some c })
    (fun _ => rfl)]
  rw [findNode_modify _ p n (fun x => { x with children := dictSet x.children ch c }) (fun _ => rfl)]
  cases findNode ns n with
  | none => simp
  | some x =>
    rcases Classical.em (n = p) with h1 | h1 <;> rcases Classical.em (n = ch) with h2 | h2 <;>
      first | rw [if_pos h2] | rw [if_neg h2]
    all_goals first | rw [if_pos h1] | rw [if_neg h1]
    all_goals simp only [Option.map_some]
    all_goals congr 1
    all_goals first | rw [if_pos h2, if_pos h2] | rw [if_neg h2, if_neg h2]
    all_goals first | rw [if_pos h1] | rw [if_neg h1]

theorem linkNodes_linked {ns : Nodes} {p ch : Name} (c : Cond) (hp : p ∈ namesOf ns)
    (hch : ch ∈ namesOf ns) : Linked ns (linkNodes ns p ch c) p ch c := by
  obtain ⟨xp, hxp⟩ := findNode_isSome hp
  obtain ⟨xc, hxc⟩ := findNode_isSome hch
  refine ⟨?_, ?_, ?_, ?_, ?_, ?_⟩
  · unfold linkNodes
    exact (namesOf_modify _ _ _ (by intro _; rfl)).trans (namesOf_modify _ _ _ (by intro _; rfl))
  · intro n
    unfold hpAt
    rw [find_link]
    cases findNode ns n <;> simp
  · intro n
    unfold condAt
    rw [find_link]
    by_cases h : n = ch
    · subst h; simp [hxc]
    · cases findNode ns n <;> simp [h]
  · intro q x
    unfold childAt
    rw [find_link]
    by_cases h : q = p
    · subst h
      simp [hxp, dictSet_lookup]
    · cases findNode ns q <;> simp [h]
  · intro n q
    unfold parentAt
    rw [find_link]
    by_cases h : n = ch
    · subst h
      simp [hxc, dictSet_lookup]
    · cases findNode ns n <;> simp [h]
  · intro hk
    unfold linkNodes
    refine keysOk_modify (keysOk_modify hk ?_) ?_
    · intro x hx _
      exact ⟨dictSet_nodup (hk x hx).1, (hk x hx).2⟩
    · intro x hx _
      obtain ⟨y, hy, h | h⟩ := mem_modify hx
      · rw [h.1]
        exact ⟨dictSet_nodup (hk y hy).1, dictSet_nodup (hk y hy).2⟩
      · rw [h.1]
        exact ⟨(hk y hy).1, dictSet_nodup (hk y hy).2⟩

theorem depthOf_modify {ns : Nodes} {n m : Name} {f : Node → Node}
    (hf : ∀ x, (f x).name = x.name) (hd : ∀ x, (f x).depth = x.depth) :
    depthOf (modifyNode ns n f) m = depthOf ns m := by
  unfold depthOf
  rw [findNode_modify _ _ _ _ hf]
  by_cases h : m = n
  · subst h
    cases findNode ns m <;> simp [hd]
  · simp [h]

theorem depthOf_link (ns : Nodes) (p ch : Name) (c : Cond) (n : Name) :
    depthOf (linkNodes ns p ch c) n = depthOf ns n := by
  unfold linkNodes
  exact (depthOf_modify (by intro _; rfl) (by intro _; rfl)).trans
    (depthOf_modify (by intro _; rfl) (by intro _; rfl))

theorem depthOf_reorder (ns : Nodes) (p ch : Name) (n : Name) :
    depthOf (reorderNodes ns p ch) n = depthOf ns n := by
  unfold reorderNodes
  exact (depthOf_modify (by intro _; rfl) (by intro _; rfl)).trans
    (depthOf_modify (by intro _; rfl) (by intro _; rfl))

/-- Sorting the dictionaries of one node does not change the graph. -/
theorem sameGraph_sort {ns : Nodes} (hk : KeysOk ns) (n : Name)
    (f : Node → Node) (hhp : ∀ x, (f x).hp = x.hp) (hc : ∀ x, (f x).cond = x.cond)
    (hch : ∀ x, (f x).children.Perm x.children) (hpa : ∀ x, (f x).parents.Perm x.parents) :
    SameGraph ns (modifyNode ns n f) := by
  have hname : ∀ x, (f x).name = x.name := fun x => by simp [Node.name, hhp]
  have hfind := fun m => findNode_modify ns n m f hname
  refine ⟨namesOf_modify _ _ _ hname, ?_, ?_, ?_, ?_, ?_⟩
  · intro m
    unfold hpAt; rw [hfind]
    split <;> cases findNode ns m <;> simp [hhp]
  · intro m
    unfold condAt; rw [hfind]
    split <;> cases findNode ns m <;> simp [hc]
  · intro m q
    unfold childAt; rw [hfind]
    split
    · cases hm : findNode ns m with
      | none => simp
      | some x =>
        simp only [Option.map_some, Option.bind_some]
        exact lookup_perm (hch x) (hk x (findNode_some hm).1).1 q
    · rfl
  · intro m q
    unfold parentAt; rw [hfind]
    split
    · cases hm : findNode ns m with
      | none => simp
      | some x =>
        simp only [Option.map_some, Option.bind_some]
        exact lookup_perm (hpa x) (hk x (findNode_some hm).1).2 q
    · rfl
  · intro _
    refine keysOk_modify hk ?_
    intro x hx _
    exact ⟨((hch x).map Prod.fst).nodup_iff.2 (hk x hx).1,
      ((hpa x).map Prod.fst).nodup_iff.2 (hk x hx).2⟩

theorem reorder_sameGraph {ns : Nodes} (hk : KeysOk ns) (p ch : Name) :
    SameGraph ns (reorderNodes ns p ch) := by
  unfold reorderNodes
  have h1 := sameGraph_sort hk p (fun x => { x with children := sortEntries ns x.children })
    (fun _ => rfl) (fun _ => rfl) (fun _ => sortBy_perm _ _) (fun _ => .refl _)
  refine h1.trans (sameGraph_sort (h1.keys hk) ch
    (fun x => { x with parents := sortEntries _ x.parents })
    (fun _ => rfl) (fun _ => rfl) (fun _ => .refl _) (fun _ => sortBy_perm _ _))

/-! ## One iteration of `add_condition` -/

/-- The parts of the invariant that concern depths. -/
structure DInv (ns : Nodes) : Prop where
  nodup : (namesOf ns).Nodup
  keys : KeysOk ns
  edges : ∀ p c, Edge ns p c → IsNode ns p ∧ IsNode ns c
  good : ∀ p c, Edge ns p c → depthOf ns p + 1 ≤ depthOf ns c
  chain : ∀ n, IsNode ns n → Chain (IsNode ns) (Edge ns) n (depthOf ns n)

theorem edge_isNode {ns : Nodes} {p c : Name} (h : Edge ns p c) : IsNode ns p := by
  unfold Edge childNames at h
  cases hp : findNode ns p with
  | none => simp [hp] at h
  | some x => exact mem_namesOf_of_find hp

theorem SameGraph.edge {ns ns' : Nodes} (h : SameGraph ns ns') : Edge ns' = Edge ns := by
  funext p c
  simp only [edge_iff_childAt, h.child]

theorem SameGraph.isNode {ns ns' : Nodes} (h : SameGraph ns ns') : IsNode ns' = IsNode ns := by
  funext n
  simp only [IsNode, h.names]

theorem SameGraph.dInv {ns ns' : Nodes} (h : SameGraph ns ns')
    (hd : ∀ n, depthOf ns' n = depthOf ns n) (hi : DInv ns) : DInv ns' := by
  refine ⟨h.names ▸ hi.nodup, h.keys hi.keys, ?_, ?_, ?_⟩
  · rw [h.edge, h.isNode]; exact hi.edges
  · intro p c; rw [h.edge, hd, hd]; exact hi.good p c
  · intro n; rw [h.edge, h.isNode, hd]; exact hi.chain n

theorem Linked.edge {ns ns' : Nodes} {p ch : Name} {c : Cond} (h : Linked ns ns' p ch c)
    (q x : Name) : Edge ns' q x ↔ (q = p ∧ x = ch) ∨ Edge ns q x := by
  simp only [edge_iff_childAt, h.child]
  split
  · rename_i h1; simp [h1]
  · rename_i h1; simp [h1]

theorem Linked.trans_same {a b b' : Nodes} {p ch : Name} {c : Cond} (h : Linked a b p ch c)
    (h' : SameGraph b b') : Linked a b' p ch c :=
  ⟨h'.names.trans h.names, fun n => (h'.hp n).trans (h.hp n),
   fun n => (h'.cond n).trans (h.cond n), fun q x => (h'.child q x).trans (h.child q x),
   fun n q => (h'.parent n q).trans (h.parent n q), fun hk => h'.keys (h.keys hk)⟩

theorem namesOf_length (ns : Nodes) : (namesOf ns).length = ns.length := by simp [namesOf]

theorem addCondParent_ok {ns ns' : Nodes} {ch p : Name} {c : Cond} (hi : DInv ns)
    (hch : IsNode ns ch) (h : addCondParent ns ch c p = (ns', none)) :
    IsNode ns p ∧ Linked ns ns' p ch c ∧ DInv ns' ∧
      (∀ e, childAt ns p ch = some e → c.pyEq e = true) := by
  unfold addCondParent at h
  cases hp : findNode ns p with
  | none => simp [hp] at h
  | some pn =>
    have hpn : IsNode ns p := mem_namesOf_of_find hp
    simp only [hp] at h
    split at h
    · simp at h
    · rename_i hamb
      split at h
      · simp at h
      · rename_i hcyc
        have hL := linkNodes_linked (ns := ns) (p := p) (ch := ch) c hpn hch
        generalize hns1 : linkNodes ns p ch c = ns1 at *
        have hns' : reorderNodes (propDepth (ns1.length + 1) ns1 ch (pn.depth + 1)) p ch = ns' := by
          simpa using h
        have hdep1 : ∀ n, depthOf ns1 n = depthOf ns n := by
          intro n; rw [← hns1]; exact depthOf_link ns p ch c n
        have hpd : depthOf ns p = pn.depth := by simp [depthOf, hp]
        -- edges of the linked graph stay inside the nodes
        have hedges : ∀ a b, Edge ns1 a b → IsNode ns1 a ∧ IsNode ns1 b := by
          intro a b hab
          unfold IsNode
          rw [hL.names]
          rcases (hL.edge a b).1 hab with ⟨rfl, rfl⟩ | hab
          · exact ⟨hpn, hch⟩
          · exact hi.edges a b hab
        -- rank from the cycle check
        have hdone : ∃ s e, cycleSearch (childNames ns1) (ns1.map Node.name) = .done s e := by
          unfold cyclicCheck at hcyc
          cases hcs : cycleSearch (childNames ns1) (ns1.map Node.name) with
          | done s e => exact ⟨s, e, rfl⟩
          | cyclic => simp [hcs] at hcyc
          | outOfFuel => simp [hcs] at hcyc
        obtain ⟨s, e, hse⟩ := hdone
        obtain ⟨r, hr1, hr2⟩ := cycleSearch_done_rank (succ := childNames ns1) (ns1.map Node.name)
          (fun n x hx => (hedges n x hx).2) hse
        have hch1 : IsNode ns1 ch := by unfold IsNode; rw [hL.names]; exact hch
        have hEmono : ∀ a b, Edge ns a b → Edge ns1 a b := fun a b hab => (hL.edge a b).2 (.inr hab)
        have hVmono : ∀ a, IsNode ns a → IsNode ns1 a := by
          intro a ha; unfold IsNode; rw [hL.names]; exact ha
        have hchain1 : ∀ m, IsNode ns1 m → Chain (IsNode ns1) (Edge ns1) m (depthOf ns1 m) := by
          intro m hm
          rw [hdep1]
          have hm' : IsNode ns m := by unfold IsNode at hm ⊢; rw [← hL.names]; exact hm
          exact (hi.chain m hm').mono hVmono hEmono
        have hpost := propDepth_post r (ns1.length + 1) ns1 ch (pn.depth + 1) hch1
          (fun x y hxy => (hedges x y hxy).2)
          (fun x y hxy => hr2 x (hedges x y hxy).1 y hxy)
          (by have := hr1 ch hch1; simp at this; omega) hchain1
          (by
            rw [← hpd, ← hdep1]
            exact .snoc (hchain1 p (hVmono p hpn)) ((hL.edge p ch).2 (.inl ⟨rfl, rfl⟩)) hch1)
        generalize hns2 : propDepth (ns1.length + 1) ns1 ch (pn.depth + 1) = ns2 at *
        obtain ⟨hpost, hlow⟩ := hpost
        have hg2 : SameGraph ns1 ns2 := hpost.shape.sameGraph
        have hD2 : DInv ns2 := by
          have hnd1 : (namesOf ns1).Nodup := hL.names ▸ hi.nodup
          refine ⟨hg2.names ▸ hnd1, hg2.keys (hL.keys hi.keys), ?_, ?_, ?_⟩
          · rw [hg2.edge, hg2.isNode]; exact hedges
          · intro a b hab
            rw [hg2.edge] at hab
            by_cases hlt : depthOf ns1 a < depthOf ns2 a
            · exact hpost.good a b hab hlt
            · have h1 := hpost.mono a
              have h2 := hpost.mono b
              have h3 := hdep1 a
              have h4 := hdep1 b
              rcases (hL.edge a b).1 hab with ⟨rfl, rfl⟩ | hab'
              · omega
              · have := hi.good a b hab'
                omega
          · rw [hg2.edge, hg2.isNode]; exact hpost.chain hchain1
        have hg3 := reorder_sameGraph hD2.keys p ch
        rw [hns'] at hg3
        refine ⟨hpn, (hL.trans_same hg2).trans_same hg3, hg3.dInv ?_ hD2, ?_⟩
        · intro n; rw [← hns']; exact depthOf_reorder ns2 p ch n
        · intro e he
          unfold childAt at he
          simp [hp] at he
          simp [he] at hamb
          exact hamb

end Verif
