import Verif.Lemmas.Deps
import Mathlib.Data.List.Nodup

/-!
# The order of the condition nodes, and the loop of `change_hp_value`
-/

set_option autoImplicit false

namespace Verif
open Verif.Spec

/-! ## Every conditional hyperparameter is in one group -/

theorem addToGroups_kids {n : Name} {c : Cond} : ∀ (gs : List CNode),
    ((addToGroups gs n c).flatMap CNode.kids).Perm (n :: gs.flatMap CNode.kids) := by
  intro gs
  induction gs with
  | nil => simp [addToGroups]
  | cons g gs ih =>
    unfold addToGroups
    by_cases he : g.cond.equivOnParent c = true
    · rw [if_pos he]
      simp only [List.flatMap_cons, List.append_assoc, List.singleton_append]
      exact List.perm_middle
    · rw [if_neg he]
      simp only [List.flatMap_cons]
      exact (List.Perm.append_left _ ih).trans List.perm_middle

theorem groupFold_kids : ∀ (ns : Nodes) (gs : List CNode),
    ((ns.foldl groupStep gs).flatMap CNode.kids).Perm
      ((ns.filter (fun x => x.cond.isSome)).map Node.name ++ gs.flatMap CNode.kids) := by
  intro ns
  induction ns with
  | nil => intro gs; simp
  | cons x ns ih =>
    intro gs
    rw [List.foldl_cons]
    refine (ih _).trans ?_
    unfold groupStep
    cases hx : x.cond with
    | none => simp [hx]
    | some c =>
      simp only [hx, Option.isSome_some, List.filter_cons_of_pos, List.map_cons, List.cons_append]
      exact (List.Perm.append_left _ (addToGroups_kids gs)).trans List.perm_middle

theorem minConds_kids (ns : Nodes) (hnd : (namesOf ns).Nodup) :
    ((minCondsSorted ns).flatMap CNode.kids).Nodup := by
  have h1 : ((minCondsSorted ns).flatMap CNode.kids).Perm ((minConditions ns).flatMap CNode.kids) := by
    unfold minCondsSorted
    exact (sortBy_perm _ _).flatMap_right _
  have h2 := groupFold_kids ns []
  rw [← minConditions_eq] at h2
  refine (h1.trans h2).nodup_iff.2 ?_
  simp only [List.flatMap_nil, List.append_nil]
  exact (List.Sublist.map _ List.filter_sublist).nodup hnd

variable {calls : List Call} {s : Space}

theorem kid_unique (h : Reach calls s) {i j : Nat} {m : Name} (hi : KidOf s.minConds i m)
    (hj : KidOf s.minConds j m) : i = j := by
  have hs := sinv_of_reach h
  have hnd := minConds_kids s.com (reach_ninv h).nodup
  rw [← hs.mins] at hnd
  obtain ⟨_, hp⟩ := List.nodup_flatMap.1 hnd
  obtain ⟨c, hc, hmc⟩ := hi
  obtain ⟨d, hd, hmd⟩ := hj
  obtain ⟨hil, rfl⟩ := List.getElem?_eq_some_iff.1 hc
  obtain ⟨hjl, rfl⟩ := List.getElem?_eq_some_iff.1 hd
  rcases Nat.lt_trichotomy i j with k | k | k
  · exact absurd hmd (List.pairwise_iff_getElem.1 hp i j hil hjl k hmc)
  · exact k
  · exact absurd hmc (List.pairwise_iff_getElem.1 hp j i hjl hil k hmd)

/-! ## Depths -/

theorem minList_le : ∀ {l : List Nat} {x : Nat}, x ∈ l → minList l ≤ x := by
  intro l
  induction l with
  | nil => intro x h; cases h
  | cons y ys ih =>
    intro x h
    cases ys with
    | nil => simp at h; subst h; exact Nat.le_refl _
    | cons z zs =>
      simp only [minList]
      rcases List.mem_cons.1 h with rfl | h
      · exact Nat.min_le_left _ _
      · exact Nat.le_trans (Nat.min_le_right _ _) (ih h)

theorem minList_mem : ∀ {l : List Nat}, l ≠ [] → minList l ∈ l := by
  intro l
  induction l with
  | nil => intro h; exact absurd rfl h
  | cons y ys ih =>
    intro _
    cases ys with
    | nil => simp [minList]
    | cons z zs =>
      simp only [minList]
      rcases Nat.le_total y (minList (z :: zs)) with k | k
      · rw [Nat.min_eq_left k]; simp
      · rw [Nat.min_eq_right k]; exact List.mem_cons_of_mem _ (ih (by simp))

theorem mentions_iff {c : Cond} {p : Name} : Mentions c p ↔ p ∈ c.parents := parents_iff.symm

theorem level_depth (h : Reach calls s) {p : Name} (hp : p ∈ s.names) : Level calls p (depthOf s.com p) := by
  obtain ⟨x, hx, rfl⟩ := List.mem_map.1 hp
  have : depthOf s.com x.name = x.depth := by
    simp [depthOf, findNode_of_mem (reach_ninv h).nodup hx]
  rw [this]
  exact C05_depth_longest_chain h hx

theorem level_unique {p : Name} {j k : Nat} (h1 : Level calls p j) (h2 : Level calls p k) : j = k :=
  Nat.le_antisymm (h2.2 j h1.1) (h1.2 k h2.1)

theorem level_iff (h : Reach calls s) {p : Name} (hp : p ∈ s.names) {k : Nat} :
    Level calls p k ↔ k = depthOf s.com p :=
  ⟨fun hl => level_unique hl (level_depth h hp), fun e => e ▸ level_depth h hp⟩

/-- What an edge between condition nodes comes from. -/
theorem gedge_conds (h : Reach calls s) {i j : Nat} (e : GEdge s.minConds i j) :
    ∃ g f : CNode, s.minConds[i]? = some g ∧ s.minConds[j]? = some f ∧ g.cond ∈ allConds calls ∧
      f.cond ∈ allConds calls ∧ ∃ y, y ∈ g.kids ∧ Mentions f.cond y ∧ ∃ d ∈ allConds calls,
        (g.cond = d ∨ g.cond.equivOnParent d = true) ∧ childName d = some y := by
  obtain ⟨y, ⟨g, hg, hy⟩, ⟨f, hf, hyf⟩⟩ := e
  have hi := sinv_of_reach h
  have hG := groupsOk_sorted s.com
  rw [← hi.mins] at hG
  obtain ⟨xg, hxg, _, hcg⟩ := hG.leader g (List.mem_of_getElem? hg)
  obtain ⟨xf, hxf, _, hcf⟩ := hG.leader f (List.mem_of_getElem? hf)
  obtain ⟨x, hx, rfl, d, hd, he⟩ := hG.members g (List.mem_of_getElem? hg) y hy
  obtain ⟨m1, m2, _⟩ := node_cond h hx hd
  exact ⟨g, f, hg, hf, (node_cond h hxg hcg).1, (node_cond h hxf hcf).1, _, hy, mentions_iff.2 hyf, d, m1, he, m2⟩

/-- The sort key of the condition nodes. -/
def gkey (s : Space) (i : Nat) : Nat := ((s.minConds[i]?).map (shallowest s.com)).getD 0

theorem gkey_of {i : Nat} {g : CNode} (hg : s.minConds[i]? = some g) : gkey s i = shallowest s.com g := by
  simp [gkey, hg]

theorem gkey_mono (h : Reach calls s) : KeyMono s.minConds.length (gkey s) := by
  intro i j hij hj
  have hi := sinv_of_reach h
  have hs : s.minConds.Pairwise (fun a b => decide (shallowest s.com a ≤ shallowest s.com b) = true) := by
    rw [hi.mins]
    unfold minCondsSorted
    refine sortBy_pairwise ?_ ?_ _
    · intro a b
      simp only [decide_eq_true_eq]
      exact Nat.le_total _ _
    · intro a b c h1 h2
      simp only [decide_eq_true_eq] at *
      exact Nat.le_trans h1 h2
  rcases Nat.lt_or_eq_of_le hij with hlt | rfl
  · have := List.pairwise_iff_getElem.1 hs i j (by omega) hj hlt
    simp only [decide_eq_true_eq] at this
    rw [gkey_of (List.getElem?_eq_getElem (by omega)), gkey_of (List.getElem?_eq_getElem hj)]
    exact this
  · exact Nat.le_refl _

theorem gedge_key (h : Reach calls s) {i j : Nat} (e : GEdge s.minConds i j) (R : Nat → Nat → Prop)
    (hR : ∀ a b c, a ≤ b → R b c → R a c)
    (hl : ∀ g f : CNode, s.minConds[i]? = some g → s.minConds[j]? = some f → ∀ p, Mentions f.cond p →
      ∃ q, Mentions g.cond q ∧ R (depthOf s.com q) (depthOf s.com p)) :
    R (gkey s i) (gkey s j) := by
  obtain ⟨g, f, hg, hf, _, _, y, _, hy, _⟩ := gedge_conds h e
  rw [gkey_of hg, gkey_of hf]
  unfold shallowest
  have hne : f.parents.map (depthOf s.com) ≠ [] := by
    intro k
    rw [List.map_eq_nil_iff] at k
    have := mentions_iff.1 hy
    rw [show f.cond.parents = f.parents from rfl, k] at this
    cases this
  obtain ⟨p, hp, ep⟩ := List.mem_map.1 (minList_mem hne)
  rw [← ep]
  obtain ⟨q, hq, hr⟩ := hl g f hg hf p (mentions_iff.2 hp)
  exact hR _ _ _ (minList_le (List.mem_map.2 ⟨q, mentions_iff.1 hq, rfl⟩)) hr

theorem gedge_lt (h : Reach calls s) (hl : Layered calls) {i j : Nat} (e : GEdge s.minConds i j) :
    gkey s i < gkey s j := by
  refine gedge_key h e (· < ·) (fun a b c => Nat.lt_of_le_of_lt) ?_
  intro g f hg hf p hp
  obtain ⟨g', f', hg', hf', k1, k2, y, _, k3, d, k4, k5, k6⟩ := gedge_conds h e
  rw [hg] at hg'; cases hg'
  rw [hf] at hf'; cases hf'
  obtain ⟨q, a, hq, hqa, hlt⟩ := hl _ k2 d k4 _ k1 k5 y k6 k3 p _ hp
    (level_depth h (cond_parents_known h k2 (mentions_iff.1 hp)))
  refine ⟨q, hq, ?_⟩
  rw [(level_iff h (cond_parents_known h k1 (mentions_iff.1 hq))).1 hqa] at hlt
  exact hlt

theorem gedge_le (h : Reach calls s) (hl : WeaklyLayered calls) {i j : Nat} (e : GEdge s.minConds i j) :
    gkey s i ≤ gkey s j := by
  refine gedge_key h e (· ≤ ·) (fun a b c => Nat.le_trans) ?_
  intro g f hg hf p hp
  obtain ⟨g', f', hg', hf', k1, k2, y, _, k3, d, k4, k5, k6⟩ := gedge_conds h e
  rw [hg] at hg'; cases hg'
  rw [hf] at hf'; cases hf'
  obtain ⟨q, a, hq, hqa, hlt⟩ := hl _ k2 d k4 _ k1 k5 y k6 k3 p _ hp
    (level_depth h (cond_parents_known h k2 (mentions_iff.1 hp)))
  refine ⟨q, hq, ?_⟩
  rw [(level_iff h (cond_parents_known h k1 (mentions_iff.1 hq))).1 hqa] at hlt
  exact hlt

theorem idx_edge_lt (h : Reach calls s) {p c : Name} (e : Edge s.com p c) : s.idx p < s.idx c := by
  obtain ⟨i, j, _, _, hlt, rfl, rfl⟩ := C01_parents_before_children h ((reach_edge h p c).1 e)
  exact hlt

/-! ## Ties: the sort is stable and the groups appear in the order of their first members -/

theorem mem_insBy {α : Type} {le : α → α → Bool} {x y : α} {l : List α} : y ∈ insBy le x l ↔ y = x ∨ y ∈ l := by
  rw [(insBy_perm le x l).mem_iff, List.mem_cons]

/-- Stability, in the form that is needed: if a list is pairwise related by `R`, and the sort does not have to
swap, then the sorted list is pairwise related by `R` up to strictly smaller keys. -/
theorem sortBy_stable {α : Type} {key : α → Nat} {R : α → α → Prop} : ∀ {l : List α}, l.Pairwise R →
    (sortBy (fun a b => decide (key a ≤ key b)) l).Pairwise (fun a b => key a < key b ∨ (key a = key b ∧ R a b)) := by
  intro l
  induction l with
  | nil => intro _; exact List.Pairwise.nil
  | cons x l ih =>
    intro h
    obtain ⟨h1, h2⟩ := List.pairwise_cons.1 h
    have hl := ih h2
    have hR : ∀ y ∈ sortBy (fun a b => decide (key a ≤ key b)) l, R x y := fun y hy => h1 y (mem_sortBy.1 hy)
    rw [sortBy]
    generalize sortBy (fun a b => decide (key a ≤ key b)) l = m at hl hR
    clear h h1 h2 ih
    induction m with
    | nil => exact List.pairwise_singleton _ _
    | cons y ys ih =>
      obtain ⟨k1, k2⟩ := List.pairwise_cons.1 hl
      unfold insBy
      by_cases hk : key x ≤ key y
      · simp only [decide_eq_true hk, if_true]
        refine List.pairwise_cons.2 ⟨?_, hl⟩
        intro z hz
        have hxz : key x ≤ key z := by
          rcases List.mem_cons.1 hz with rfl | hz
          · exact hk
          · rcases k1 z hz with k | k
            · omega
            · omega
        rcases Nat.lt_or_eq_of_le hxz with k | k
        · exact .inl k
        · exact .inr ⟨k, hR z hz⟩
      · rw [if_neg (by simpa using hk)]
        refine List.pairwise_cons.2 ⟨?_, ih k2 (fun z hz => hR z (List.mem_cons_of_mem _ hz))⟩
        intro z hz
        rcases mem_insBy.1 hz with rfl | hz
        · exact .inl (by omega)
        · exact k1 z hz

/-- Some member of the first group comes before all members of the second. -/
def FirstBefore (ix : Name → Nat) (g f : CNode) : Prop := ∃ x ∈ g.kids, ∀ m ∈ f.kids, ix x < ix m

theorem addToGroups_firsts {ix : Name → Nat} {n : Name} {c : Cond} : ∀ {gs : List CNode},
    gs.Pairwise (FirstBefore ix) → (∀ g ∈ gs, g.kids ≠ []) → (∀ g ∈ gs, ∀ m ∈ g.kids, ix m < ix n) →
    (addToGroups gs n c).Pairwise (FirstBefore ix) ∧ (∀ g ∈ addToGroups gs n c, g.kids ≠ []) := by
  intro gs
  induction gs with
  | nil => intro _ _ _; simp [addToGroups]
  | cons g gs ih =>
    intro hp hne hlt
    obtain ⟨h1, h2⟩ := List.pairwise_cons.1 hp
    unfold addToGroups
    by_cases he : g.cond.equivOnParent c = true
    · rw [if_pos he]
      refine ⟨List.pairwise_cons.2 ⟨?_, h2⟩, ?_⟩
      · intro f hf
        obtain ⟨x, hx, k⟩ := h1 f hf
        exact ⟨x, by simp [hx], k⟩
      · intro f hf
        rcases List.mem_cons.1 hf with rfl | hf
        · simp
        · exact hne f (by simp [hf])
    · rw [if_neg he]
      obtain ⟨k1, k2⟩ := ih h2 (fun f hf => hne f (by simp [hf])) (fun f hf => hlt f (by simp [hf]))
      refine ⟨List.pairwise_cons.2 ⟨?_, k1⟩, ?_⟩
      · intro f hf
        obtain ⟨_, _, h3⟩ := addToGroups_mem (n := n) (c := c) gs
        rcases h3 f hf with rfl | hf | ⟨f0, hf0, rfl, _⟩
        · obtain ⟨x, hx⟩ := List.exists_mem_of_ne_nil _ (hne g (by simp))
          exact ⟨x, hx, fun m hm => by simp at hm; subst hm; exact hlt g (by simp) x hx⟩
        · exact h1 f hf
        · obtain ⟨x, hx, k⟩ := h1 f0 hf0
          refine ⟨x, hx, fun m hm => ?_⟩
          rcases List.mem_append.1 hm with hm | hm
          · exact k m hm
          · simp at hm; subst hm; exact hlt g (by simp) x hx
      · intro f hf
        rcases List.mem_cons.1 hf with rfl | hf
        · exact hne f (by simp)
        · exact k2 f hf

theorem groupFold_firsts {ix : Name → Nat} : ∀ (ns : Nodes) (gs : List CNode),
    (ns.Pairwise (fun a b => ix a.name < ix b.name)) → gs.Pairwise (FirstBefore ix) → (∀ g ∈ gs, g.kids ≠ []) →
    (∀ g ∈ gs, ∀ m ∈ g.kids, ∀ x ∈ ns, ix m < ix x.name) →
    (ns.foldl groupStep gs).Pairwise (FirstBefore ix) := by
  intro ns
  induction ns with
  | nil => intro gs _ h _ _; exact h
  | cons x ns ih =>
    intro gs hp hg hne hlt
    obtain ⟨h1, h2⟩ := List.pairwise_cons.1 hp
    rw [List.foldl_cons]
    unfold groupStep
    cases hx : x.cond with
    | none => exact ih gs h2 hg hne (fun g hg m hm y hy => hlt g hg m hm y (by simp [hy]))
    | some c =>
      obtain ⟨k1, k2⟩ := addToGroups_firsts (ix := ix) (n := x.name) (c := c) hg hne
        (fun g hg m hm => hlt g hg m hm x (by simp))
      refine ih _ h2 k1 k2 ?_
      intro g hg m hm y hy
      have hm' : m ∈ (addToGroups gs x.name c).flatMap CNode.kids := List.mem_flatMap.2 ⟨g, hg, hm⟩
      rw [(addToGroups_kids gs).mem_iff] at hm'
      rcases List.mem_cons.1 hm' with rfl | hm'
      · exact h1 y hy
      · obtain ⟨g0, hg0, hm0⟩ := List.mem_flatMap.1 hm'
        exact hlt g0 hg0 m hm0 y (by simp [hy])

theorem nodes_increasing (h : Reach calls s) : s.com.Pairwise (fun a b => s.idx a.name < s.idx b.name) := by
  rw [List.pairwise_iff_getElem]
  intro i j hi hj hij
  have e : ∀ k (hk : k < s.com.length), s.idx (s.com[k]).name = k := by
    intro k hk
    refine idx_unique (reach_ninv h).nodup ?_
    simp [namesOf, List.getElem?_map, List.getElem?_eq_getElem hk]
  rw [e i hi, e j hj]
  exact hij

theorem minConds_firsts (h : Reach calls s) :
    s.minConds.Pairwise (fun a b => shallowest s.com a < shallowest s.com b ∨
      (shallowest s.com a = shallowest s.com b ∧ FirstBefore s.idx a b)) := by
  have hi := sinv_of_reach h
  rw [hi.mins]
  unfold minCondsSorted
  refine sortBy_stable ?_
  rw [minConditions_eq]
  exact groupFold_firsts s.com [] (nodes_increasing h) List.Pairwise.nil (by simp) (by simp)

/-- **The order of the condition nodes is topological** if the conditions are weakly layered. -/
theorem topo_of_weakly (h : Reach calls s) (hl : WeaklyLayered calls) : Topo s.minConds := by
  intro i j e
  have hle := gedge_le h hl e
  have hil := e.lt_left
  have hjl := e.lt_right
  rcases Nat.lt_trichotomy i j with k | k | k
  · exact k
  · subst k
    exfalso
    obtain ⟨y, hy, hp⟩ := e
    exact (reach_ninv h).toDInv.acyclic y (.edge (group_edge h hp hy))
  · exfalso
    have hp := List.pairwise_iff_getElem.1 (minConds_firsts h) j i hjl hil k
    rw [gkey_of (List.getElem?_eq_getElem hil), gkey_of (List.getElem?_eq_getElem hjl)] at hle
    rcases hp with hp | ⟨_, x, hx, hm⟩
    · omega
    · obtain ⟨y, ⟨g, hg, hy⟩, hpar⟩ := e
      rw [List.getElem?_eq_getElem hil] at hg
      cases hg
      have h1 := hm y hy
      have h2 : Edge s.com y x := group_edge h hpar ⟨_, List.getElem?_eq_getElem hjl, hx⟩
      have h3 := idx_edge_lt h h2
      omega

/-! ## The loop of `change_hp_value` -/

theorem satVec_congr {c : Cond} {v w : Vec} (h : ∀ p ∈ c.parents, v.at (s.idx p) = w.at (s.idx p)) :
    c.satVec s.idx v = c.satVec s.idx w := by
  have : c.satVec s.idx v = true ↔ c.satVec s.idx w = true := by
    rw [satVec_iff, satVec_iff]
    exact holds_congr c (fun p hp => h p hp)
  cases h1 : c.satVec s.idx v <;> cases h2 : c.satVec s.idx w <;> simp_all

theorem changeLoop_cons {j : Nat} {l : List Nat} {v : Vec} {c : CNode} (hc : s.minConds[j]? = some c) :
    changeLoop s (j :: l) v = changeLoop s l (applyCNode s v c) := by
  show changeLoop s l (match s.minConds[j]? with
      | some c => applyCNode s v c
      | none => v) = _
  rw [hc]

theorem cond_known (h : Reach calls s) {c : CNode} (hc : c ∈ s.minConds) : c.cond ∈ allConds calls := by
  have hi := sinv_of_reach h
  have hg := groupsOk_sorted s.com
  rw [← hi.mins] at hg
  obtain ⟨x, hx, _, hxc⟩ := hg.leader c hc
  exact (node_cond h hx hxc).1

theorem parents_known (h : Reach calls s) {c : CNode} (hc : c ∈ s.minConds) : ∀ p ∈ c.cond.parents, p ∈ s.names :=
  fun _ hp => cond_parents_known h (cond_known h hc) hp

/-- A node does not change the parents of its own condition. -/
theorem applyCNode_sat (h : Reach calls s) {v : Vec} (hv : v.length = s.len) {i : Nat} {c : CNode}
    (hc : s.minConds[i]? = some c) : c.cond.satVec s.idx (applyCNode s v c) = c.cond.satVec s.idx v := by
  have hm := List.mem_of_getElem? hc
  refine satVec_congr ?_
  intro p hp
  rw [applyCNode_at h hv (kids_known h hm) (parents_known h hm p hp), if_neg]
  intro hk
  exact (reach_ninv h).toDInv.acyclic p (.edge (group_edge h ⟨c, hc, hp⟩ ⟨c, hc, hk⟩))

/-- If no node of the list feeds the condition, the loop does not change its truth. -/
theorem changeLoop_sat (h : Reach calls s) {v : Vec} (hv : v.length = s.len) {i : Nat} {c : CNode}
    (hc : s.minConds[i]? = some c) {l : List Nat} (hl : ∀ j ∈ l, ¬ GEdge s.minConds j i) :
    c.cond.satVec s.idx (changeLoop s l v) = c.cond.satVec s.idx v := by
  have hm := List.mem_of_getElem? hc
  refine satVec_congr ?_
  intro p hp
  refine changeLoop_other h (parents_known h hm p hp) l v hv ?_
  intro j hj hk
  exact hl j hj ⟨p, hk, c, hc, hp⟩

/-- After the loop over a closed list, the children of the visited nodes are set exactly if the condition holds,
and then by their old value or their default. -/
theorem changeLoop_closed (h : Reach calls s) : ∀ (l : List Nat) (v : Vec), v.length = s.len → Closed s.minConds l →
    ∀ i ∈ l, ∀ c, s.minConds[i]? = some c → ∀ m ∈ c.kids,
      ((changeLoop s l v).at (s.idx m)).isSome = c.cond.satVec s.idx (changeLoop s l v) := by
  intro l
  induction l with
  | nil => intro v _ _ i hi; cases hi
  | cons x l ih =>
    intro v hv hcl i hi c hc m hm
    cases hx : s.minConds[x]? with
    | none =>
      have hstep : changeLoop s (x :: l) v = changeLoop s l v := by
        show changeLoop s l (match s.minConds[x]? with
          | some c => applyCNode s v c
          | none => v) = _
        rw [hx]
      rw [hstep]
      rcases List.mem_cons.1 hi with rfl | hi
      · rw [hx] at hc; cases hc
      · exact ih v hv hcl.2 i hi c hc m hm
    | some cx =>
      rw [changeLoop_cons hx]
      have hv' : (applyCNode s v cx).length = s.len := by rw [applyCNode_length, hv]
      by_cases hil : i ∈ l
      · exact ih _ hv' hcl.2 i hil c hc m hm
      · have e : i = x := (List.mem_cons.1 hi).resolve_right hil
        subst e
        rw [hc] at hx; cases hx
        have hmem := List.mem_of_getElem? hc
        rw [changeLoop_sat h hv' hc (fun j hj e => hil (hcl.2.mem hj e)),
          changeLoop_other h (kids_known h hmem m hm) l _ hv', applyCNode_sat h hv hc,
          applyCNode_at h hv (kids_known h hmem) (kids_known h hmem m hm), if_pos hm]
        · by_cases hs : c.cond.satVec s.idx v = true
          · rw [if_pos hs, hs]
            by_cases hset : isSet (v.at (s.idx m)) = true
            · rw [if_pos hset]; exact hset
            · rw [if_neg hset]; rfl
          · rw [if_neg hs]
            simp only [Bool.not_eq_true] at hs
            rw [hs]; rfl
        · intro j hj hk
          exact hil (kid_unique h hk ⟨c, hc, hm⟩ ▸ hj)

/-- Newly set entries are defaults or old values. -/
theorem changeLoop_values (h : Reach calls s) {m : Name} (hm : m ∈ s.names) : ∀ (l : List Nat) (v : Vec),
    v.length = s.len →
    (changeLoop s l v).at (s.idx m) = none ∨ (changeLoop s l v).at (s.idx m) = v.at (s.idx m) ∨
      (changeLoop s l v).at (s.idx m) = some (defAt s m) := by
  intro l
  induction l with
  | nil => intro v _; exact .inr (.inl rfl)
  | cons x l ih =>
    intro v hv
    cases hx : s.minConds[x]? with
    | none =>
      have hstep : changeLoop s (x :: l) v = changeLoop s l v := by
        show changeLoop s l (match s.minConds[x]? with
          | some c => applyCNode s v c
          | none => v) = _
        rw [hx]
      rw [hstep]
      exact ih v hv
    | some c =>
      rw [changeLoop_cons hx]
      have hv' : (applyCNode s v c).length = s.len := by rw [applyCNode_length, hv]
      rcases ih _ hv' with k | k | k
      · exact .inl k
      · rw [k, applyCNode_at h hv (kids_known h (List.mem_of_getElem? hx)) hm]
        by_cases hmk : m ∈ c.kids
        · rw [if_pos hmk]
          by_cases hs : c.cond.satVec s.idx v = true
          · rw [if_pos hs]
            by_cases hset : isSet (v.at (s.idx m)) = true
            · rw [if_pos hset]; exact .inr (.inl rfl)
            · rw [if_neg hset]; exact .inr (.inr rfl)
          · rw [if_neg hs]; exact .inl rfl
        · rw [if_neg hmk]; exact .inr (.inl rfl)
      · exact .inr (.inr k)

/-- With an order in which no node comes after what depends on it, values that stay active are kept. -/
theorem changeLoop_noBack (h : Reach calls s) : ∀ (l : List Nat) (v : Vec), v.length = s.len → NoBack s.minConds l →
    ∀ i ∈ l, ∀ c, s.minConds[i]? = some c → ∀ m ∈ c.kids,
      (changeLoop s l v).at (s.idx m) = if c.cond.satVec s.idx (changeLoop s l v) then
        if isSet (v.at (s.idx m)) then v.at (s.idx m) else some (defAt s m) else none := by
  intro l
  induction l with
  | nil => intro v _ _ i hi; cases hi
  | cons x l ih =>
    intro v hv hcl i hi c hc m hm
    cases hx : s.minConds[x]? with
    | none =>
      have hstep : changeLoop s (x :: l) v = changeLoop s l v := by
        show changeLoop s l (match s.minConds[x]? with
          | some c => applyCNode s v c
          | none => v) = _
        rw [hx]
      rw [hstep]
      rcases List.mem_cons.1 hi with rfl | hi
      · rw [hx] at hc; cases hc
      · exact ih v hv hcl.2 i hi c hc m hm
    | some cx =>
      rw [changeLoop_cons hx]
      have hv' : (applyCNode s v cx).length = s.len := by rw [applyCNode_length, hv]
      have hmem := List.mem_of_getElem? hc
      have hxmem := List.mem_of_getElem? hx
      by_cases hil : i ∈ l
      · rw [ih _ hv' hcl.2 i hil c hc m hm,
          applyCNode_at h hv (kids_known h hxmem) (kids_known h hmem m hm)]
        by_cases hmk : m ∈ cx.kids
        · have e := kid_unique h (i := x) (j := i) ⟨cx, hx, hmk⟩ ⟨c, hc, hm⟩
          subst e
          rw [hc] at hx; cases hx
          rw [changeLoop_sat h hv' hc hcl.1, applyCNode_sat h hv hc, if_pos hm]
          by_cases hs : c.cond.satVec s.idx v = true
          · simp only [if_pos hs]
            by_cases hset : isSet (v.at (s.idx m)) = true
            · simp only [if_pos hset]
            · simp only [if_neg hset]; simp [isSet]
          · simp only [if_neg hs]
        · rw [if_neg hmk]
      · have e : i = x := (List.mem_cons.1 hi).resolve_right hil
        subst e
        rw [hc] at hx; cases hx
        rw [changeLoop_sat h hv' hc hcl.1, applyCNode_sat h hv hc,
          changeLoop_other h (kids_known h hmem m hm) l _ hv',
          applyCNode_at h hv (kids_known h hmem) (kids_known h hmem m hm), if_pos hm]
        intro j hj hk
        exact hil (kid_unique h hk ⟨c, hc, hm⟩ ▸ hj)

/-! ## Activity in terms of the condition nodes -/

theorem activity_iff (h : Reach calls s) (hsep : Separable calls) {v : Vec} {a : Assign} (hv : Represents s v a) :
    ActivityOk calls a ↔ ∀ (i : Nat) (c : CNode), s.minConds[i]? = some c → ∀ m ∈ c.kids,
      (v.at (s.idx m)).isSome = c.cond.satVec s.idx v := by
  have hi := sinv_of_reach h
  have hg := groupsOk_sorted s.com
  rw [← hi.mins] at hg
  have hmean : ∀ g ∈ s.minConds, ∀ c ∈ allConds calls,
      (g.cond = c ∨ g.cond.equivOnParent c = true) → (g.cond.satVec s.idx v = true ↔ Holds a c) := by
    intro g hgm c hc he
    rw [holds_represents h hv (cond_known h hgm)]
    rcases he with rfl | he
    · rfl
    · exact hsep _ (cond_known h hgm) _ hc he a
  constructor
  · intro hact i g hgi m hm
    have hgm := List.mem_of_getElem? hgi
    obtain ⟨x, hx, rfl, c, hc, he⟩ := hg.members g hgm m hm
    obtain ⟨m1, m2, _⟩ := node_cond h hx hc
    have k1 := hact c m1 _ m2
    rw [← hmean g hgm c m1 he, ← at_idx hv (mem_names hx), ← Option.isSome_iff_exists] at k1
    exact Bool.eq_iff_iff.2 k1
  · intro hall d hd n hn
    obtain ⟨x, hx, rfl, c, hc⟩ := node_of_child h hd hn
    obtain ⟨m1, m2, m3⟩ := node_cond h hx hc
    obtain ⟨g, hgm, hk, he⟩ := hg.covers x hx c hc
    obtain ⟨i, hgi⟩ := List.getElem?_of_mem hgm
    have k1 := hall i g hgi _ hk
    rw [← holds_pyEq hsep m1 hd (m3 d hd hn) a, ← hmean g hgm c m1 he,
      ← at_idx hv (mem_names hx), ← k1, Option.isSome_iff_exists]

/-- The default entry is the default of the hyperparameter. -/
theorem defAt_eq (h : Reach calls s) {x : HP} (hx : x ∈ allHps calls) : defAt s x.name = x.defVec := by
  have hn := reach_ninv h
  have hp := (hp_of h).2 ⟨hx, rfl⟩
  unfold Space.hp? at hp
  cases hf : findNode s.com x.name with
  | none => simp [hf] at hp
  | some y =>
    simp [hf] at hp
    obtain ⟨hy, e⟩ := findNode_some hf
    obtain ⟨i, hi⟩ := List.getElem?_of_mem hy
    have hidx : s.idx x.name = i := by
      refine idx_unique hn.nodup ?_
      simp [namesOf, List.getElem?_map, hi, e]
    simp [defAt, defaultVecs, hidx, List.getD_eq_getElem?_getD, List.getElem?_map, hi, hp]

end Verif
