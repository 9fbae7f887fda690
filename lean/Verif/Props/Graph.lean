import Verif.Lemmas.History
import Verif.Examples

/-!
# C01, C02, C04, C05, C06: layout of the hyperparameters

All theorems quantify over every history `calls` of successful `add` calls.
-/

set_option autoImplicit false

namespace Verif
open Verif.Spec

/-- Facts about the state expressed through the history. -/
theorem reach_edge {calls : List Call} {s : Space} (h : Reach calls s) (p c : Name) :
    Edge s.com p c ↔ ParentOf calls p c := by
  have hi := sinv_of_reach h
  rw [← hi.com, hi.hist.edge]
  unfold ParentOf
  simp only [parents_iff]

theorem reach_isNode {calls : List Call} {s : Space} (h : Reach calls s) (n : Name) :
    IsNode s.com n ↔ Known calls n := by
  have hi := sinv_of_reach h
  rw [← hi.com, hi.hist.isNode]
  rfl

theorem reach_ninv {calls : List Call} {s : Space} (h : Reach calls s) : NInv s.com := by
  have hi := sinv_of_reach h
  rw [← hi.com]; exact hi.hist.ninv

/-- **C01.** Every hyperparameter comes after all the parents that conditions on it mention. -/
theorem C01_parents_before_children {calls : List Call} {s : Space} (h : Reach calls s)
    {p c : Name} (hpc : ParentOf calls p c) :
    ∃ i j, At s.names i p ∧ At s.names j c ∧ i < j ∧ s.idx p = i ∧ s.idx c = j := by
  have hi := sinv_of_reach h
  have hn := reach_ninv h
  have he := (reach_edge h p c).2 hpc
  obtain ⟨h1, h2⟩ := hn.edges p c he
  refine ⟨_, _, (idx_spec h1).1, (idx_spec h2).1, ?_, rfl, rfl⟩
  exact idx_lt_of_depth_lt hn.nodup hi.sorted h1 h2 (hn.good p c he)

example : ∃ i j, At Ex.sp1.names i "k" ∧ At Ex.sp1.names j "x" ∧ i < j ∧
    Ex.sp1.idx "k" = i ∧ Ex.sp1.idx "x" = j :=
  C01_parents_before_children Ex.reach1 ⟨Ex.condX, by simp [allConds, Ex.call1],
    by simp [childName, Cond.child?, Cond.dlcs, Cond.dlcsL, Ex.condX, Ex.litX, Ex.hpX],
    Ex.litX, by simp [Cond.dlcs, Cond.dlcsL, Ex.condX], rfl⟩

/-- **C02.** Names and indices are in one-to-one correspondence: the names in order are exactly the
added ones, each once; `index_of` and `at` are inverse to each other. -/
theorem C02_names_index_bijection {calls : List Call} {s : Space} (h : Reach calls s) :
    s.names.Nodup ∧ (∀ n, n ∈ s.names ↔ Known calls n) ∧
    s.names.length = (allHps calls).length ∧ s.len = s.names.length ∧
    (∀ n ∈ s.names, At s.names (s.idx n) n) ∧ (∀ i n, At s.names i n → s.idx n = i) := by
  have hi := sinv_of_reach h
  have hn := reach_ninv h
  refine ⟨hn.nodup, fun n => reach_isNode h n, ?_, ?_, ?_, ?_⟩
  · have := hi.hist.hps.length_eq
    rw [hi.com] at this
    simpa [Space.names] using this
  · simp [Space.names, hi.len]
  · intro n hn'; exact (idx_spec hn').1
  · intro i n hin; exact idx_unique hn.nodup hin

example : Ex.sp1.names = ["alg", "c", "k", "o", "x"] := by decide +kernel

/-- **C05.** The depth of a hyperparameter is the number of hyperparameters on the longest chain of
conditions that ends in it. -/
theorem C05_depth_longest_chain {calls : List Call} {s : Space} (h : Reach calls s)
    {x : Node} (hx : x ∈ s.com) :
    LongestChain (Known calls) (ParentOf calls) x.name x.depth := by
  have hn := reach_ninv h
  have hnode : IsNode s.com x.name := List.mem_map.2 ⟨x, hx, rfl⟩
  have hl := hn.toDInv.longest hnode
  have hd : depthOf s.com x.name = x.depth := by simp [depthOf, findNode_of_mem hn.nodup hx]
  have hV : IsNode s.com = Known calls := by funext n; exact propext (reach_isNode h n)
  have hE : Edge s.com = ParentOf calls := by funext p c; exact propext (reach_edge h p c)
  rw [hd, hV, hE] at hl
  exact hl

/-- **C05.** The layout is sorted by (longest chain, name): of two hyperparameters whose longest chains have
`d` and `e` members, the one with the shorter chain, and in case of a tie the one with the smaller name,
has the smaller index. -/
theorem C05_layout_sorted {calls : List Call} {s : Space} (h : Reach calls s) {n m : Name} {d e : Nat}
    (hn : LongestChain (Known calls) (ParentOf calls) n d)
    (hm : LongestChain (Known calls) (ParentOf calls) m e) :
    s.idx n < s.idx m ↔ d < e ∨ (d = e ∧ n < m) := by
  have hi := sinv_of_reach h
  have hv := reach_ninv h
  have hV : IsNode s.com = Known calls := by funext n; exact propext (reach_isNode h n)
  have hE : Edge s.com = ParentOf calls := by funext p c; exact propext (reach_edge h p c)
  rw [← hV, ← hE] at hn hm
  have hend : ∀ {x k}, Chain (IsNode s.com) (Edge s.com) x k → IsNode s.com x := by
    intro x k hc
    cases hc <;> assumption
  have hnn := hend hn.1
  have hmm := hend hm.1
  have uniq : ∀ {x k}, LongestChain (IsNode s.com) (Edge s.com) x k → IsNode s.com x →
      depthOf s.com x = k := by
    intro x k hx hxn
    have hl := hv.toDInv.longest hxn
    exact Nat.le_antisymm (hx.2 _ hl.1) (hl.2 _ hx.1)
  have key := fun {p c} (hp : IsNode s.com p) (hc : IsNode s.com c) =>
    idx_lt_iff hv.nodup hi.sorted hp hc
  rw [Space.idx, Space.idx, key hnn hmm, uniq hn hnn, uniq hm hmm]

example : Ex.sp1.com.map (fun x => (x.name, x.depth))
    = [("alg", 1), ("c", 1), ("k", 2), ("o", 2), ("x", 3)] := by decide +kernel

/-- **C06.** The unconditional hyperparameters (roots) are exactly the known ones on which no condition
was ever added. -/
theorem C06_roots_no_condition {calls : List Call} {s : Space} (h : Reach calls s) (n : Name) :
    n ∈ s.dag.roots ↔ Known calls n ∧ ¬ Conditional calls n := by
  have hi := sinv_of_reach h
  have hn := reach_ninv h
  rw [hi.roots, mem_rootNames hn.nodup]
  constructor
  · rintro ⟨h1, h2⟩
    refine ⟨(reach_isNode h n).1 h1, ?_⟩
    rw [depth_eq_one_iff hn h1, ← hi.com, hi.hist.cond, lastCond_none] at h2
    rintro ⟨x, hx, hc⟩
    exact h2 x hx hc
  · rintro ⟨h1, h2⟩
    have h1' := (reach_isNode h n).2 h1
    refine ⟨h1', ?_⟩
    rw [depth_eq_one_iff hn h1', ← hi.com, hi.hist.cond, lastCond_none]
    intro x hx hc
    exact h2 ⟨x, hx, hc⟩

/-- **C06.** The conditional hyperparameters are exactly the known ones on which a condition was added, and
both lists together are all names, each once. -/
theorem C06_conditional_iff {calls : List Call} {s : Space} (h : Reach calls s) :
    (∀ n, n ∈ s.condNames ↔ Known calls n ∧ Conditional calls n) ∧
    (s.dag.roots ++ s.condNames).Perm s.names := by
  have hi := sinv_of_reach h
  have hn := reach_ninv h
  have hmem : ∀ n, n ∈ s.condNames ↔ n ∈ s.names ∧ n ∉ s.dag.roots := by
    intro n
    rw [hi.roots, mem_rootNames hn.nodup]
    unfold Space.condNames Space.names
    constructor
    · intro h'
      obtain ⟨x, hx, rfl⟩ := List.mem_map.1 h'
      obtain ⟨h1, h2⟩ := List.mem_filter.1 hx
      refine ⟨List.mem_map.2 ⟨x, h1, rfl⟩, ?_⟩
      rintro ⟨_, h3⟩
      rw [depthOf, findNode_of_mem hn.nodup h1] at h3
      simp [h3] at h2
    · rintro ⟨h1, h2⟩
      obtain ⟨x, hx, rfl⟩ := List.mem_map.1 h1
      refine List.mem_map.2 ⟨x, List.mem_filter.2 ⟨hx, ?_⟩, rfl⟩
      have : ¬ x.depth = 1 := by
        intro e
        apply h2
        refine ⟨h1, ?_⟩
        rw [depthOf, findNode_of_mem hn.nodup hx]
        exact e
      simpa using this
  refine ⟨?_, ?_⟩
  · intro n
    rw [hmem, C06_roots_no_condition h]
    have hk : n ∈ s.names ↔ Known calls n := reach_isNode h n
    rw [hk]
    constructor
    · rintro ⟨h1, h2⟩
      refine ⟨h1, ?_⟩
      by_cases hc : Conditional calls n
      · exact hc
      · exact absurd ⟨h1, hc⟩ h2
    · rintro ⟨h1, h2⟩
      exact ⟨h1, fun h3 => h3.2 h2⟩
  · rw [hi.roots]
    have := List.filter_append_perm (fun x : Node => decide (x.depth = 1)) s.com
    have h2 := this.map Node.name
    rw [List.map_append] at h2
    unfold rootNames Space.condNames Space.names
    simpa using h2

example : Ex.sp1.dag.roots = ["alg", "c"] ∧ Ex.sp1.condNames = ["k", "o", "x"] := by decide +kernel

/-- Sorted permutations of each other are equal. -/
theorem perm_sorted_eq {α : Type} {R : α → α → Prop} (hanti : ∀ a b, R a b → R b a → a = b) :
    ∀ {l l' : List α}, l.Perm l' → l.Pairwise R → l'.Pairwise R → l = l' := by
  intro l
  induction l with
  | nil => intro l' hp _ _; exact hp.nil_eq
  | cons a l ih =>
    intro l' hp h1 h2
    cases l' with
    | nil => exact absurd hp.length_eq (by simp)
    | cons b l' =>
      have hab : a = b := by
        have ha : a ∈ b :: l' := hp.mem_iff.1 (by simp)
        have hb : b ∈ a :: l := hp.mem_iff.2 (by simp)
        rcases List.mem_cons.1 ha with h | h
        · exact h
        · rcases List.mem_cons.1 hb with h' | h'
          · exact h'.symm
          · exact hanti _ _ ((List.pairwise_cons.1 h1).1 b h') ((List.pairwise_cons.1 h2).1 a h)
      subst hab
      rw [ih (hp.cons_inv) (List.pairwise_cons.1 h1).2 (List.pairwise_cons.1 h2).2]

/-- **C04.** The layout only depends on what was added, not on the order or on the grouping into calls:
two histories that add the same hyperparameters and the same conditions lead to the same list of
hyperparameters and the same index for every name. -/
theorem C04_layout_order_independent {calls calls' : List Call} {s s' : Space}
    (h : Reach calls s) (h' : Reach calls' s')
    (hh : (allHps calls).Perm (allHps calls'))
    (hc : ∀ c, c ∈ allConds calls ↔ c ∈ allConds calls') :
    s.com.map Node.hp = s'.com.map Node.hp ∧ ∀ n, s.idx n = s'.idx n := by
  have hi := sinv_of_reach h
  have hi' := sinv_of_reach h'
  have hn := reach_ninv h
  have hn' := reach_ninv h'
  have hV : IsNode s.com = IsNode s'.com := by
    funext n
    apply propext
    rw [reach_isNode h, reach_isNode h']
    unfold Known
    constructor
    · rintro ⟨x, hx, e⟩; exact ⟨x, hh.mem_iff.1 hx, e⟩
    · rintro ⟨x, hx, e⟩; exact ⟨x, hh.mem_iff.2 hx, e⟩
  have hE : Edge s.com = Edge s'.com := by
    funext p c
    apply propext
    rw [reach_edge h, reach_edge h']
    unfold ParentOf
    constructor
    · rintro ⟨x, hx, e⟩; exact ⟨x, (hc x).1 hx, e⟩
    · rintro ⟨x, hx, e⟩; exact ⟨x, (hc x).2 hx, e⟩
  have hD : ∀ n, IsNode s.com n → depthOf s.com n = depthOf s'.com n := by
    intro n hnode
    have l1 := hn.toDInv.longest hnode
    have l2 := hn'.toDInv.longest (hV ▸ hnode)
    rw [hV, hE] at l1
    exact Nat.le_antisymm (l2.2 _ l1.1) (l1.2 _ l2.1)
  have hhp : ∀ n, hpAt s.com n = hpAt s'.com n := by
    intro n
    cases e : hpAt s'.com n with
    | some x =>
      rw [← hi'.com, hi'.hist.hp] at e
      rw [← hi.com, hi.hist.hp]
      exact ⟨hh.mem_iff.2 e.1, e.2⟩
    | none =>
      cases e' : hpAt s.com n with
      | none => rfl
      | some x =>
        rw [← hi.com, hi.hist.hp] at e'
        have : hpAt s'.com n = some x := by
          rw [← hi'.com, hi'.hist.hp]
          exact ⟨hh.mem_iff.1 e'.1, e'.2⟩
        rw [e] at this
        cases this
  -- the keys agree
  have hkey : ∀ (t : Space), (namesOf t.com).Nodup →
      t.com.map (fun x => (x.depth, x.name)) = (namesOf t.com).map (fun n => (depthOf t.com n, n)) := by
    intro t hnd
    unfold namesOf
    rw [List.map_map]
    apply List.map_congr_left
    intro x hx
    simp [depthOf, findNode_of_mem hnd hx]
  have hperm : (s.com.map (fun x => (x.depth, x.name))).Perm
      (s'.com.map (fun x => (x.depth, x.name))) := by
    rw [hkey s hn.nodup, hkey s' hn'.nodup]
    have e1 : (namesOf s.com).map (fun n => (depthOf s.com n, n))
        = (namesOf s.com).map (fun n => (depthOf s'.com n, n)) := by
      apply List.map_congr_left
      intro n hnm
      rw [hD n hnm]
    rw [e1]
    apply List.Perm.map
    have p1 : (namesOf s.com).Perm ((allHps calls).map HP.name) := by
      have := hi.hist.hps.map HP.name
      rw [hi.com, List.map_map] at this
      exact this
    have p2 : (namesOf s'.com).Perm ((allHps calls').map HP.name) := by
      have := hi'.hist.hps.map HP.name
      rw [hi'.com, List.map_map] at this
      exact this
    exact p1.trans ((hh.map HP.name).trans p2.symm)
  have hkeys : s.com.map (fun x => (x.depth, x.name)) = s'.com.map (fun x => (x.depth, x.name)) := by
    refine perm_sorted_eq (R := fun a b => keyLe a b = true) keyLe_antisymm hperm ?_ ?_
    · exact List.pairwise_map.2 hi.sorted
    · exact List.pairwise_map.2 hi'.sorted
  have hnames : namesOf s.com = namesOf s'.com := by
    have := congrArg (List.map Prod.snd) hkeys
    simpa [List.map_map, Function.comp_def, namesOf] using this
  refine ⟨?_, ?_⟩
  · rw [map_hp_eq hn.nodup, map_hp_eq hn'.nodup, hnames, show hpAt s.com = hpAt s'.com from funext hhp]
  · intro n
    have : s.com.map Node.name = s'.com.map Node.name := hnames
    simp [Space.idx, idxOf, this]

example : Ex.sp1.com.map Node.hp = Ex.sp1c.com.map Node.hp ∧ ∀ n, Ex.sp1.idx n = Ex.sp1c.idx n :=
  C04_layout_order_independent Ex.reach1 Ex.reach1c
    (by
      have : allHps [Ex.call1a, Ex.call1b, Ex.call1c] = [Ex.hpAlg, Ex.hpC, Ex.hpO, Ex.hpK, Ex.hpX] := rfl
      rw [this]
      have : allHps [Ex.call1] = [Ex.hpX, Ex.hpK, Ex.hpO, Ex.hpAlg, Ex.hpC] := rfl
      rw [this]
      decide +kernel)
    (by
      intro c
      simp [allConds, Ex.call1, Ex.call1a, Ex.call1b, Ex.call1c]
      constructor <;> (rintro (h | h | h) <;> simp [h]))

example := C06_conditional_iff Ex.reach1

end Verif
