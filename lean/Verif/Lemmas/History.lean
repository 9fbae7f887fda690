import Verif.Lemmas.Reach
import Verif.Spec.Space

/-!
# From the state of a space to the history of calls
-/

set_option autoImplicit false

namespace Verif
open Verif.Spec

theorem lastCond_some {cs : List Cond} {n : Name} {c : Cond} (h : lastCond cs n = some c) :
    c ∈ cs ∧ childName c = some n := by
  unfold lastCond at h
  have := List.mem_of_getLast? h
  rw [List.mem_filter] at this
  exact ⟨this.1, by simpa [childName] using this.2⟩

theorem lastCond_none {cs : List Cond} {n : Name} :
    lastCond cs n = none ↔ ∀ c ∈ cs, childName c ≠ some n := by
  unfold lastCond
  rw [List.getLast?_eq_none_iff, List.filter_eq_nil_iff]
  simp [childName]

theorem parents_iff {c : Cond} {p : Name} :
    p ∈ c.parents ↔ ∃ l ∈ c.dlcs, l.parent.name = p := by
  simp [Cond.parents]

variable {g : Dag} {H : List HP} {C : List Cond} {F : List Forb}

theorem HInv.isNode (hi : HInv g H C F) (n : Name) : IsNode g.nodes n ↔ ∃ h ∈ H, h.name = n := by
  have h1 : namesOf g.nodes = (g.nodes.map Node.hp).map HP.name := by
    simp [namesOf, Node.name]
  unfold IsNode
  rw [h1, (hi.hps.map HP.name).mem_iff]
  simp

theorem HInv.hp (hi : HInv g H C F) {n : Name} {h : HP} :
    hpAt g.nodes n = some h ↔ h ∈ H ∧ h.name = n := by
  constructor
  · intro hh
    unfold hpAt at hh
    cases hf : findNode g.nodes n with
    | none => simp [hf] at hh
    | some x =>
      simp [hf] at hh
      obtain ⟨h1, h2⟩ := findNode_some hf
      subst hh
      exact ⟨hi.hps.mem_iff.1 (List.mem_map.2 ⟨x, h1, rfl⟩), h2⟩
  · rintro ⟨h1, h2⟩
    obtain ⟨x, hx, he⟩ := List.mem_map.1 (hi.hps.mem_iff.2 h1)
    have : x.name = n := by rw [← h2, ← he]; rfl
    have hf := findNode_of_mem hi.ninv.nodup hx
    rw [this] at hf
    simp [hpAt, hf, he]

/-- The edges of the state are the parent relation of the history. -/
theorem HInv.edge (hi : HInv g H C F) (p c : Name) :
    Edge g.nodes p c ↔ ∃ x ∈ C, childName x = some c ∧ p ∈ x.parents := by
  rw [edge_iff_childAt]
  constructor
  · intro h
    obtain ⟨d, hd⟩ := Option.isSome_iff_exists.1 h
    obtain ⟨h1, h2⟩ := (hi.ninv.child p c d).1 hd
    rw [hi.cond] at h1
    obtain ⟨h3, h4⟩ := lastCond_some h1
    exact ⟨d, h3, h4, h2⟩
  · rintro ⟨x, hx, hc, hp⟩
    cases hl : condAt g.nodes c with
    | none =>
      rw [hi.cond, lastCond_none] at hl
      exact absurd hc (hl x hx)
    | some d =>
      cases hch : x.child? with
      | none => simp [childName, hch] at hc
      | some ch =>
        simp [childName, hch] at hc
        subst hc
        have := (pyEq_parents d x (hi.same x hx ch hch d hl) p).2 hp
        rw [(hi.ninv.child p ch.name d).2 ⟨hl, this⟩]
        rfl

theorem good_chain_le {ns : Nodes} (hi : DInv ns) {n : Name} {k : Nat}
    (h : Chain (IsNode ns) (Edge ns) n k) : k ≤ depthOf ns n := by
  induction h with
  | @one x hx =>
    have h0 : ∀ x k, Chain (IsNode ns) (Edge ns) x k → 1 ≤ k := by
      intro x k h
      cases h <;> omega
    exact h0 _ _ (hi.chain x hx)
  | snoc _ he _ ih =>
    have := hi.good _ _ he
    omega

theorem DInv.longest {ns : Nodes} (hi : DInv ns) {n : Name} (hn : IsNode ns n) :
    LongestChain (IsNode ns) (Edge ns) n (depthOf ns n) :=
  ⟨hi.chain n hn, fun _ h => good_chain_le hi h⟩

theorem DInv.pos {ns : Nodes} (hi : DInv ns) {n : Name} (hn : IsNode ns n) : 1 ≤ depthOf ns n :=
  good_chain_le hi (.one hn)

theorem DInv.acyclic {ns : Nodes} (hi : DInv ns) : Acyclic (Edge ns) := by
  -- the depth increases along edges
  have key : ∀ a b, Path (Edge ns) a b → depthOf ns a < depthOf ns b := by
    intro a b h
    induction h with
    | edge e => exact hi.good _ _ e
    | cons e _ ih => have := hi.good _ _ e; omega
  intro a h
  exact Nat.lt_irrefl _ (key a a h)

theorem depth_eq_one_iff {ns : Nodes} (hi : NInv ns) {n : Name} (hn : IsNode ns n) :
    depthOf ns n = 1 ↔ condAt ns n = none := by
  constructor
  · intro h1
    cases hc : condAt ns n with
    | none => rfl
    | some c =>
      obtain ⟨hw, _, hp⟩ := hi.cond n c hc
      obtain ⟨p, hpm⟩ := List.exists_mem_of_ne_nil _ (wf_parents_ne hw)
      have he : Edge ns p n := by
        rw [edge_iff_childAt, (hi.child p n c).2 ⟨hc, hpm⟩]; rfl
      have h2 := hi.good p n he
      have h3 := hi.toDInv.pos (hp p hpm)
      omega
  · intro hc
    have hch := hi.chain n hn
    generalize depthOf ns n = d at hch
    cases hch with
    | one _ => rfl
    | snoc _ he _ =>
      rw [edge_iff_childAt] at he
      obtain ⟨d, hd⟩ := Option.isSome_iff_exists.1 he
      have := ((hi.child _ _ d).1 hd).1
      rw [hc] at this
      cases this

theorem mem_rootNames {ns : Nodes} (hnd : (namesOf ns).Nodup) {n : Name} :
    n ∈ rootNames ns ↔ IsNode ns n ∧ depthOf ns n = 1 := by
  unfold rootNames
  constructor
  · intro h
    obtain ⟨x, hx, rfl⟩ := List.mem_map.1 h
    obtain ⟨h1, h2⟩ := List.mem_filter.1 hx
    refine ⟨List.mem_map.2 ⟨x, h1, rfl⟩, ?_⟩
    rw [depthOf, findNode_of_mem hnd h1]
    simpa using h2
  · rintro ⟨h1, h2⟩
    obtain ⟨x, hx, rfl⟩ := List.mem_map.1 h1
    rw [depthOf, findNode_of_mem hnd hx] at h2
    exact List.mem_map.2 ⟨x, List.mem_filter.2 ⟨hx, by simpa using h2⟩, rfl⟩

/-! ## Positions -/

theorem idx_spec {ns : Nodes} {n : Name} (h : n ∈ namesOf ns) :
    (namesOf ns)[idxOf ns n]? = some n ∧ idxOf ns n < ns.length := by
  have h1 : idxOf ns n < (namesOf ns).length := List.idxOf_lt_length_of_mem h
  refine ⟨?_, by simpa [namesOf] using h1⟩
  rw [List.getElem?_eq_getElem h1]
  simp [idxOf, namesOf]

theorem idx_unique {ns : Nodes} (hnd : (namesOf ns).Nodup) {i : Nat} {n : Name}
    (h : (namesOf ns)[i]? = some n) : idxOf ns n = i := by
  obtain ⟨hi, he⟩ := List.getElem?_eq_some_iff.1 h
  subst he
  exact List.Nodup.idxOf_getElem hnd i hi

/-- In a list sorted by depth and name, smaller depth means smaller index. -/
theorem idx_lt_of_depth_lt {ns : Nodes} (hnd : (namesOf ns).Nodup)
    (hs : ns.Pairwise (fun a b => keyLe (a.depth, a.name) (b.depth, b.name) = true))
    {p c : Name} (hp : IsNode ns p) (hc : IsNode ns c) (hlt : depthOf ns p < depthOf ns c) :
    idxOf ns p < idxOf ns c := by
  have hp' := idx_spec hp
  have hc' := idx_spec hc
  rcases Nat.lt_trichotomy (idxOf ns p) (idxOf ns c) with h | h | h
  · exact h
  · exfalso
    rw [h] at hp'
    have : p = c := by
      have := hp'.1.symm.trans hc'.1
      simpa using this
    subst this
    omega
  · exfalso
    have hx : ∀ n, IsNode ns n → ∃ x, ns[idxOf ns n]? = some x ∧ x.name = n ∧ x.depth = depthOf ns n := by
      intro n hn
      have := (idx_spec hn).1
      simp only [namesOf, List.getElem?_map, Option.map_eq_some_iff] at this
      obtain ⟨x, h1, h2⟩ := this
      refine ⟨x, h1, h2, ?_⟩
      rw [depthOf, ← h2, findNode_of_mem hnd (List.mem_of_getElem? h1)]
    obtain ⟨xp, e1, e2, e3⟩ := hx p hp
    obtain ⟨xc, f1, f2, f3⟩ := hx c hc
    obtain ⟨i1, g1⟩ := List.getElem?_eq_some_iff.1 e1
    obtain ⟨i2, g2⟩ := List.getElem?_eq_some_iff.1 f1
    have := List.pairwise_iff_getElem.1 hs _ _ i2 i1 h
    rw [g1, g2] at this
    simp only [keyLe, Bool.or_eq_true, Bool.and_eq_true, decide_eq_true_eq] at this
    rcases this with h' | ⟨h', _⟩ <;> omega

/-- Two nodes with different names in a sorted list: the index order is the order of the keys. -/
theorem idx_lt_iff {ns : Nodes} (hnd : (namesOf ns).Nodup)
    (hs : ns.Pairwise (fun a b => keyLe (a.depth, a.name) (b.depth, b.name) = true))
    {p c : Name} (hp : IsNode ns p) (hc : IsNode ns c) :
    idxOf ns p < idxOf ns c ↔
      depthOf ns p < depthOf ns c ∨ (depthOf ns p = depthOf ns c ∧ p < c) := by
  have hx : ∀ n, IsNode ns n → ∃ x, ns[idxOf ns n]? = some x ∧ x.name = n ∧ x.depth = depthOf ns n := by
    intro n hn
    have := (idx_spec hn).1
    simp only [namesOf, List.getElem?_map, Option.map_eq_some_iff] at this
    obtain ⟨x, h1, h2⟩ := this
    refine ⟨x, h1, h2, ?_⟩
    rw [depthOf, ← h2, findNode_of_mem hnd (List.mem_of_getElem? h1)]
  obtain ⟨xp, e1, e2, e3⟩ := hx p hp
  obtain ⟨xc, f1, f2, f3⟩ := hx c hc
  obtain ⟨i1, g1⟩ := List.getElem?_eq_some_iff.1 e1
  obtain ⟨i2, g2⟩ := List.getElem?_eq_some_iff.1 f1
  have hle : ∀ {a b : Name}, a ≤ b → a ≠ b → a < b := by
    intro a b h1 h2
    exact Std.lt_of_le_of_ne h1 h2
  have key : idxOf ns p < idxOf ns c → depthOf ns p < depthOf ns c ∨
      (depthOf ns p = depthOf ns c ∧ p < c) := by
    intro h
    have := List.pairwise_iff_getElem.1 hs _ _ i1 i2 h
    rw [g1, g2] at this
    simp only [keyLe, Bool.or_eq_true, Bool.and_eq_true, decide_eq_true_eq, e2, e3, f2, f3] at this
    rcases this with h' | ⟨h', h''⟩
    · exact .inl h'
    · refine .inr ⟨h', hle h'' ?_⟩
      intro e; subst e; exact Nat.lt_irrefl _ h
  refine ⟨key, ?_⟩
  intro h
  rcases Nat.lt_trichotomy (idxOf ns p) (idxOf ns c) with h' | h' | h'
  · exact h'
  · exfalso
    have : p = c := by
      have e := (idx_spec hp).1
      rw [h', (idx_spec hc).1] at e
      exact (Option.some.inj e).symm
    subst this
    rcases h with h | ⟨_, h⟩
    · omega
    · exact absurd h (String.lt_irrefl _)
  · exfalso
    have := List.pairwise_iff_getElem.1 hs _ _ i2 i1 h'
    rw [g1, g2] at this
    simp only [keyLe, Bool.or_eq_true, Bool.and_eq_true, decide_eq_true_eq, e2, e3, f2, f3] at this
    rcases this with h1 | ⟨h1, h2⟩
    · rcases h with h | ⟨h, _⟩ <;> omega
    · rcases h with h | ⟨_, h⟩
      · omega
      · exact absurd (Std.lt_of_lt_of_le h h2) (String.lt_irrefl _)

/-- Everything in a history was made by the constructors. -/
theorem reach_wf {calls : List Call} {s : Space} (h : Reach calls s) :
    (∀ x ∈ allHps calls, x.wf = true) ∧ (∀ c ∈ allConds calls, c.wf = true) ∧
    (∀ f ∈ allForbs calls, f.wf = true) := by
  induction h with
  | nil => simp [allHps, allConds, allForbs]
  | @snoc calls s s' k _ hw _ ih =>
    obtain ⟨h1, h2, h3⟩ := hw
    obtain ⟨i1, i2, i3⟩ := ih
    refine ⟨?_, ?_, ?_⟩
    · intro x hx
      simp only [allHps, List.flatMap_append, List.mem_append, List.flatMap_cons, List.flatMap_nil,
        List.append_nil] at hx
      exact hx.elim (i1 x) (h1 x)
    · intro x hx
      simp only [allConds, List.flatMap_append, List.mem_append, List.flatMap_cons, List.flatMap_nil,
        List.append_nil] at hx
      exact hx.elim (i2 x) (h2 x)
    · intro x hx
      simp only [allForbs, List.flatMap_append, List.mem_append, List.flatMap_cons, List.flatMap_nil,
        List.append_nil] at hx
      exact hx.elim (i3 x) (h3 x)

end Verif
