import Verif.Lemmas.Check

/-!
# The dependants of condition nodes and `change_hp_lookup`
-/

set_option autoImplicit false

namespace Verif
open Verif.Spec

/-- The `i`-th condition node has `n` among its children. -/
def KidOf (cs : List CNode) (i : Nat) (n : Name) : Prop := ∃ c, cs[i]? = some c ∧ n ∈ c.kids
/-- The condition of the `i`-th node mentions `p`. -/
def ParOf (cs : List CNode) (i : Nat) (p : Name) : Prop := ∃ c, cs[i]? = some c ∧ p ∈ c.parents
/-- A child of the `a`-th node is a parent of the `b`-th. -/
def GEdge (cs : List CNode) (a b : Nat) : Prop := ∃ n, KidOf cs a n ∧ ParOf cs b n

theorem Path.last {α : Type} {E : α → α → Prop} {a b : α} (h : Path E a b) :
    ∃ c, (c = a ∨ Path E a c) ∧ E c b := by
  induction h with
  | edge e => exact ⟨_, .inl rfl, e⟩
  | cons e _ ih =>
    obtain ⟨c, hc, he⟩ := ih
    rcases hc with rfl | hc
    · exact ⟨_, .inr (.edge e), he⟩
    · exact ⟨c, .inr (.cons e hc), he⟩

variable {cs : List CNode}

theorem mem_kids_opt {i : Nat} {n : Name} : n ∈ ((cs[i]?).map CNode.kids).getD [] ↔ KidOf cs i n := by
  unfold KidOf
  cases cs[i]? <;> simp

theorem mem_pars_opt {i : Nat} {n : Name} : n ∈ ((cs[i]?).map CNode.parents).getD [] ↔ ParOf cs i n := by
  unfold ParOf
  cases cs[i]? <;> simp

theorem KidOf.lt {i : Nat} {n : Name} (h : KidOf cs i n) : i < cs.length := by
  obtain ⟨c, hc, _⟩ := h; exact (List.getElem?_eq_some_iff.1 hc).1

theorem ParOf.lt {i : Nat} {n : Name} (h : ParOf cs i n) : i < cs.length := by
  obtain ⟨c, hc, _⟩ := h; exact (List.getElem?_eq_some_iff.1 hc).1

/-- The recorded dependants depend on the node. -/
def DepsSound (cs : List CNode) (ds : Deps) : Prop := ∀ i j, j ∈ ds.getD i [] → Path (GEdge cs) i j

theorem depNames_sound {ds : Deps} (hs : DepsSound cs ds) : ∀ (k i : Nat) (n : Name),
    n ∈ depNames cs ds k i → ∃ j, (j = i ∨ Path (GEdge cs) i j) ∧ KidOf cs j n := by
  intro k
  induction k with
  | zero => intro i n h; simp [depNames] at h
  | succ k ih =>
    intro i n h
    simp only [depNames, List.mem_append, List.mem_flatMap] at h
    rcases h with h | ⟨j, hj, h⟩
    · exact ⟨i, .inl rfl, mem_kids_opt.1 h⟩
    · obtain ⟨m, hm, hk⟩ := ih j n h
      refine ⟨m, .inr ?_, hk⟩
      rcases hm with rfl | hm
      · exact hs _ _ hj
      · exact (hs _ _ hj).trans hm

theorem dependsOn_sound {ds : Deps} (hs : DepsSound cs ds) {a b : Nat} (h : dependsOn cs ds b a = true) :
    Path (GEdge cs) a b := by
  simp only [dependsOn, List.any_eq_true, decide_eq_true_eq] at h
  obtain ⟨p, hp, hd⟩ := h
  obtain ⟨j, hj, hk⟩ := depNames_sound hs _ _ _ hd
  have he : GEdge cs j b := ⟨p, hk, mem_pars_opt.1 hp⟩
  rcases hj with rfl | hj
  · exact .edge he
  · exact hj.trans (.edge he)

theorem getD_set {ds : Deps} {i j : Nat} {x : List Nat} (hi : i < ds.length) :
    (ds.set i x).getD j [] = if j = i then x else ds.getD j [] := by
  simp only [List.getD_eq_getElem?_getD]
  by_cases h : j = i
  · subst h; simp [hi]
  · rw [if_neg h, List.getElem?_set_ne (fun e => h e.symm)]

theorem mem_getD_set {ds : Deps} {i j m : Nat} {x : List Nat} (h : m ∈ (ds.set i x).getD j []) :
    (j = i ∧ m ∈ x) ∨ m ∈ ds.getD j [] := by
  by_cases hi : i < ds.length
  · rw [getD_set hi] at h
    split at h
    · rename_i e; exact .inl ⟨e, h⟩
    · exact .inr h
  · rw [List.set_eq_of_length_le (by omega)] at h
    exact .inr h

theorem mem_sortIdx {key : Nat → Nat} {l : List Nat} {x : Nat} : x ∈ sortIdx key l ↔ x ∈ l := mem_sortBy

theorem sortIdx_sorted (key : Nat → Nat) (l : List Nat) :
    (sortIdx key l).Pairwise (fun a b => key a ≤ key b) := by
  have := sortBy_pairwise (le := fun a b => decide (key a ≤ key b))
    (fun a b => by simp only [decide_eq_true_eq]; omega)
    (fun a b c => by simp only [decide_eq_true_eq]; omega) l
  simpa [sortIdx] using this

theorem depStep_sound {key : Nat → Nat} {st : DepState} {ab : Nat × Nat} (hs : DepsSound cs st.deps) :
    DepsSound cs (depStep cs key st ab).deps := by
  unfold depStep
  split
  · exact hs
  · split
    · rename_i hd
      intro i j hj
      rcases mem_getD_set hj with ⟨rfl, hm⟩ | hm
      · rw [mem_sortIdx, List.mem_append, List.mem_singleton] at hm
        rcases hm with hm | rfl
        · exact hs _ _ hm
        · exact dependsOn_sound hs hd
      · exact hs _ _ hm
    · exact hs

theorem depFold_sound {key : Nat → Nat} : ∀ (l : List (Nat × Nat)) (st : DepState), DepsSound cs st.deps →
    DepsSound cs (l.foldl (depStep cs key) st).deps := by
  intro l
  induction l with
  | nil => intro st h; exact h
  | cons x xs ih => intro st h; exact ih _ (depStep_sound h)

theorem depLoop_sound {key : Nat → Nat} : ∀ (k : Nat) (ds : Deps) (alive : List Nat), DepsSound cs ds →
    DepsSound cs (depLoop cs key k ds alive).1 := by
  intro k
  induction k with
  | zero => intro ds alive h; exact h
  | succ k ih =>
    intro ds alive h
    unfold depLoop
    simp only
    split
    · exact ih _ _ (depFold_sound _ _ h)
    · exact depFold_sound _ _ h

/-! ## The lookup -/

/-- What holds of the members of each entry of the lookup holds after the traversal. -/
theorem lookupStep_mem {key : Nat → Nat} {entry : List Nat} {m : Lookup} {p q : Name} {j : Nat} :
    j ∈ ((lookupStep key entry m p).lookup q).getD [] ↔
      j ∈ (m.lookup q).getD [] ∨ (q = p ∧ j ∈ entry) := by
  unfold lookupStep
  cases hp : m.lookup p with
  | none =>
    simp only
    by_cases h : q = p
    · subst h
      rw [List.lookup_append, hp]
      simp
    · rw [List.lookup_append]
      have hq : (q == p) = false := by simpa using h
      simp [List.lookup_cons, hq, h]
  | some xs =>
    simp only
    rw [dictSet_lookup]
    by_cases h : q = p
    · subst h
      simp [hp, mem_sortIdx]
    · simp [h]

theorem lookupFold_mem {key : Nat → Nat} {entry : List Nat} {q : Name} {j : Nat} :
    ∀ (ps : List Name) (m : Lookup),
    j ∈ ((ps.foldl (lookupStep key entry) m).lookup q).getD [] ↔
      j ∈ (m.lookup q).getD [] ∨ (q ∈ ps ∧ j ∈ entry) := by
  intro ps
  induction ps with
  | nil => simp
  | cons p ps ih =>
    intro m
    rw [List.foldl_cons, ih, lookupStep_mem]
    simp only [List.mem_cons]
    constructor
    · rintro ((h | ⟨h1, h2⟩) | ⟨h1, h2⟩)
      · exact .inl h
      · exact .inr ⟨.inl h1, h2⟩
      · exact .inr ⟨.inr h1, h2⟩
    · rintro (h | ⟨h1 | h1, h2⟩)
      · exact .inl (.inl h)
      · exact .inl (.inr ⟨h1, h2⟩)
      · exact .inr ⟨h1, h2⟩

theorem buildLookup_mem {ds : Deps} {key : Nat → Nat} {order : List Nat} {q : Name} {j : Nat} :
    j ∈ ((buildLookup cs ds key order).lookup q).getD [] ↔
      ∃ i ∈ order, ParOf cs i q ∧ (j = i ∨ j ∈ ds.getD i []) := by
  unfold buildLookup
  have gen : ∀ (order : List Nat) (m : Lookup),
      j ∈ ((order.foldl (fun m i => (((cs[i]?).map CNode.parents).getD []).foldl
        (lookupStep key (i :: ds.getD i [])) m) m).lookup q).getD [] ↔
      j ∈ (m.lookup q).getD [] ∨ ∃ i ∈ order, ParOf cs i q ∧ (j = i ∨ j ∈ ds.getD i []) := by
    intro order
    induction order with
    | nil => simp
    | cons i order ih =>
      intro m
      rw [List.foldl_cons, ih, lookupFold_mem, mem_pars_opt]
      simp only [List.mem_cons, exists_eq_or_imp]
      exact or_assoc
  rw [gen]
  simp

/-- The lookup only contains nodes that depend on the name. -/
theorem changeLookup_sound {ns : Nodes} {q : Name} {j : Nat}
    (h : j ∈ ((changeLookup ns cs).lookup q).getD []) :
    ∃ i, ParOf cs i q ∧ (j = i ∨ Path (GEdge cs) i j) := by
  unfold changeLookup at h
  simp only at h
  rw [buildLookup_mem] at h
  obtain ⟨i, _, hp, hj⟩ := h
  refine ⟨i, hp, ?_⟩
  rcases hj with rfl | hj
  · exact .inl rfl
  · refine .inr (depLoop_sound (key := fun i => ((cs[i]?).map (shallowest ns)).getD 0) _ _ _ ?_ _ _ hj)
    intro a b hab
    rw [List.getD_eq_getElem?_getD, List.getElem?_replicate] at hab
    split at hab <;> simp at hab

/-! ## Edges between condition nodes come from edges between hyperparameters -/

theorem equiv_parents : ∀ (c d : Cond), c.equivOnParent d = true → ∀ p ∈ c.parents, p ∈ d.parents := by
  intro c
  have conj : ∀ (cs ds : List Cond), (∀ x ∈ cs, ∀ d, x.equivOnParent d = true → ∀ p ∈ x.parents, p ∈ d.parents) →
      Cond.allEquiv cs ds = true → ∀ p ∈ parentsL cs, p ∈ parentsL ds := by
    intro cs ds
    induction cs with
    | nil => intro _ _ p hp; simp [parentsL, Cond.dlcsL] at hp
    | cons x xs ih =>
      intro hx h p hp
      simp only [Cond.allEquiv, Bool.and_eq_true, List.any_eq_true] at h
      rw [parentsL_cons, List.mem_append] at hp
      rcases hp with hp | hp
      · obtain ⟨d, hd, he⟩ := h.1
        rw [mem_parentsL]
        exact ⟨d, hd, hx x (by simp) d he p hp⟩
      · exact ih (fun y hy => hx y (by simp [hy])) h.2 p hp
  induction c using Cond.induct with
  | hl l =>
    intro d h p hp
    cases d with
    | lit m =>
      simp only [Cond.equivOnParent, Lit.equivOnParent, Bool.and_eq_true] at h
      simpa [Cond.parents, Cond.dlcs, HP.pyEq_name h.1] using hp
    | and ds => simp [Cond.equivOnParent] at h
    | or ds => simp [Cond.equivOnParent] at h
  | ha cs ih =>
    intro d h p hp
    rw [parents_and] at hp
    cases d with
    | lit m => simp [Cond.equivOnParent] at h
    | and ds =>
      simp only [Cond.equivOnParent, Bool.and_eq_true] at h
      rw [parents_and]; exact conj cs ds ih h.2 p hp
    | or ds =>
      simp only [Cond.equivOnParent, Bool.and_eq_true] at h
      rw [parents_or]; exact conj cs ds ih h.2 p hp
  | ho cs ih =>
    intro d h p hp
    rw [parents_or] at hp
    cases d with
    | lit m => simp [Cond.equivOnParent] at h
    | and ds =>
      simp only [Cond.equivOnParent, Bool.and_eq_true] at h
      rw [parents_and]; exact conj cs ds ih h.2 p hp
    | or ds =>
      simp only [Cond.equivOnParent, Bool.and_eq_true] at h
      rw [parents_or]; exact conj cs ds ih h.2 p hp

variable {calls : List Call} {s : Space}

/-- A parent of a condition node is a parent of each of its children. -/
theorem group_edge (h : Reach calls s) {i : Nat} {p k : Name} (hp : ParOf s.minConds i p)
    (hk : KidOf s.minConds i k) : Edge s.com p k := by
  have hi := sinv_of_reach h
  have hg := groupsOk_sorted s.com
  rw [← hi.mins] at hg
  obtain ⟨c, hc, hp⟩ := hp
  obtain ⟨c', hc', hk⟩ := hk
  rw [hc] at hc'
  cases hc'
  obtain ⟨x, hx, rfl, d, hd, he⟩ := hg.members c (List.mem_of_getElem? hc) k hk
  obtain ⟨h1, h2, _⟩ := node_cond h hx hd
  rw [reach_edge h]
  refine ⟨d, h1, h2, parents_iff.1 ?_⟩
  rcases he with rfl | he
  · exact hp
  · exact equiv_parents _ _ he p hp

theorem gpath_path (h : Reach calls s) {i j : Nat} (hpath : Path (GEdge s.minConds) i j) :
    ∀ {p k : Name}, ParOf s.minConds i p → KidOf s.minConds j k → Path (Edge s.com) p k := by
  induction hpath with
  | edge e =>
    intro p k hp hk
    obtain ⟨n, h1, h2⟩ := e
    exact .cons (group_edge h hp h1) (.edge (group_edge h h2 hk))
  | cons e _ ih =>
    intro p k hp hk
    obtain ⟨n, h1, h2⟩ := e
    exact .cons (group_edge h hp h1) (ih h2 hk)

/-- **Soundness of the lookup**: changing `q` only touches hyperparameters that depend on `q`. -/
theorem lookup_path (h : Reach calls s) {q k : Name} {j : Nat} (hj : j ∈ (s.lookup.lookup q).getD [])
    (hk : KidOf s.minConds j k) : Path (Edge s.com) q k := by
  have hi := sinv_of_reach h
  rw [hi.lookup] at hj
  obtain ⟨i, hp, hij⟩ := changeLookup_sound hj
  rcases hij with rfl | hij
  · exact .edge (group_edge h hp hk)
  · exact gpath_path h hij hp hk

end Verif
