import Verif.Lemmas.Change
import Verif.Spec.Layered

/-!
# Completeness of `change_hp_lookup` when the order of the condition nodes is topological
-/

set_option autoImplicit false

namespace Verif
open Verif.Spec

variable {cs : List CNode}

/-- Edges between condition nodes go up in position. -/
def Topo (cs : List CNode) : Prop := ∀ i j, GEdge cs i j → i < j

theorem Topo.path (h : Topo cs) {i j : Nat} (p : Path (GEdge cs) i j) : i < j := by
  induction p with
  | edge e => exact h _ _ e
  | cons e _ ih => exact Nat.lt_trans (h _ _ e) ih

theorem GEdge.lt_left {i j : Nat} (h : GEdge cs i j) : i < cs.length := by
  obtain ⟨n, h1, _⟩ := h; exact h1.lt
theorem GEdge.lt_right {i j : Nat} (h : GEdge cs i j) : j < cs.length := by
  obtain ⟨n, _, h1⟩ := h; exact h1.lt

theorem gpath_lt_right {i j : Nat} (p : Path (GEdge cs) i j) : j < cs.length := by
  obtain ⟨c, _, e⟩ := Path.last p; exact e.lt_right

/-- The dependants recorded later include those recorded earlier. -/
def DLe (ds ds' : Deps) : Prop := ds'.length = ds.length ∧ ∀ i j, j ∈ ds.getD i [] → j ∈ ds'.getD i []

theorem DLe.refl (ds : Deps) : DLe ds ds := ⟨rfl, fun _ _ h => h⟩
theorem DLe.trans {a b c : Deps} (h : DLe a b) (h' : DLe b c) : DLe a c :=
  ⟨h'.1.trans h.1, fun i j k => h'.2 i j (h.2 i j k)⟩

theorem depStep_le {key : Nat → Nat} {st : DepState} {ab : Nat × Nat} :
    DLe st.deps (depStep cs key st ab).deps := by
  unfold depStep
  split
  · exact DLe.refl _
  · split
    · refine ⟨by simp, ?_⟩
      intro i j hj
      by_cases hi : ab.1 < st.deps.length
      · simp only [getD_set hi]
        split
        · rename_i e; subst e
          rw [mem_sortIdx, List.mem_append]; exact .inl hj
        · exact hj
      · simp only [List.set_eq_of_length_le (Nat.le_of_not_lt hi)]
        exact hj
    · exact DLe.refl _

theorem depFold_le {key : Nat → Nat} : ∀ (l : List (Nat × Nat)) (st : DepState),
    DLe st.deps (l.foldl (depStep cs key) st).deps := by
  intro l
  induction l with
  | nil => intro st; exact DLe.refl _
  | cons x xs ih => intro st; exact depStep_le.trans (ih _)

theorem depLoop_le {key : Nat → Nat} : ∀ (k : Nat) (ds : Deps) (alive : List Nat),
    DLe ds (depLoop cs key k ds alive).1 := by
  intro k
  induction k with
  | zero => intro ds alive; exact DLe.refl _
  | succ k ih =>
    intro ds alive
    unfold depLoop
    simp only
    split
    · exact (depFold_le _ _).trans (ih _ _)
    · exact depFold_le _ _

/-- A row of the product: after the pairs `(a, 0), ..., (a, m - 1)` everything below `m` that depends on `a` is
recorded. -/
theorem depRow_complete {key : Nat → Nat} (ht : Topo cs) {a : Nat} (ha : a < cs.length) : ∀ (m : Nat)
    (st : DepState), st.deps.length = cs.length → ∀ b, b < m → Path (GEdge cs) a b →
    b ∈ (((List.range m).map (fun b => (a, b))).foldl (depStep cs key) st).deps.getD a [] := by
  intro m
  induction m with
  | zero => intro st _ b hb; omega
  | succ m ih =>
    intro st hl b hb hp
    rw [List.range_succ, List.map_append, List.foldl_append]
    simp only [List.map_cons, List.map_nil, List.foldl_cons, List.foldl_nil]
    generalize hst : ((List.range m).map (fun b => (a, b))).foldl (depStep cs key) st = st'
    have hih : ∀ c, c < m → Path (GEdge cs) a c → c ∈ st'.deps.getD a [] := by
      intro c hc hpc
      rw [← hst]; exact ih st hl c hc hpc
    have hl' : st'.deps.length = cs.length := by
      rw [← hst, (depFold_le _ _).1, hl]
    rcases Nat.lt_succ_iff_lt_or_eq.1 hb with hb | rfl
    · exact depStep_le.2 _ _ (hih b hb hp)
    · obtain ⟨c, hc, e⟩ := Path.last hp
      have hcb := ht _ _ e
      obtain ⟨n, hk, hpar⟩ := e
      have hn : n ∈ depNames cs st'.deps (cs.length + 1) a := by
        simp only [depNames, List.mem_append, List.mem_flatMap]
        rcases hc with rfl | hc
        · exact .inl (mem_kids_opt.2 hk)
        · refine .inr ⟨c, hih c hcb hc, ?_⟩
          obtain ⟨k, hk'⟩ : ∃ k, cs.length = k + 1 := ⟨cs.length - 1, by omega⟩
          rw [hk', depNames, List.mem_append]
          exact .inl (mem_kids_opt.2 hk)
      have hd : dependsOn cs st'.deps b a = true := by
        simp only [dependsOn, List.any_eq_true, decide_eq_true_eq]
        exact ⟨n, mem_pars_opt.2 hpar, hn⟩
      have hab : a < b := ht.path hp
      unfold depStep
      simp only [if_neg (Nat.ne_of_lt hab), hd, if_true]
      rw [getD_set (by omega), if_pos rfl, mem_sortIdx]
      simp

theorem depPass_complete {key : Nat → Nat} (ht : Topo cs) {st : DepState} (hl : st.deps.length = cs.length) :
    ∀ a b, Path (GEdge cs) a b →
      b ∈ ((pairs (List.range cs.length)).foldl (depStep cs key) st).deps.getD a [] := by
  intro a b hp
  have hb := gpath_lt_right hp
  have hab := ht.path hp
  have ha : a < cs.length := by omega
  unfold pairs
  obtain ⟨l1, l2, hsplit⟩ := List.append_of_mem (List.mem_range.2 ha)
  have hfm : (List.range cs.length).flatMap (fun a => (List.range cs.length).map (fun b => (a, b))) =
      l1.flatMap (fun a => (List.range cs.length).map (fun b => (a, b))) ++
        ((List.range cs.length).map (fun b => (a, b)) ++
          l2.flatMap (fun a => (List.range cs.length).map (fun b => (a, b)))) := by
    conv => lhs; arg 2; rw [hsplit]
    rw [List.flatMap_append, List.flatMap_cons]
  rw [hfm, List.foldl_append, List.foldl_append]
  refine (depFold_le _ _).2 _ _ ?_
  refine depRow_complete ht ha cs.length _ ?_ b hb hp
  rw [(depFold_le _ _).1, hl]

/-- Whatever is no longer alive is recorded as a dependant. -/
def AliveOk (n : Nat) (ds : Deps) (alive : List Nat) : Prop :=
  ∀ i, i < n → i ∈ alive ∨ ∃ a, i ∈ ds.getD a []

theorem depStep_alive {key : Nat → Nat} {st : DepState} {a b n : Nat} (ha : a < st.deps.length)
    (h : AliveOk n st.deps st.alive) :
    AliveOk n (depStep cs key st (a, b)).deps (depStep cs key st (a, b)).alive := by
  intro i hi
  rcases h i hi with hm | ⟨c, hc⟩
  · unfold depStep
    simp only
    split
    · exact .inl hm
    · split
      · by_cases e : i = b
        · refine .inr ⟨a, ?_⟩
          simp only
          rw [getD_set ha, if_pos rfl, mem_sortIdx]
          simp [e]
        · exact .inl (by simp [hm, e])
      · exact .inl hm
  · exact .inr ⟨c, depStep_le.2 _ _ hc⟩

theorem depStep_alive_sub {key : Nat → Nat} {st : DepState} {ab : Nat × Nat} {i : Nat}
    (h : i ∈ (depStep cs key st ab).alive) : i ∈ st.alive := by
  unfold depStep at h
  split at h
  · exact h
  · split at h
    · exact (List.mem_filter.1 h).1
    · exact h

theorem depFold_alive {key : Nat → Nat} {n : Nat} : ∀ (l : List (Nat × Nat)) (st : DepState),
    (∀ ab ∈ l, ab.1 < st.deps.length) → AliveOk n st.deps st.alive →
    AliveOk n (l.foldl (depStep cs key) st).deps (l.foldl (depStep cs key) st).alive ∧
      ∀ i ∈ (l.foldl (depStep cs key) st).alive, i ∈ st.alive := by
  intro l
  induction l with
  | nil => intro st _ h; exact ⟨h, fun _ h => h⟩
  | cons x xs ih =>
    intro st hl h
    obtain ⟨a, b⟩ := x
    have h1 := depStep_alive (cs := cs) (key := key) (b := b) (hl (a, b) (by simp)) h
    obtain ⟨k1, k2⟩ := ih (depStep cs key st (a, b)) (by
      intro ab hab
      rw [(depStep_le (cs := cs) (key := key) (st := st) (ab := (a, b))).1]
      exact hl ab (by simp [hab])) h1
    exact ⟨k1, fun i hi => depStep_alive_sub (k2 i hi)⟩

theorem mem_pairs {xs : List Nat} {ab : Nat × Nat} : ab ∈ pairs xs ↔ ab.1 ∈ xs ∧ ab.2 ∈ xs := by
  unfold pairs
  simp only [List.mem_flatMap, List.mem_map]
  constructor
  · rintro ⟨a, ha, b, hb, rfl⟩; exact ⟨ha, hb⟩
  · rintro ⟨h1, h2⟩; exact ⟨ab.1, h1, ab.2, h2, rfl⟩

theorem depLoop_alive {key : Nat → Nat} {n : Nat} : ∀ (k : Nat) (ds : Deps) (alive : List Nat),
    (∀ i ∈ alive, i < ds.length) → AliveOk n ds alive →
    AliveOk n (depLoop cs key k ds alive).1 (depLoop cs key k ds alive).2 ∧
      ∀ i ∈ (depLoop cs key k ds alive).2, i ∈ alive := by
  intro k
  induction k with
  | zero => intro ds alive _ h; exact ⟨h, fun _ h => h⟩
  | succ k ih =>
    intro ds alive hl h
    unfold depLoop
    simp only
    obtain ⟨h1, h2⟩ := depFold_alive (cs := cs) (key := key) (n := n) (pairs alive)
      { deps := ds, alive := alive, updated := false } (fun ab hab => hl _ (mem_pairs.1 hab).1) h
    split
    · obtain ⟨k1, k2⟩ := ih _ _ (fun i hi => by rw [(depFold_le _ _).1]; exact hl i (h2 i hi)) h1
      exact ⟨k1, fun i hi => h2 i (k2 i hi)⟩
    · exact ⟨h1, h2⟩

/-! ## The rows are strictly increasing -/

theorem sortBy_of_pairwise {α : Type} {le : α → α → Bool} : ∀ {l : List α},
    l.Pairwise (fun a b => le a b = true) → sortBy le l = l := by
  intro l
  induction l with
  | nil => intro _; rfl
  | cons x xs ih =>
    intro h
    obtain ⟨h1, h2⟩ := List.pairwise_cons.1 h
    rw [sortBy, ih h2]
    cases xs with
    | nil => rfl
    | cons y ys => simp [insBy, h1 y (by simp)]

/-- Keys do not decrease with the position. -/
def KeyMono (n : Nat) (key : Nat → Nat) : Prop := ∀ i j, i ≤ j → j < n → key i ≤ key j

theorem depStep_other {key : Nat → Nat} {st : DepState} {ab : Nat × Nat} {a : Nat} (h : a ≠ ab.1) :
    (depStep cs key st ab).deps.getD a [] = st.deps.getD a [] := by
  unfold depStep
  split
  · rfl
  · split
    · by_cases hi : ab.1 < st.deps.length
      · simp only [getD_set hi, if_neg h]
      · simp only [List.set_eq_of_length_le (Nat.le_of_not_lt hi)]
    · rfl

theorem depFold_other {key : Nat → Nat} {a : Nat} : ∀ (l : List (Nat × Nat)) (st : DepState),
    (∀ ab ∈ l, a ≠ ab.1) → (l.foldl (depStep cs key) st).deps.getD a [] = st.deps.getD a [] := by
  intro l
  induction l with
  | nil => intro st _; rfl
  | cons x xs ih =>
    intro st h
    rw [List.foldl_cons, ih _ (fun ab hab => h ab (by simp [hab])), depStep_other (h x (by simp))]

theorem depRow_increasing {key : Nat → Nat} (hk : KeyMono cs.length key) {a : Nat} (ha : a < cs.length) :
    ∀ (m : Nat) (st : DepState), m ≤ cs.length → st.deps.length = cs.length → st.deps.getD a [] = [] →
    ((((List.range m).map (fun b => (a, b))).foldl (depStep cs key) st).deps.getD a []).Pairwise (· < ·) ∧
    ∀ x ∈ (((List.range m).map (fun b => (a, b))).foldl (depStep cs key) st).deps.getD a [], x < m := by
  intro m
  induction m with
  | zero => intro st _ _ h0; simp only [List.range_zero, List.map_nil, List.foldl_nil, h0]; simp
  | succ m ih =>
    intro st hm hl h0
    rw [List.range_succ, List.map_append, List.foldl_append]
    simp only [List.map_cons, List.map_nil, List.foldl_cons, List.foldl_nil]
    obtain ⟨h1, h2⟩ := ih st (by omega) hl h0
    generalize hst : ((List.range m).map (fun b => (a, b))).foldl (depStep cs key) st = st' at h1 h2 ⊢
    have hl' : st'.deps.length = cs.length := by
      rw [← hst, (depFold_le _ _).1, hl]
    have hold : (st'.deps.getD a []).Pairwise (· < ·) ∧ ∀ x ∈ st'.deps.getD a [], x < m + 1 :=
      ⟨h1, fun x hx => Nat.lt_succ_of_lt (h2 x hx)⟩
    unfold depStep
    simp only
    split
    · exact hold
    · split
      · simp only
        rw [getD_set (by omega), if_pos rfl]
        have hpw : (st'.deps.getD a [] ++ [m]).Pairwise (· < ·) := by
          rw [List.pairwise_append]
          refine ⟨h1, List.pairwise_singleton _ _, ?_⟩
          intro x hx y hy
          simp only [List.mem_singleton] at hy
          subst hy
          exact h2 x hx
        have hall : ∀ x ∈ st'.deps.getD a [] ++ [m], x < m + 1 := by
          intro x hx
          rcases List.mem_append.1 hx with hx | hx
          · exact hold.2 x hx
          · simp only [List.mem_singleton] at hx; omega
        have hs : sortIdx key (st'.deps.getD a [] ++ [m]) = st'.deps.getD a [] ++ [m] := by
          refine sortBy_of_pairwise (hpw.imp_of_mem ?_)
          intro x y _ hy hxy
          exact decide_eq_true (hk x y (Nat.le_of_lt hxy) (by have := hall y hy; omega))
        rw [hs]
        exact ⟨hpw, hall⟩
      · exact hold

theorem depPass_increasing {key : Nat → Nat} (hk : KeyMono cs.length key) {st : DepState}
    (hl : st.deps.length = cs.length) (h0 : ∀ a, st.deps.getD a [] = []) (a : Nat) :
    (((pairs (List.range cs.length)).foldl (depStep cs key) st).deps.getD a []).Pairwise (· < ·) := by
  by_cases ha : a < cs.length
  · have hfm : ∀ l : List Nat, l.Nodup → a ∈ l → ∀ st : DepState, st.deps.length = cs.length →
        (st.deps.getD a []) = [] →
        (((l.flatMap (fun a => (List.range cs.length).map (fun b => (a, b)))).foldl
          (depStep cs key) st).deps.getD a []).Pairwise (· < ·) := by
      intro l
      induction l with
      | nil => intro _ h; cases h
      | cons x xs ih =>
        intro hnd hm st hl h0
        rw [List.flatMap_cons, List.foldl_append]
        obtain ⟨n1, n2⟩ := List.nodup_cons.1 hnd
        by_cases e : a = x
        · subst e
          rw [depFold_other]
          · exact (depRow_increasing hk ha cs.length st (Nat.le_refl _) hl h0).1
          · intro ab hab
            obtain ⟨y, hy, hab⟩ := List.mem_flatMap.1 hab
            obtain ⟨b, _, rfl⟩ := List.mem_map.1 hab
            rintro rfl
            exact n1 hy
        · refine ih n2 ((List.mem_cons.1 hm).resolve_left e) _ ?_ ?_
          · rw [(depFold_le _ _).1, hl]
          · rw [depFold_other, h0]
            intro ab hab
            obtain ⟨b, _, rfl⟩ := List.mem_map.1 hab
            exact e
    exact hfm _ List.nodup_range (List.mem_range.2 ha) st hl (h0 a)
  · rw [List.getD_eq_getElem?_getD, List.getElem?_eq_none (by rw [(depFold_le _ _).1, hl]; omega)]
    exact List.Pairwise.nil

/-! ## Later passes change nothing -/

theorem depFold_alive_sub {key : Nat → Nat} : ∀ (l : List (Nat × Nat)) (st : DepState) {i : Nat},
    i ∈ (l.foldl (depStep cs key) st).alive → i ∈ st.alive := by
  intro l
  induction l with
  | nil => intro st i h; exact h
  | cons x xs ih => intro st i h; exact depStep_alive_sub (ih _ h)

theorem depFold_noop {key : Nat → Nat} : ∀ (l : List (Nat × Nat)) (st : DepState),
    (∀ ab ∈ l, dependsOn cs st.deps ab.2 ab.1 = false) → l.foldl (depStep cs key) st = st := by
  intro l
  induction l with
  | nil => intro st _; rfl
  | cons x xs ih =>
    intro st h
    have : depStep cs key st x = st := by
      unfold depStep
      simp [h x (by simp)]
    rw [List.foldl_cons, this, ih _ (fun ab hab => h ab (by simp [hab]))]

theorem depLoop_noop {key : Nat → Nat} {ds : Deps} {alive : List Nat}
    (h : ∀ ab ∈ pairs alive, dependsOn cs ds ab.2 ab.1 = false) : ∀ k, depLoop cs key k ds alive = (ds, alive) := by
  intro k
  cases k with
  | zero => rfl
  | succ k =>
    unfold depLoop
    rw [depFold_noop _ _ h]
    simp

theorem depRow_dead {key : Nat → Nat} (ht : Topo cs) {a : Nat} (ha : a < cs.length) : ∀ (m : Nat)
    (st : DepState), st.deps.length = cs.length → ∀ b, b < m → Path (GEdge cs) a b →
    b ∉ (((List.range m).map (fun b => (a, b))).foldl (depStep cs key) st).alive := by
  intro m
  induction m with
  | zero => intro st _ b hb; omega
  | succ m ih =>
    intro st hl b hb hp
    rw [List.range_succ, List.map_append, List.foldl_append]
    simp only [List.map_cons, List.map_nil, List.foldl_cons, List.foldl_nil]
    have hih : ∀ c, c < m → Path (GEdge cs) a c →
        c ∈ (((List.range m).map (fun b => (a, b))).foldl (depStep cs key) st).deps.getD a [] :=
      fun c hc hpc => depRow_complete ht ha m st hl c hc hpc
    have hdead := ih st hl
    generalize hst : ((List.range m).map (fun b => (a, b))).foldl (depStep cs key) st = st' at hih hdead ⊢
    rcases Nat.lt_succ_iff_lt_or_eq.1 hb with hb | rfl
    · exact fun h => hdead b hb hp (depStep_alive_sub h)
    · obtain ⟨c, hc, e⟩ := Path.last hp
      have hcb := ht _ _ e
      obtain ⟨n, hk, hpar⟩ := e
      have hn : n ∈ depNames cs st'.deps (cs.length + 1) a := by
        simp only [depNames, List.mem_append, List.mem_flatMap]
        rcases hc with rfl | hc
        · exact .inl (mem_kids_opt.2 hk)
        · refine .inr ⟨c, hih c hcb hc, ?_⟩
          obtain ⟨k, hk'⟩ : ∃ k, cs.length = k + 1 := ⟨cs.length - 1, by omega⟩
          rw [hk', depNames, List.mem_append]
          exact .inl (mem_kids_opt.2 hk)
      have hd : dependsOn cs st'.deps b a = true := by
        simp only [dependsOn, List.any_eq_true, decide_eq_true_eq]
        exact ⟨n, mem_pars_opt.2 hpar, hn⟩
      have hab : a < b := ht.path hp
      unfold depStep
      simp only [if_neg (Nat.ne_of_lt hab), hd, if_true]
      simp

theorem depPass_dead {key : Nat → Nat} (ht : Topo cs) {st : DepState} (hl : st.deps.length = cs.length) :
    ∀ a b, Path (GEdge cs) a b → b ∉ ((pairs (List.range cs.length)).foldl (depStep cs key) st).alive := by
  intro a b hp
  have hb := gpath_lt_right hp
  have hab := ht.path hp
  have ha : a < cs.length := by omega
  unfold pairs
  obtain ⟨l1, l2, hsplit⟩ := List.append_of_mem (List.mem_range.2 ha)
  have hfm : (List.range cs.length).flatMap (fun a => (List.range cs.length).map (fun b => (a, b))) =
      l1.flatMap (fun a => (List.range cs.length).map (fun b => (a, b))) ++
        ((List.range cs.length).map (fun b => (a, b)) ++
          l2.flatMap (fun a => (List.range cs.length).map (fun b => (a, b)))) := by
    conv => lhs; arg 2; rw [hsplit]
    rw [List.flatMap_append, List.flatMap_cons]
  rw [hfm, List.foldl_append, List.foldl_append]
  intro h
  refine depRow_dead ht ha cs.length _ ?_ b hb hp (depFold_alive_sub _ _ h)
  rw [(depFold_le _ _).1, hl]

theorem getD_replicate_nil {n i : Nat} : (List.replicate n ([] : List Nat)).getD i [] = [] := by
  rw [List.getD_eq_getElem?_getD, List.getElem?_replicate]
  split <;> rfl

/-- The result of the loop over the dependants. -/
theorem depLoop_spec {key : Nat → Nat} (ht : Topo cs) (hk : KeyMono cs.length key) :
    let r := depLoop cs key (cs.length + 1) (List.replicate cs.length []) (List.range cs.length)
    (∀ a b, b ∈ r.1.getD a [] ↔ Path (GEdge cs) a b) ∧
    (∀ a, (r.1.getD a []).Pairwise (· < ·)) ∧
    (∀ i, i < cs.length → i ∈ r.2 ∨ ∃ a ∈ r.2, i ∈ r.1.getD a []) := by
  have hs0 : DepsSound cs (List.replicate cs.length []) := by
    intro i j h; rw [getD_replicate_nil] at h; cases h
  have hsound := depLoop_sound (cs := cs) (key := key) (cs.length + 1) _ (List.range cs.length) hs0
  have hinit : (List.replicate cs.length ([] : List Nat)).length = cs.length := by simp
  have hcomp0 := depPass_complete (cs := cs) (key := key) ht
      (st := { deps := List.replicate cs.length [], alive := List.range cs.length, updated := false }) hinit
  have hcomp : ∀ a b, Path (GEdge cs) a b →
      b ∈ (depLoop cs key (cs.length + 1) (List.replicate cs.length []) (List.range cs.length)).1.getD a [] := by
    intro a b hp
    unfold depLoop
    simp only
    split
    · exact (depLoop_le _ _ _).2 _ _ (hcomp0 a b hp)
    · exact hcomp0 a b hp
  have hiff : ∀ a b, b ∈ (depLoop cs key (cs.length + 1) (List.replicate cs.length []) (List.range cs.length)).1.getD a [] ↔
      Path (GEdge cs) a b := fun a b => ⟨hsound a b, hcomp a b⟩
  refine ⟨hiff, ?_, ?_⟩
  · intro a
    have hinc := depPass_increasing (cs := cs) (key := key) hk
      (st := { deps := List.replicate cs.length [], alive := List.range cs.length, updated := false }) hinit
      (fun a => getD_replicate_nil) a
    have hdead := depPass_dead (cs := cs) (key := key) ht
      (st := { deps := List.replicate cs.length [], alive := List.range cs.length, updated := false }) hinit
    have hsnd := depFold_sound (cs := cs) (key := key) (pairs (List.range cs.length))
      { deps := List.replicate cs.length [], alive := List.range cs.length, updated := false } hs0
    unfold depLoop
    simp only
    split
    · rw [depLoop_noop]
      · exact hinc
      · intro ab hab
        obtain ⟨_, h2⟩ := mem_pairs.1 hab
        cases hd : dependsOn cs ((pairs (List.range cs.length)).foldl (depStep cs key)
          { deps := List.replicate cs.length [], alive := List.range cs.length, updated := false }).deps ab.2 ab.1 with
        | false => rfl
        | true => exact absurd h2 (hdead ab.1 ab.2 (dependsOn_sound hsnd hd))
    · exact hinc
  · have hal := (depLoop_alive (cs := cs) (key := key) (n := cs.length) (cs.length + 1) (List.replicate cs.length [])
      (List.range cs.length) (by intro i hi; simpa using hi) (fun i hi => .inl (by simpa using hi))).1
    intro i
    induction i using Nat.strong_induction_on with
    | _ i ih =>
      intro hi
      rcases hal i hi with h | ⟨a, ha⟩
      · exact .inl h
      · have hp := (hiff a i).1 ha
        have hai := ht.path hp
        rcases ih a hai (by omega) with h | ⟨b, hb, hba⟩
        · exact .inr ⟨a, h, ha⟩
        · exact .inr ⟨b, hb, (hiff b i).2 (((hiff b a).1 hba).trans hp)⟩

theorem bfs_cover {ds : Deps} {k : Nat} {level : List Nat} {i : Nat} (hi : i ∈ level ∨ ∃ a ∈ level, i ∈ ds.getD a []) :
    i ∈ bfsOrder ds (k + 2) level := by
  cases level with
  | nil => simp at hi
  | cons x xs =>
    rw [bfsOrder.eq_3 _ _ _ (by simp)]
    rw [List.mem_append]
    rcases hi with hi | ⟨a, ha, hi⟩
    · exact .inl hi
    · right
      generalize hl : (x :: xs).flatMap (fun i => ds.getD i []) = l2
      have him : i ∈ l2 := by rw [← hl, List.mem_flatMap]; exact ⟨a, ha, hi⟩
      cases l2 with
      | nil => cases him
      | cons y ys =>
        rw [bfsOrder.eq_3 _ _ _ (by simp), List.mem_append]
        exact .inl him

/-- **Completeness of the lookup** for topologically ordered condition nodes: exactly the nodes that depend on the name. -/
theorem changeLookup_mem {ns : Nodes} (ht : Topo cs)
    (hk : KeyMono cs.length (fun i => ((cs[i]?).map (shallowest ns)).getD 0)) {q : Name} {j : Nat} :
    j ∈ ((changeLookup ns cs).lookup q).getD [] ↔ ∃ i, ParOf cs i q ∧ (j = i ∨ Path (GEdge cs) i j) := by
  refine ⟨changeLookup_sound, ?_⟩
  rintro ⟨i, hp, hj⟩
  unfold changeLookup
  simp only
  rw [buildLookup_mem]
  obtain ⟨h1, _, h3⟩ := depLoop_spec (cs := cs) (key := fun i => ((cs[i]?).map (shallowest ns)).getD 0) ht hk
  have hlt := hp.lt
  refine ⟨i, ?_, hp, ?_⟩
  · obtain ⟨k, hk⟩ : ∃ k, cs.length = k + 1 := ⟨cs.length - 1, by omega⟩
    have := h3 i hlt
    rw [show cs.length + 1 = k + 2 by omega]
    rw [show cs.length + 1 = k + 2 by omega] at this
    apply bfs_cover
    simp only [mem_sortIdx]
    exact this
  · rcases hj with rfl | hj
    · exact .inl rfl
    · exact .inr ((h1 i j).2 hj)

/-! ## Order inside the lists of the lookup -/

/-- A property of lists of positions that the construction of the lookup preserves. -/
structure SortStable (key : Nat → Nat) (P : List Nat → Prop) : Prop where
  append : ∀ a b, P a → P b → P (sortIdx key (a ++ b))

theorem buildLookup_all {ds : Deps} {key : Nat → Nat} {P : List Nat → Prop} (hP : SortStable key P) (hnil : P [])
    (hent : ∀ i, P (i :: ds.getD i [])) {order : List Nat} (q : Name) :
    P (((buildLookup cs ds key order).lookup q).getD []) := by
  have step : ∀ (i : Nat) (m : Lookup) (p : Name), (∀ q, P ((m.lookup q).getD [])) →
      ∀ q, P (((lookupStep key (i :: ds.getD i []) m p).lookup q).getD []) := by
    intro i m p hm q
    unfold lookupStep
    cases hp : m.lookup p with
    | none =>
      simp only
      rw [List.lookup_append]
      by_cases h : q = p
      · subst h
        rw [hp]
        simpa using hent i
      · have hq : (q == p) = false := by simpa using h
        simpa [List.lookup_cons, hq] using hm q
    | some xs =>
      simp only
      rw [dictSet_lookup]
      by_cases h : q = p
      · subst h
        have := hm q
        rw [hp] at this
        simpa using hP.append xs _ this (hent i)
      · simpa [h] using hm q
  unfold buildLookup
  have inner : ∀ (i : Nat) (ps : List Name) (m : Lookup), (∀ q, P ((m.lookup q).getD [])) →
      ∀ q, P (((ps.foldl (lookupStep key (i :: ds.getD i [])) m).lookup q).getD []) := by
    intro i ps
    induction ps with
    | nil => intro m hm; exact hm
    | cons p ps ih =>
      intro m hm
      exact ih _ (fun q => step i m p hm q)
  have outer : ∀ (order : List Nat) (m : Lookup), (∀ q, P ((m.lookup q).getD [])) →
      ∀ q, P (((order.foldl (fun m i => (((cs[i]?).map CNode.parents).getD []).foldl
        (lookupStep key (i :: ds.getD i [])) m) m).lookup q).getD []) := by
    intro order
    induction order with
    | nil => intro m hm; exact hm
    | cons i order ih => intro m hm; exact ih _ (inner i _ m hm)
  exact outer order [] (by simpa using hnil) q

/-- After every position come its direct dependants. -/
def Closed (cs : List CNode) : List Nat → Prop
  | [] => True
  | x :: l => (∀ j, GEdge cs x j → j ∈ l) ∧ Closed cs l

/-- No position comes after one of its direct dependants. -/
def NoBack (cs : List CNode) : List Nat → Prop
  | [] => True
  | x :: l => (∀ i ∈ l, ¬ GEdge cs i x) ∧ NoBack cs l

theorem Closed.append {a b : List Nat} (ha : Closed cs a) (hb : Closed cs b) : Closed cs (a ++ b) := by
  induction a with
  | nil => exact hb
  | cons x a ih => exact ⟨fun j hj => List.mem_append.2 (.inl (ha.1 j hj)), ih ha.2⟩

theorem Closed.mem {l : List Nat} (h : Closed cs l) {i j : Nat} (hi : i ∈ l) (e : GEdge cs i j) : j ∈ l := by
  induction l with
  | nil => cases hi
  | cons x l ih =>
    rcases List.mem_cons.1 hi with rfl | hi
    · exact List.mem_cons_of_mem _ (h.1 j e)
    · exact List.mem_cons_of_mem _ (ih h.2 hi)

theorem closed_insBy {key : Nat → Nat} (hk : ∀ i j, GEdge cs i j → key i ≤ key j) {x : Nat} : ∀ {l : List Nat},
    Closed cs l → (∀ j, GEdge cs x j → j ∈ l) →
    Closed cs (insBy (fun a b => decide (key a ≤ key b)) x l) := by
  intro l
  induction l with
  | nil => intro _ hx; exact ⟨fun j hj => absurd (hx j hj) (by simp), trivial⟩
  | cons y ys ih =>
    intro hl hx
    unfold insBy
    by_cases h : key x ≤ key y
    · simp only [decide_eq_true h, if_true]
      exact ⟨hx, hl⟩
    · rw [if_neg (by simpa using h)]
      refine ⟨?_, ih hl.2 ?_⟩
      · intro j hj
        exact ((insBy_perm _ x ys).mem_iff).2 (List.mem_cons_of_mem _ (hl.1 j hj))
      · intro j hj
        rcases List.mem_cons.1 (hx j hj) with rfl | hm
        · exact absurd (hk _ _ hj) h
        · exact hm

theorem closed_sortIdx {key : Nat → Nat} (hk : ∀ i j, GEdge cs i j → key i ≤ key j) : ∀ {l : List Nat},
    Closed cs l → Closed cs (sortIdx key l) := by
  intro l
  induction l with
  | nil => intro _; trivial
  | cons x l ih =>
    intro h
    exact closed_insBy hk (ih h.2) (fun j hj => mem_sortIdx.2 (h.1 j hj))

theorem closed_stable {key : Nat → Nat} (hk : ∀ i j, GEdge cs i j → key i ≤ key j) :
    SortStable key (Closed cs) := ⟨fun _ _ ha hb => closed_sortIdx hk (ha.append hb)⟩

theorem closed_of_increasing (ht : Topo cs) : ∀ {l : List Nat}, l.Pairwise (· < ·) →
    (∀ i j, i ∈ l → GEdge cs i j → j ∈ l) → Closed cs l := by
  intro l
  induction l with
  | nil => intro _ _; trivial
  | cons x l ih =>
    intro hp hc
    obtain ⟨h1, h2⟩ := List.pairwise_cons.1 hp
    refine ⟨?_, ih h2 ?_⟩
    · intro j hj
      rcases List.mem_cons.1 (hc x j (by simp) hj) with rfl | h
      · exact absurd (ht _ _ hj) (Nat.lt_irrefl _)
      · exact h
    · intro i j hi hj
      rcases List.mem_cons.1 (hc i j (by simp [hi]) hj) with rfl | h
      · have := ht _ _ hj
        have := h1 i hi
        omega
      · exact h

theorem noBack_of_sorted {key : Nat → Nat} (hk : ∀ i j, GEdge cs i j → key i < key j) : ∀ {l : List Nat},
    l.Pairwise (fun a b => key a ≤ key b) → NoBack cs l := by
  intro l
  induction l with
  | nil => intro _; trivial
  | cons x l ih =>
    intro hp
    obtain ⟨h1, h2⟩ := List.pairwise_cons.1 hp
    exact ⟨fun i hi e => absurd (hk _ _ e) (Nat.not_lt.2 (h1 i hi)), ih h2⟩

/-- The lists of the lookup are closed. -/
theorem changeLookup_closed {ns : Nodes} (ht : Topo cs)
    (hk : KeyMono cs.length (fun i => ((cs[i]?).map (shallowest ns)).getD 0)) (q : Name) :
    Closed cs (((changeLookup ns cs).lookup q).getD []) := by
  unfold changeLookup
  simp only
  obtain ⟨h1, h2, _⟩ := depLoop_spec (cs := cs) (key := fun i => ((cs[i]?).map (shallowest ns)).getD 0) ht hk
  refine buildLookup_all (closed_stable ?_) trivial ?_ q
  · intro i j e
    exact hk i j (Nat.le_of_lt (ht _ _ e)) e.lt_right
  · intro i
    refine closed_of_increasing ht (List.pairwise_cons.2 ⟨?_, h2 i⟩) ?_
    · intro j hj
      exact ht.path ((h1 i j).1 hj)
    · intro a b ha e
      refine List.mem_cons_of_mem _ ((h1 i b).2 ?_)
      rcases List.mem_cons.1 ha with rfl | ha
      · exact .edge e
      · exact ((h1 i a).1 ha).trans (.edge e)

/-- The lists of the lookup are sorted by depth. -/
theorem changeLookup_sorted {ns : Nodes} (ht : Topo cs)
    (hk : KeyMono cs.length (fun i => ((cs[i]?).map (shallowest ns)).getD 0)) (q : Name) :
    (((changeLookup ns cs).lookup q).getD []).Pairwise (fun a b =>
      ((cs[a]?).map (shallowest ns)).getD 0 ≤ ((cs[b]?).map (shallowest ns)).getD 0) := by
  unfold changeLookup
  simp only
  obtain ⟨h1, h2, _⟩ := depLoop_spec (cs := cs) (key := fun i => ((cs[i]?).map (shallowest ns)).getD 0) ht hk
  refine buildLookup_all (P := fun l => l.Pairwise (fun a b =>
      ((cs[a]?).map (shallowest ns)).getD 0 ≤ ((cs[b]?).map (shallowest ns)).getD 0))
    ⟨fun a b _ _ => sortIdx_sorted _ _⟩ List.Pairwise.nil ?_ q
  intro i
  have hp : (i :: (depLoop cs (fun i => ((cs[i]?).map (shallowest ns)).getD 0) (cs.length + 1)
      (List.replicate cs.length []) (List.range cs.length)).1.getD i []).Pairwise (· < ·) :=
    List.pairwise_cons.2 ⟨fun j hj => ht.path ((h1 i j).1 hj), h2 i⟩
  refine hp.imp_of_mem ?_
  intro a b ha hb hab
  refine hk a b (Nat.le_of_lt hab) ?_
  rcases List.mem_cons.1 hb with rfl | hb
  · rcases List.mem_cons.1 ha with rfl | ha
    · omega
    · have := ht.path ((h1 b a).1 ha); omega
  · exact gpath_lt_right ((h1 i b).1 hb)

end Verif
