import Verif.Lemmas.Build
import Verif.Lemmas.Deactivate
import Verif.Spec.Util

/-!
# Grids
-/

set_option autoImplicit false

namespace Verif
open Verif.Spec

variable {calls : List Call} {s : Space}

/-! ## Products -/

/-- An element of the product. -/
theorem mem_cartesian {sets : List (Name × List Val)} : ∀ {d : Dict}, d ∈ cartesian sets ↔
    List.Forall₂ (fun kv (st : Name × List Val) => kv.1 = st.1 ∧ ∃ w ∈ st.2, kv.2 = some w) d sets := by
  induction sets with
  | nil => intro d; simp [cartesian]
  | cons st sets ih =>
    obtain ⟨n, vs⟩ := st
    intro d
    simp only [cartesian, List.mem_flatMap, List.mem_map]
    constructor
    · rintro ⟨w, hw, d', hd', rfl⟩
      exact .cons ⟨rfl, w, hw, rfl⟩ (ih.1 hd')
    · intro hf
      cases hf with
      | @cons kv _ d' _ h1 h2 =>
        obtain ⟨k, o⟩ := kv
        obtain ⟨h1, w, hw, h3⟩ := h1
        simp only at h1 h3
        subst h1 h3
        exact ⟨w, hw, d', ih.2 h2, rfl⟩

theorem cartesian_keys {sets : List (Name × List Val)} {d : Dict} (hd : d ∈ cartesian sets) :
    d.map Prod.fst = sets.map Prod.fst := by
  have := mem_cartesian.1 hd
  clear hd
  induction this with
  | nil => rfl
  | cons h1 _ ih => simp [h1.1, ih]

theorem cartesian_mem {sets : List (Name × List Val)} {d : Dict} (hd : d ∈ cartesian sets) {kv : Name × Option Val}
    (hkv : kv ∈ d) : ∃ st ∈ sets, kv.1 = st.1 ∧ ∃ w ∈ st.2, kv.2 = some w := by
  have := mem_cartesian.1 hd
  clear hd
  induction this with
  | nil => cases hkv
  | @cons a b _ _ h1 _ ih =>
    rcases List.mem_cons.1 hkv with rfl | hkv
    · exact ⟨b, by simp, h1⟩
    · obtain ⟨st, k1, k2⟩ := ih hkv
      exact ⟨st, List.mem_cons_of_mem _ k1, k2⟩

/-- A given choice is in the product. -/
theorem cartesian_choice {sets : List (Name × List Val)} (f : Name → Val) (hf : ∀ st ∈ sets, f st.1 ∈ st.2) :
    sets.map (fun st => (st.1, some (f st.1))) ∈ cartesian sets := by
  induction sets with
  | nil => simp [cartesian]
  | cons st sets ih =>
    obtain ⟨n, vs⟩ := st
    simp only [cartesian, List.mem_flatMap, List.mem_map, List.map_cons]
    exact ⟨f n, hf (n, vs) (by simp), _, ih (fun st hst => hf st (List.mem_cons_of_mem _ hst)), rfl⟩

/-- Fixing the values of a point. -/
theorem cartesian_point {sets : List (Name × List Val)} : ∀ {pt : Dict}, (∀ kv ∈ pt, ∃ w, kv.2 = some w) →
    cartesian (pt.map (fun kv => (kv.1, kv.2.toList)) ++ sets) = (cartesian sets).map (fun d => pt ++ d) := by
  intro pt
  induction pt with
  | nil => intro _; simp
  | cons kv pt ih =>
    intro hall
    obtain ⟨n, o⟩ := kv
    obtain ⟨w, rfl⟩ := hall (n, o) (by simp)
    rw [List.map_cons, List.cons_append, cartesian, ih (fun kv hkv => hall kv (List.mem_cons_of_mem _ hkv))]
    simp

/-- The number of elements. -/
theorem cartesian_length {sets : List (Name × List Val)} :
    (cartesian sets).length = (sets.map (fun st => st.2.length)).prod := by
  induction sets with
  | nil => rfl
  | cons st sets ih =>
    obtain ⟨n, vs⟩ := st
    simp only [cartesian, List.map_cons, List.prod_cons, ← ih]
    induction vs with
    | nil => simp
    | cons v vs ihv => simp [List.flatMap_cons, ihv, Nat.succ_mul, Nat.add_comm]

/-! ## Value sets -/

theorem valueSets_ok {steps : List (Name × Nat)} : ∀ {ns : List Name} {sets : List (Name × List Val)},
    valueSets s steps ns = .ok sets → sets.map Prod.fst = ns ∧
    ∀ st ∈ sets, ∃ x, s.hp? st.1 = some x ∧ valueSet steps x = .ok st.2 := by
  intro ns
  induction ns with
  | nil => intro sets h; cases h; simp
  | cons n ns ih =>
    intro sets h
    unfold valueSets at h
    split at h
    · cases h
    · rename_i x hx
      split at h
      · cases h
      · rename_i vs hvs
        split at h
        · cases h
        · rename_i r hr
          cases h
          obtain ⟨h1, h2⟩ := ih hr
          refine ⟨by simp [h1], ?_⟩
          intro st hst
          rcases List.mem_cons.1 hst with rfl | hst
          · exact ⟨x, hx, hvs⟩
          · exact h2 st hst

theorem valueSets_total {steps : List (Name × Nat)} : ∀ {ns : List Name},
    (∀ n ∈ ns, ∃ x vs, s.hp? n = some x ∧ valueSet steps x = .ok vs) → ∃ sets, valueSets s steps ns = .ok sets := by
  intro ns
  induction ns with
  | nil => intro _; exact ⟨_, rfl⟩
  | cons n ns ih =>
    intro hall
    obtain ⟨x, vs, h1, h2⟩ := hall n (by simp)
    obtain ⟨r, hr⟩ := ih (fun m hm => hall m (List.mem_cons_of_mem _ hm))
    exact ⟨(n, vs) :: r, by unfold valueSets; rw [h1]; simp only; rw [h2]; simp only; rw [hr]⟩

theorem hp?_node (h : Reach calls s) {x : Node} (hx : x ∈ s.com) : s.hp? x.name = some x.hp := by
  unfold Space.hp?
  rw [findNode_of_mem (reach_ninv h).nodup hx]
  rfl

/-! ## Points -/

/-- A point of the grid: distinct known names with values of the value sets. -/
structure PtOk (s : Space) (steps : List (Name × Nat)) (pt : Dict) : Prop where
  nodup : (pt.map Prod.fst).Nodup
  ent : ∀ kv ∈ pt, ∃ x ∈ s.com, x.name = kv.1 ∧ ∃ w vs, kv.2 = some w ∧ valueSet steps x.hp = .ok vs ∧ w ∈ vs

theorem lookup_mem {β : Type} {d : List (Name × β)} {n : Name} {b : β} (h : d.lookup n = some b) : (n, b) ∈ d := by
  induction d with
  | nil => cases h
  | cons kv d ih =>
    obtain ⟨k, o⟩ := kv
    rw [List.lookup_cons] at h
    split at h
    · rename_i e
      simp only [beq_iff_eq] at e
      cases h
      subst e
      simp
    · exact List.mem_cons_of_mem _ (ih h)

theorem lookup_none_iff {β : Type} {d : List (Name × β)} {n : Name} : d.lookup n = none ↔ n ∉ d.map Prod.fst := by
  induction d with
  | nil => simp
  | cons kv d ih =>
    obtain ⟨k, o⟩ := kv
    rw [List.lookup_cons]
    by_cases e : n = k
    · subst e; simp
    · have : (n == k) = false := by simpa using e
      simp [this, ih, e]

theorem lookup_append {β : Type} {d e : List (Name × β)} {n : Name} :
    (d ++ e).lookup n = match d.lookup n with
      | some b => some b
      | none => e.lookup n := by
  induction d with
  | nil => rfl
  | cons kv d ih =>
    obtain ⟨k, o⟩ := kv
    rw [List.cons_append, List.lookup_cons, List.lookup_cons]
    split
    · rfl
    · exact ih

/-! ## Newly active hyperparameters -/

/-- `n` becomes active at the point. -/
def Newly (s : Space) (pt : Dict) (n : Name) : Prop :=
  n ∉ pt.map Prod.fst ∧ allCond pt (s.parentConds n) = .ok true

theorem newKids_ok {pt : Dict} : ∀ {ns acc r : List Name}, newKids s pt ns acc = .ok r → acc.Nodup →
    r.Nodup ∧ (∀ n ∈ r, n ∈ acc ∨ (n ∈ ns ∧ Newly s pt n)) ∧ (∀ n ∈ acc, n ∈ r) ∧
    (∀ n ∈ ns, n ∉ pt.map Prod.fst → (n ∈ r ∨ allCond pt (s.parentConds n) = .ok false)) := by
  intro ns
  induction ns with
  | nil => intro acc r h hnd; cases h; exact ⟨hnd, fun n hn => .inl hn, fun n hn => hn, by simp⟩
  | cons n ns ih =>
    intro acc r h hnd
    unfold newKids at h
    split at h
    · rename_i hor
      obtain ⟨h1, h2, h3, h4⟩ := ih h hnd
      refine ⟨h1, ?_, h3, ?_⟩
      · intro m hm
        rcases h2 m hm with k | ⟨k1, k2⟩
        · exact .inl k
        · exact .inr ⟨List.mem_cons_of_mem _ k1, k2⟩
      · intro m hm hpt
        rcases List.mem_cons.1 hm with rfl | hm
        · rcases hor with hor | hor
          · exact .inl (h3 _ hor)
          · rw [lookup_none_iff.2 hpt] at hor; cases hor
        · exact h4 m hm hpt
    · rename_i hor
      have hor1 : n ∉ acc := fun k => hor (.inl k)
      have hor2 : n ∉ pt.map Prod.fst := by
        rw [← lookup_none_iff]
        cases hl : pt.lookup n with
        | none => rfl
        | some o => exact absurd (.inr (by rw [hl]; rfl)) hor
      split at h
      · cases h
      · rename_i hb
        obtain ⟨h1, h2, h3, h4⟩ := ih h (by
          rw [List.nodup_append]
          refine ⟨hnd, by simp, ?_⟩
          intro a ha b hb e
          simp only [List.mem_singleton] at hb
          subst hb e
          exact hor1 ha)
        refine ⟨h1, ?_, fun m hm => h3 m (List.mem_append_left _ hm), ?_⟩
        · intro m hm
          rcases h2 m hm with k | ⟨k1, k2⟩
          · rcases List.mem_append.1 k with k | k
            · exact .inl k
            · simp only [List.mem_singleton] at k
              subst k
              exact .inr ⟨by simp, hor2, hb⟩
          · exact .inr ⟨List.mem_cons_of_mem _ k1, k2⟩
        · intro m hm hpt
          rcases List.mem_cons.1 hm with rfl | hm
          · exact .inl (h3 _ (by simp))
          · exact h4 m hm hpt
      · rename_i hb
        obtain ⟨h1, h2, h3, h4⟩ := ih h hnd
        refine ⟨h1, ?_, h3, ?_⟩
        · intro m hm
          rcases h2 m hm with k | ⟨k1, k2⟩
          · exact .inl k
          · exact .inr ⟨List.mem_cons_of_mem _ k1, k2⟩
        · intro m hm hpt
          rcases List.mem_cons.1 hm with rfl | hm
          · exact .inr hb
          · exact h4 m hm hpt

theorem newActive_ok {pt : Dict} : ∀ {ps acc r : List Name}, newActive s pt ps acc = .ok r → acc.Nodup →
    r.Nodup ∧ (∀ n ∈ r, n ∈ acc ∨ (∃ p ∈ ps, n ∈ s.childrenOf p ∧ Newly s pt n)) ∧ (∀ n ∈ acc, n ∈ r) ∧
    (∀ p ∈ ps, ∀ n ∈ s.childrenOf p, n ∉ pt.map Prod.fst → (n ∈ r ∨ allCond pt (s.parentConds n) = .ok false)) := by
  intro ps
  induction ps with
  | nil => intro acc r h hnd; cases h; exact ⟨hnd, fun n hn => .inl hn, fun n hn => hn, by simp⟩
  | cons p ps ih =>
    intro acc r h hnd
    unfold newActive at h
    split at h
    · cases h
    · rename_i acc' hk
      obtain ⟨k1, k2, k3, k4⟩ := newKids_ok hk hnd
      obtain ⟨h1, h2, h3, h4⟩ := ih h k1
      refine ⟨h1, ?_, fun n hn => h3 n (k3 n hn), ?_⟩
      · intro n hn
        rcases h2 n hn with j | ⟨q, j1, j2⟩
        · rcases k2 n j with j | ⟨j1, j2⟩
          · exact .inl j
          · exact .inr ⟨p, by simp, j1, j2⟩
        · exact .inr ⟨q, List.mem_cons_of_mem _ j1, j2⟩
      · intro q hq n hn hpt
        rcases List.mem_cons.1 hq with rfl | hq
        · rcases k4 n hn hpt with j | j
          · exact .inl (h3 n j)
          · exact .inr j
        · exact h4 q hq n hn hpt

theorem newKids_total {pt : Dict} : ∀ {ns acc : List Name},
    (∀ n ∈ ns, n ∉ pt.map Prod.fst → ∃ b, allCond pt (s.parentConds n) = .ok b) → ∃ r, newKids s pt ns acc = .ok r := by
  intro ns
  induction ns with
  | nil => intro acc _; exact ⟨_, rfl⟩
  | cons n ns ih =>
    intro acc hall
    unfold newKids
    split
    · exact ih (fun m hm => hall m (List.mem_cons_of_mem _ hm))
    · rename_i hor
      have hor2 : n ∉ pt.map Prod.fst := by
        rw [← lookup_none_iff]
        cases hl : pt.lookup n with
        | none => rfl
        | some o => exact absurd (.inr (by rw [hl]; rfl)) hor
      obtain ⟨b, hb⟩ := hall n (by simp) hor2
      rw [hb]
      cases b with
      | true => exact ih (fun m hm => hall m (List.mem_cons_of_mem _ hm))
      | false => exact ih (fun m hm => hall m (List.mem_cons_of_mem _ hm))

theorem newActive_total {pt : Dict} : ∀ {ps acc : List Name},
    (∀ p ∈ ps, ∀ n ∈ s.childrenOf p, n ∉ pt.map Prod.fst → ∃ b, allCond pt (s.parentConds n) = .ok b) →
    ∃ r, newActive s pt ps acc = .ok r := by
  intro ps
  induction ps with
  | nil => intro acc _; exact ⟨_, rfl⟩
  | cons p ps ih =>
    intro acc hall
    unfold newActive
    obtain ⟨r, hr⟩ := newKids_total (acc := acc) (hall p (by simp))
    rw [hr]
    exact ih (fun q hq => hall q (List.mem_cons_of_mem _ hq))

theorem allCond_single {pt : Dict} {c : Cond} : allCond pt [c] = c.satVal pt := by
  unfold allCond
  cases c.satVal pt with
  | error e => rfl
  | ok b => simp [allCond]

/-- The new points are the extensions of the point by values for the newly active hyperparameters. -/
theorem expandPoint_ok (h : Reach calls s) {steps : List (Name × Nat)} {pt : Dict} (hpt : PtOk s steps pt)
    {new : List Dict} (he : expandPoint s steps pt = .ok new) :
    ∃ sets, new = (cartesian sets).map (fun d => pt ++ d) ∧ sets ≠ [] ∧ (sets.map Prod.fst).Nodup ∧
      (∀ st ∈ sets, ∃ x ∈ s.com, x.name = st.1 ∧ valueSet steps x.hp = .ok st.2 ∧ st.1 ∉ pt.map Prod.fst ∧
        ∃ c, x.cond = some c ∧ c.satVal pt = .ok true) := by
  unfold expandPoint at he
  split at he
  · cases he
  · rename_i ns hns
    split at he
    · cases he
    · rename_i sets hsets
      split at he
      · cases he
      · rename_i hne
        cases he
        obtain ⟨k1, k2, _, _⟩ := newActive_ok hns List.nodup_nil
        obtain ⟨j1, j2⟩ := valueSets_ok hsets
        have hsne : sets ≠ [] := by
          rintro rfl
          simp only [List.map_nil] at j1
          subst j1
          simp at hne
        refine ⟨sets, ?_, hsne, by rw [j1]; exact k1, ?_⟩
        · unfold gridProduct
          rw [if_neg (by simp [hsne])]
          exact cartesian_point (fun kv hkv => by
            obtain ⟨_, _, _, w, _, e, _⟩ := hpt.ent kv hkv
            exact ⟨w, e⟩)
        · intro st hst
          have : st.1 ∈ ns := by rw [← j1]; exact List.mem_map.2 ⟨st, hst, rfl⟩
          rcases k2 _ this with k | ⟨p, hp, hchild, hnew⟩
          · cases k
          · obtain ⟨x, hx, hxn, c, hxc⟩ := childrenOf_node h hchild
            obtain ⟨y, hy, hyv⟩ := j2 st hst
            refine ⟨x, hx, hxn, ?_, hnew.1, c, hxc, ?_⟩
            · rw [← hxn, hp?_node h hx] at hy
              cases hy
              exact hyv
            · have := hnew.2
              rw [← hxn, parentConds_node h hx hxc, allCond_single] at this
              exact this

theorem ptOk_extend {steps : List (Name × Nat)} {pt : Dict} (hpt : PtOk s steps pt)
    {sets : List (Name × List Val)} (hnd : (sets.map Prod.fst).Nodup)
    (hs : ∀ st ∈ sets, ∃ x ∈ s.com, x.name = st.1 ∧ valueSet steps x.hp = .ok st.2 ∧ st.1 ∉ pt.map Prod.fst)
    {d : Dict} (hd : d ∈ cartesian sets) : PtOk s steps (pt ++ d) := by
  have hk := cartesian_keys hd
  refine ⟨?_, ?_⟩
  · rw [List.map_append, List.nodup_append]
    refine ⟨hpt.nodup, by rw [hk]; exact hnd, ?_⟩
    intro a ha b hb e
    rw [hk] at hb
    obtain ⟨st, hst, rfl⟩ := List.mem_map.1 hb
    obtain ⟨_, _, _, _, hno⟩ := hs st hst
    exact hno (e ▸ ha)
  · intro kv hkv
    rcases List.mem_append.1 hkv with hkv | hkv
    · exact hpt.ent kv hkv
    · obtain ⟨st, hst, h1, w, hw, h2⟩ := cartesian_mem hd hkv
      obtain ⟨x, hx, hxn, hv, _⟩ := hs st hst
      exact ⟨x, hx, by rw [hxn, h1], w, st.2, h2, hv, hw⟩

theorem roots_nodup (h : Reach calls s) : s.dag.roots.Nodup := by
  rw [(sinv_of_reach h).roots]
  unfold rootNames
  exact (List.filter_sublist.map Node.name).nodup (reach_ninv h).nodup

theorem roots_node (h : Reach calls s) {n : Name} (hn : n ∈ s.dag.roots) : ∃ x ∈ s.com, x.name = n := by
  have := (reach_isNode h n).2 ((C06_roots_no_condition h n).1 hn).1
  exact List.mem_map.1 this

theorem roots_ne (h : Reach calls s) (hne : allHps calls ≠ []) : s.dag.roots ≠ [] := by
  have hn := reach_ninv h
  obtain ⟨x, hx⟩ := List.exists_mem_of_ne_nil _ hne
  -- a node of least depth
  have key : ∀ (d : Nat) (n : Name), depthOf s.com n ≤ d → Known calls n → ∃ r, r ∈ s.dag.roots := by
    intro d
    induction d with
    | zero =>
      intro n hd hk
      refine ⟨n, (C06_roots_no_condition h n).2 ⟨hk, ?_⟩⟩
      rintro ⟨c, hc, hcn⟩
      obtain ⟨p, hp⟩ := List.exists_mem_of_ne_nil _ (wf_parents_ne ((reach_wf h).2.1 c hc))
      have := hn.good _ _ ((reach_edge h p n).2 ⟨c, hc, hcn, parents_iff.1 hp⟩)
      omega
    | succ d ih =>
      intro n hd hk
      by_cases hc : Conditional calls n
      · obtain ⟨c, hc, hcn⟩ := hc
        obtain ⟨p, hp⟩ := List.exists_mem_of_ne_nil _ (wf_parents_ne ((reach_wf h).2.1 c hc))
        have he : Edge s.com p n := (reach_edge h p n).2 ⟨c, hc, hcn, parents_iff.1 hp⟩
        have := hn.good _ _ he
        exact ih p (by omega) ((reach_isNode h p).1 (hn.edges _ _ he).1)
      · exact ⟨n, (C06_roots_no_condition h n).2 ⟨hk, hc⟩⟩
  obtain ⟨r, hr⟩ := key _ x.name (Nat.le_refl _) ⟨x, hx, rfl⟩
  exact List.ne_nil_of_mem hr

/-- The first points. -/
theorem ptOk_init (h : Reach calls s) {steps : List (Name × Nat)} {sets : List (Name × List Val)}
    (hs : valueSets s steps s.dag.roots = .ok sets) {d : Dict} (hd : d ∈ cartesian sets) :
    PtOk s steps d ∧ d.map Prod.fst = s.dag.roots := by
  obtain ⟨k1, k2⟩ := valueSets_ok hs
  have hsets : ∀ st ∈ sets, ∃ x ∈ s.com, x.name = st.1 ∧ valueSet steps x.hp = .ok st.2 ∧
      st.1 ∉ ([] : Dict).map Prod.fst := by
    intro st hst
    obtain ⟨y, hy, hyv⟩ := k2 st hst
    obtain ⟨x, hx, hxn⟩ := roots_node h (n := st.1) (by rw [← k1]; exact List.mem_map.2 ⟨st, hst, rfl⟩)
    rw [← hxn, hp?_node h hx] at hy
    cases hy
    exact ⟨x, hx, hxn, hyv, by simp⟩
  have := ptOk_extend (pt := []) ⟨by simp, by simp⟩ (by rw [k1]; exact roots_nodup h) hsets hd
  exact ⟨this, by rw [cartesian_keys hd, k1]⟩

/-! ## The loop -/

theorem gridLoop_inv {steps : List (Name × Nat)} (P : List Dict → List Config → Prop)
    (hok : ∀ pt q acc c, P (pt :: q) acc → Config.ofValues s pt = .ok c → P q (acc ++ [c]))
    (hforb : ∀ pt q acc, P (pt :: q) acc → Config.ofValues s pt = .error .forbidden → P q acc)
    (hexp : ∀ pt q acc n new, P (pt :: q) acc → Config.ofValues s pt = .error (.activeNotSet n) →
      expandPoint s steps pt = .ok new → P (q ++ new) acc) :
    ∀ {k : Nat} {q : List Dict} {acc : List Config} {r : Except Err (List Config)},
      gridLoop s steps k q acc = some r → P q acc →
      (∃ cs, r = .ok cs ∧ P [] cs) ∨
      (∃ e pt q' acc', r = .error e ∧ P (pt :: q') acc' ∧
        ((Config.ofValues s pt = .error e ∧ e ≠ .forbidden ∧ ∀ n, e ≠ .activeNotSet n) ∨
         (∃ n, Config.ofValues s pt = .error (.activeNotSet n) ∧ expandPoint s steps pt = .error e))) := by
  intro k
  induction k with
  | zero =>
    intro q acc r hr hp
    cases q with
    | nil => unfold gridLoop at hr; cases hr; exact .inl ⟨acc, rfl, hp⟩
    | cons pt q => unfold gridLoop at hr; cases hr
  | succ k ih =>
    intro q acc r hr hp
    cases q with
    | nil => unfold gridLoop at hr; cases hr; exact .inl ⟨acc, rfl, hp⟩
    | cons pt q =>
      unfold gridLoop at hr
      split at hr
      · rename_i c hc
        exact ih hr (hok pt q acc c hp hc)
      · rename_i hc
        exact ih hr (hforb pt q acc hp hc)
      · rename_i n hc
        split at hr
        · rename_i e he
          cases hr
          exact .inr ⟨e, pt, q, acc, rfl, hp, .inr ⟨n, hc, he⟩⟩
        · rename_i new he
          exact ih hr (hexp pt q acc n new hp hc he)
      · rename_i e h1 h2 hc
        cases hr
        exact .inr ⟨e, pt, q, acc, rfl, hp, .inl ⟨hc, h1, h2⟩⟩

theorem gridLoop_succ {steps : List (Name × Nat)} (k : Nat) (pt : Dict) (q : List Dict) (acc : List Config) :
    gridLoop s steps (k + 1) (pt :: q) acc = (match Config.ofValues s pt with
    | .ok c => gridLoop s steps k q (acc ++ [c])
    | .error .forbidden => gridLoop s steps k q acc
    | .error (.activeNotSet _) => match expandPoint s steps pt with
      | .error e => some (.error e)
      | .ok new => gridLoop s steps k (q ++ new) acc
    | .error e => some (.error e)) := by
  rw [gridLoop]
  rfl

theorem gridLoop_nil {steps : List (Name × Nat)} (k : Nat) (acc : List Config) :
    gridLoop s steps k [] acc = some (.ok acc) := by
  unfold gridLoop; rfl

theorem gridLoop_mono {steps : List (Name × Nat)} : ∀ {k : Nat} {q : List Dict} {acc : List Config}
    {r : Except Err (List Config)}, gridLoop s steps k q acc = some r → ∀ j, k ≤ j →
    gridLoop s steps j q acc = some r := by
  intro k
  induction k with
  | zero =>
    intro q acc r hr j _
    cases q with
    | nil => rw [gridLoop_nil] at hr ⊢; exact hr
    | cons pt q => unfold gridLoop at hr; cases hr
  | succ k ih =>
    intro q acc r hr j hj
    cases q with
    | nil => rw [gridLoop_nil] at hr ⊢; exact hr
    | cons pt q =>
      cases j with
      | zero => omega
      | succ j =>
        rw [gridLoop_succ] at hr ⊢
        split at hr
        · exact ih hr j (by omega)
        · exact ih hr j (by omega)
        · split at hr
          · exact hr
          · exact ih hr j (by omega)
        · exact hr

theorem nodup_length_le {l m : List Name} (hnd : l.Nodup) (hs : l ⊆ m) : l.length ≤ m.length := by
  induction l generalizing m with
  | nil => simp
  | cons a l ih =>
    simp only [List.nodup_cons] at hnd
    have ha : a ∈ m := hs (by simp)
    have := ih (m := m.erase a) hnd.2 (by
      intro b hb
      exact (List.mem_erase_of_ne (by rintro rfl; exact hnd.1 hb)).2 (hs (List.mem_cons_of_mem _ hb)))
    rw [List.length_erase_of_mem ha] at this
    have := List.length_pos_of_mem ha
    simp only [List.length_cons]
    omega

theorem ptOk_length (h : Reach calls s) {steps : List (Name × Nat)} {pt : Dict} (hpt : PtOk s steps pt) :
    pt.length ≤ s.com.length := by
  have : pt.map Prod.fst ⊆ s.com.map Node.name := by
    intro n hn
    obtain ⟨kv, hkv, rfl⟩ := List.mem_map.1 hn
    obtain ⟨x, hx, hxn, _⟩ := hpt.ent kv hkv
    exact List.mem_map.2 ⟨x, hx, hxn⟩
  have := nodup_length_le hpt.nodup this
  simpa using this

/-- The loop ends. -/
theorem gridLoop_total (h : Reach calls s) {steps : List (Name × Nat)} : ∀ (j : Nat) (q r : List Dict)
    (acc : List Config), (∀ pt ∈ q, PtOk s steps pt ∧ s.com.length < pt.length + j) →
    (∀ pt ∈ r, PtOk s steps pt ∧ s.com.length + 1 < pt.length + j) →
    ∃ k res, gridLoop s steps k (q ++ r) acc = some res := by
  intro j
  induction j with
  | zero =>
    intro q r acc h1 h2
    have hq : q = [] := by
      cases q with
      | nil => rfl
      | cons pt q => obtain ⟨k1, k2⟩ := h1 pt (by simp); have := ptOk_length h k1; omega
    have hr : r = [] := by
      cases r with
      | nil => rfl
      | cons pt r => obtain ⟨k1, k2⟩ := h2 pt (by simp); have := ptOk_length h k1; omega
    exact ⟨0, .ok acc, by rw [hq, hr]; exact gridLoop_nil _ _⟩
  | succ j ih =>
    intro q
    induction q with
    | nil =>
      intro r acc _ h2
      have := ih r [] acc (fun pt hp => ⟨(h2 pt hp).1, by have := (h2 pt hp).2; omega⟩) (by simp)
      simpa using this
    | cons pt q ihq =>
      intro r acc h1 h2
      have h1' := fun p hp => h1 p (List.mem_cons_of_mem pt hp)
      obtain ⟨hpt, hlen⟩ := h1 pt (by simp)
      have step : ∀ acc', ∃ k res, gridLoop s steps k (q ++ r) acc' = some res := fun acc' => ihq r acc' h1' h2
      rw [List.cons_append]
      cases hc : Config.ofValues s pt with
      | ok c =>
        obtain ⟨k, res, hk⟩ := step (acc ++ [c])
        exact ⟨k + 1, res, by rw [gridLoop_succ, hc]; exact hk⟩
      | error e =>
        by_cases he : e = .forbidden
        · subst he
          obtain ⟨k, res, hk⟩ := step acc
          exact ⟨k + 1, res, by rw [gridLoop_succ, hc]; exact hk⟩
        · by_cases he2 : ∃ n, e = .activeNotSet n
          · obtain ⟨n, rfl⟩ := he2
            cases hx : expandPoint s steps pt with
            | error e => exact ⟨1, .error e, by rw [gridLoop_succ, hc]; simp only; rw [hx]⟩
            | ok new =>
              obtain ⟨sets, rfl, k1, k2, k3⟩ := expandPoint_ok h hpt hx
              obtain ⟨k, res, hk⟩ := ihq (r ++ (cartesian sets).map (fun d => pt ++ d)) acc h1' (by
                intro p hp
                rcases List.mem_append.1 hp with hp | hp
                · exact h2 p hp
                · obtain ⟨d, hd, rfl⟩ := List.mem_map.1 hp
                  refine ⟨ptOk_extend hpt k2 (fun st hst => by
                    obtain ⟨x, hx, hxn, hv, hno, _⟩ := k3 st hst
                    exact ⟨x, hx, hxn, hv, hno⟩) hd, ?_⟩
                  have hl : d.length = sets.length := by
                    have := congrArg List.length (cartesian_keys hd)
                    simpa using this
                  have : 0 < sets.length := List.length_pos_of_ne_nil k1
                  rw [List.length_append]
                  omega)
              exact ⟨k + 1, res, by rw [gridLoop_succ, hc]; simp only; rw [hx]; simp only; rw [List.append_assoc]; exact hk⟩
          · refine ⟨1, .error e, ?_⟩
            rw [gridLoop_succ, hc]
            split
            · rename_i heq; cases heq
            · rename_i heq; cases heq; exact absurd rfl he
            · rename_i n heq; cases heq; exact absurd ⟨_, rfl⟩ he2
            · rename_i heq; cases heq; rfl

end Verif
