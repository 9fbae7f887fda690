import Verif.Lemmas.GridCheck

/-!
# C39: grids
-/

set_option autoImplicit false

namespace Verif
open Verif.Spec

variable {calls : List Call} {s : Space}

/-- The first points of the grid. -/
theorem gridStart (h : Reach calls s) {steps : List (Name × Nat)} {sets : List (Name × List Val)}
    (hs : valueSets s steps s.dag.roots = .ok sets) :
    ∀ pt ∈ gridProduct sets, PtOk s steps pt ∧ pt.map Prod.fst = s.dag.roots := by
  intro pt hpt
  unfold gridProduct at hpt
  split at hpt
  · cases hpt
  · exact ptOk_init h hs hpt

/-- **C39** (termination). The generation of a grid ends, with a list or an exception, for every space and all numbers
of steps. -/
theorem C39_grid_ends (h : Reach calls s) (steps : List (Name × Nat)) :
    ∃ N r, ∀ k, N ≤ k → generateGrid s steps k = some r := by
  unfold generateGrid
  cases hs : valueSets s steps s.dag.roots with
  | error e => exact ⟨0, _, fun _ _ => rfl⟩
  | ok sets =>
    obtain ⟨N, r, hr⟩ := gridLoop_total h (s.com.length + 1) (gridProduct sets) [] [] (by
      intro pt hpt
      exact ⟨(gridStart h hs pt hpt).1, by omega⟩) (by simp)
    rw [List.append_nil] at hr
    exact ⟨N, r, fun k hk => gridLoop_mono hr k hk⟩

/-- Every returned configuration was built from a point. -/
theorem grid_points (h : Reach calls s) {steps : List (Name × Nat)} {k : Nat} {cs : List Config}
    (hg : generateGrid s steps k = some (.ok cs)) :
    ∃ pts, List.Forall₂ (fun c pt => Config.ofValues s pt = .ok c) cs pts ∧ (∀ pt ∈ pts, PtOk s steps pt) ∧
      ((∀ x ∈ allHps calls, StepsDistinct steps x) → pts.Pairwise (Differ s)) := by
  unfold generateGrid at hg
  split at hg
  · cases hg
  · rename_i sets hs
    have hstart := gridStart h hs
    have hv := valueSets_ok hs
    rcases gridLoop_inv (s := s) (steps := steps)
      (fun q acc => ∃ pts, List.Forall₂ (fun c pt => Config.ofValues s pt = .ok c) acc pts ∧
        (∀ pt ∈ pts ++ q, PtOk s steps pt) ∧
        ((∀ x ∈ allHps calls, StepsDistinct steps x) → (pts ++ q).Pairwise (Differ s)))
      (by
        rintro pt q acc c ⟨pts, h1, h2, h3⟩ hc
        refine ⟨pts ++ [pt], ?_, by simpa using h2, by simpa using h3⟩
        exact List.rel_append h1 (.cons hc .nil))
      (by
        rintro pt q acc ⟨pts, h1, h2, h3⟩ _
        have hsub : (pts ++ q).Sublist (pts ++ pt :: q) := (List.sublist_cons_self pt q).append_left pts
        exact ⟨pts, h1, fun p hp => h2 p (hsub.subset hp), fun hd => (h3 hd).sublist hsub⟩)
      (by
        rintro pt q acc n new ⟨pts, h1, h2, h3⟩ _ he
        have hpt := h2 pt (by simp)
        obtain ⟨sets', rfl, _, k2, k3⟩ := expandPoint_ok h hpt he
        have k3' : ∀ st ∈ sets', ∃ x ∈ s.com, x.name = st.1 ∧ valueSet steps x.hp = .ok st.2 ∧
            st.1 ∉ pt.map Prod.fst := by
          intro st hst
          obtain ⟨x, hx, a1, a2, a3, _⟩ := k3 st hst
          exact ⟨x, hx, a1, a2, a3⟩
        refine ⟨pts, h1, ?_, ?_⟩
        · intro p hp
          simp only [List.mem_append, List.mem_map] at hp
          rcases hp with hp | hp | ⟨d, hd, rfl⟩
          · exact h2 p (by simp [hp])
          · exact h2 p (by simp [hp])
          · exact ptOk_extend hpt k2 k3' hd
        · intro hd
          have h4 := h3 hd
          rw [← List.append_assoc, List.pairwise_append]
          have hsub : (pts ++ q).Sublist (pts ++ pt :: q) := (List.sublist_cons_self pt q).append_left pts
          refine ⟨h4.sublist hsub, ?_, ?_⟩
          · rw [List.pairwise_map]
            refine List.Pairwise.imp_of_mem ?_ (cartesian_differ h hd k2 (fun st hst => by
              obtain ⟨x, hx, a1, a2, _⟩ := k3' st hst
              exact ⟨x, hx, a1, a2⟩))
            intro a b ha hb hab
            obtain ⟨x, hx, w, w', m1, m2, m3⟩ := hab
            have hx' : pt.lookup x.name = none := by
              rw [lookup_none_iff]
              have : x.name ∈ a.map Prod.fst := List.mem_map.2 ⟨(x.name, some w), lookup_mem m1, rfl⟩
              rw [cartesian_keys ha] at this
              obtain ⟨st, hst, e⟩ := List.mem_map.1 this
              obtain ⟨_, _, _, _, a3⟩ := k3' st hst
              rw [← e]
              exact a3
            exact ⟨x, hx, w, w', by rw [lookup_append, hx']; exact m1, by rw [lookup_append, hx']; exact m2, m3⟩
          · intro a ha b hb
            obtain ⟨d, _, rfl⟩ := List.mem_map.1 hb
            rw [List.pairwise_append] at h4
            obtain ⟨_, h5, h6⟩ := h4
            rw [List.pairwise_cons] at h5
            rcases List.mem_append.1 ha with ha | ha
            · have := differ_append (d := []) (d' := d) (h6 a ha pt (by simp))
              simpa using this
            · have := differ_append (d := d) (d' := []) (h5.1 a ha)
              obtain ⟨x, hx, w, w', m1, m2, m3⟩ := this
              refine ⟨x, hx, w', w, by simpa using m2, m1, ?_⟩
              rw [← Bool.not_eq_true] at m3 ⊢
              exact fun e => m3 (Val.pyEq_symm e))
      hg ⟨[], .nil, by simpa using fun pt hpt => (hstart pt hpt).1, by
        intro hd
        rw [List.nil_append]
        unfold gridProduct
        split
        · exact .nil
        · refine cartesian_differ h hd (by rw [hv.1]; exact roots_nodup h) ?_
          intro st hst
          obtain ⟨y, hy, hyv⟩ := hv.2 st hst
          have hst' : st.1 ∈ s.dag.roots := by rw [← hv.1]; exact List.mem_map.2 ⟨st, hst, rfl⟩
          obtain ⟨x, hx, hxn⟩ := roots_node h hst'
          rw [← hxn, hp?_node h hx] at hy
          cases hy
          exact ⟨x, hx, hxn, hyv⟩⟩ with ⟨cs', e, pts, h1, h2, h3⟩ | ⟨_, _, _, _, he, _⟩
    · cases e
      rw [List.append_nil] at h2 h3
      exact ⟨pts, h1, h2, h3⟩
    · cases he

theorem forall₂_mem {α β : Type} {R : α → β → Prop} {as : List α} {bs : List β} (h : List.Forall₂ R as bs) {a : α}
    (ha : a ∈ as) : ∃ b ∈ bs, R a b := by
  induction h with
  | nil => cases ha
  | cons h1 _ ih =>
    rcases List.mem_cons.1 ha with rfl | ha
    · exact ⟨_, List.mem_cons_self, h1⟩
    · obtain ⟨b, hb, hr⟩ := ih ha
      exact ⟨b, List.mem_cons_of_mem _ hb, hr⟩

/-- **C39** (soundness, for every space). Every configuration of the grid is accepted by the validator, its values are
legal, and every item reads as a grid value of its hyperparameter (rounded, for floats) or is not set. -/
theorem C39_grid_accepted (h : Reach calls s) {steps : List (Name × Nat)} {k : Nat} {cs : List Config}
    (hg : generateGrid s steps k = some (.ok cs)) : ∀ c ∈ cs, s.check c.vec = none ∧
      (∃ a, Represents s c.vec a ∧ LegalAll calls a ∧ RootsSet calls a) ∧
      ∀ x ∈ allHps calls, (∃ w, GridValue steps x w ∧ (c.getItem s x.name).1 = .ok (roundVal x.kind w)) ∨
        (c.getItem s x.name).1 = .error .keyError := by
  intro c hc
  obtain ⟨pts, h1, h2, _⟩ := grid_points h hg
  obtain ⟨pt, hpt, hcv⟩ := forall₂_mem h1 hc
  have hp := h2 pt hpt
  obtain ⟨v, hv⟩ := ptVec_exists h hp
  obtain ⟨vals, j1, j2⟩ := ofValues_pt h hp hv
  have hf := full_of_values h hcv
  rw [j1] at hcv
  cases hck : s.check v with
  | some e => rw [hck] at hcv; cases hcv
  | none =>
    rw [hck] at hcv
    cases hcv
    refine ⟨hck, ⟨_, represents_asg h hv.len, ptVec_legal h hv, ?_⟩, ?_⟩
    · rw [← rootsSet_iff h (represents_asg h hv.len)]
      unfold Space.check at hck
      cases hfw : firstWith (fun e => !isSet e) s v s.dag.roots with
      | none => rfl
      | some n => rw [hfw] at hck; cases hck
    · intro y hy
      obtain ⟨x, hx, rfl⟩ := node_of_hp h hy
      rw [show x.hp.name = x.name from rfl, getItem_full h hf hx]
      rcases hv.ent x hx with ⟨w, q, k1, k2, k3, k4⟩ | ⟨k1, k2⟩
      · refine .inl ⟨w, k2, ?_⟩
        rcases j2 x hx with ⟨w', _, m1, _, _, _, m5⟩ | ⟨m1, _⟩
        · rw [k1] at m1
          cases m1
          simp only [Option.getD_some, m5]
        · rw [k1] at m1; simp at m1
      · refine .inr ?_
        rcases j2 x hx with ⟨w', _, m1, _, _, _, m5⟩ | ⟨_, _, m1⟩
        · rw [k1] at m1; cases m1
        · simp only [Option.getD_some, m1]

/-- **C39** (soundness). For conditions that the code keeps apart and clauses on own hyperparameters, every configuration
of the grid is valid. -/
theorem C39_grid_valid_partial (h : Reach calls s) (hsep : Separable calls) (hown : OwnClauses calls)
    {steps : List (Name × Nat)} {k : Nat} {cs : List Config} (hg : generateGrid s steps k = some (.ok cs)) :
    ∀ c ∈ cs, ∃ a, Represents s c.vec a ∧ Valid calls a := by
  intro c hc
  obtain ⟨h1, ⟨a, h2, h3, h4⟩, _⟩ := C39_grid_accepted h hg c hc
  obtain ⟨k1, k2, _, k4⟩ := (check_iff h hsep hown h2).1 h1
  exact ⟨a, h2, k1, k2, h3, k4⟩

/-- **C39** (no duplicates). If the requested steps of each hyperparameter are different values, no configuration occurs
twice in the grid. -/
theorem C39_grid_no_duplicates (h : Reach calls s) {steps : List (Name × Nat)}
    (hd : ∀ x ∈ allHps calls, StepsDistinct steps x) {k : Nat} {cs : List Config}
    (hg : generateGrid s steps k = some (.ok cs)) : cs.Pairwise (fun c c' => c.vec ≠ c'.vec) := by
  obtain ⟨pts, h1, h2, h3⟩ := grid_points h hg
  have h4 := h3 hd
  clear h3 hg
  induction h1 with
  | nil => exact .nil
  | @cons c pt cs pts hc hr ih =>
    rw [List.pairwise_cons] at h4
    refine List.Pairwise.cons ?_ (ih (fun p hp => h2 p (List.mem_cons_of_mem _ hp)) h4.2)
    intro c' hc'
    obtain ⟨pt', hpt', hcv'⟩ := forall₂_mem hr hc'
    exact differ_vec h (h2 pt (by simp)) (h2 pt' (by simp [hpt'])) (h4.1 pt' hpt') hc hcv'

/-- The steps of an integer range are different if there are not more of them than numbers in the range. -/
theorem C39_integer_steps_distinct {l u : Int} {n : Nat} (hn : (n : Int) ≤ u - l + 1) :
    ∀ i < n, ∀ j < n, i ≠ j → rint (gridPoint l u n i) ≠ rint (gridPoint l u n j) := by
  have key : ∀ i < n, ∀ j < n, i < j → rint (gridPoint l u n i) ≠ rint (gridPoint l u n j) := by
    intro i hi j hj hij he
    have hn1 : (0 : Rat) < (n : Rat) - 1 := by
      have : ((2 : Nat) : Rat) ≤ (n : Rat) := by exact_mod_cast (by omega : 2 ≤ n)
      push_cast at this
      linarith
    have hnq : (n : Rat) ≤ (u : Rat) - l + 1 := by exact_mod_cast hn
    have hstep : 1 ≤ ((u : Rat) - l) / ((n : Rat) - 1) := by
      rw [le_div_iff₀ hn1]
      linarith
    have hij' : (i : Rat) + 1 ≤ (j : Rat) := by exact_mod_cast hij
    unfold gridPoint at he
    generalize ((u : Rat) - l) / ((n : Rat) - 1) = d at hstep he
    rcases eq_or_lt_of_le hstep with h1 | h1
    · subst h1
      rw [mul_one, mul_one] at he
      have e1 := rint_int (l + (i : Int))
      have e2 := rint_int (l + (j : Int))
      push_cast at e1 e2
      rw [e1, e2] at he
      omega
    · have n1 := rint_near ((l : Rat) + (i : Rat) * d)
      have n2 := rint_near ((l : Rat) + (j : Rat) * d)
      rw [he] at n1
      unfold rabs at n1 n2
      have : (i : Rat) * d + d ≤ (j : Rat) * d := by nlinarith
      split_ifs at n1 n2 <;> linarith
  intro i hi j hj hij
  rcases Nat.lt_or_gt_of_ne hij with hlt | hlt
  · exact key i hi j hj hlt
  · exact fun e => key j hj i hi hlt e.symm

/-- The steps of a float range are different if they are more than `10^-13` apart. -/
theorem C39_float_steps_distinct {l u : Rat} {n : Nat} (hn : 1 / 10000000000000 < (u - l) / ((n : Rat) - 1)) :
    ∀ i < n, ∀ j < n, i ≠ j → roundPlaces (gridPoint l u n i) ≠ roundPlaces (gridPoint l u n j) := by
  have key : ∀ i < n, ∀ j < n, i < j → roundPlaces (gridPoint l u n i) ≠ roundPlaces (gridPoint l u n j) := by
    intro i hi j hj hij he
    have hij' : (i : Rat) + 1 ≤ (j : Rat) := by exact_mod_cast hij
    unfold gridPoint at he
    generalize ((u : Rat) - l) / ((n : Rat) - 1) = d at hn he
    have n1 := roundPlaces_near ((l : Rat) + (i : Rat) * d)
    have n2 := roundPlaces_near ((l : Rat) + (j : Rat) * d)
    rw [he] at n1
    unfold rabs at n1 n2
    have : (i : Rat) * d + d ≤ (j : Rat) * d := by nlinarith
    split_ifs at n1 n2 <;> linarith
  intro i hi j hj hij
  rcases Nat.lt_or_gt_of_ne hij with hlt | hlt
  · exact key i hi j hj hlt
  · exact fun e => key j hj i hi hlt e.symm

/-! ## Completeness -/

/-- The point gives values of the assignment. -/
def Below (s : Space) (a : Assign) (pt : Dict) : Prop :=
  ∀ x ∈ s.com, ∀ w, pt.lookup x.name = some (some w) → x.hp.kind.toVec (roundVal x.hp.kind w) = a x.name

theorem below_restricts {steps : List (Name × Nat)} {a : Assign} {pt : Dict} (hb : Below s a pt) {v : Vec}
    (hv : PtVec s steps pt v) : ∀ x ∈ s.com, ∀ q, v.at (s.idx x.name) = some q → a x.name = some q := by
  intro x hx q hq
  rcases hv.ent x hx with ⟨w, q', k1, _, k3, k4⟩ | ⟨_, k2⟩
  · rw [k4] at hq
    cases hq
    rw [← hb x hx w k1, k3]
  · rw [k2] at hq; cases hq

theorem below_asg (h : Reach calls s) {steps : List (Name × Nat)} {a : Assign} {pt : Dict} (hb : Below s a pt) {v : Vec}
    (hv : PtVec s steps pt v) : Restricts (asg s.idx v) a := by
  intro n q hq
  by_cases hn : Known calls n
  · obtain ⟨x, hx, rfl⟩ := List.mem_map.1 (show n ∈ s.com.map Node.name from (reach_isNode h n).2 hn)
    exact below_restricts hb hv x hx q hq
  · rw [asg_unknown h hv.len hn] at hq; cases hq

/-- The values that the assignment gives to some hyperparameters are a point of the product. -/
theorem product_below (h : Reach calls s) {steps : List (Name × Nat)} {a : Assign}
    (hag : ∀ x ∈ allHps calls, ∀ q, a x.name = some q → ∃ w, GridValue steps x w ∧
      x.kind.toVec (roundVal x.kind w) = some q)
    {sets : List (Name × List Val)} (hnd : (sets.map Prod.fst).Nodup)
    (hs : ∀ st ∈ sets, ∃ x ∈ s.com, x.name = st.1 ∧ valueSet steps x.hp = .ok st.2 ∧ a x.name ≠ none) :
    ∃ d ∈ cartesian sets, Below s a d := by
  have hch : ∀ n, ∃ w : Val, ∀ x ∈ s.com, x.name = n → ∀ q, a n = some q →
      GridValue steps x.hp w ∧ x.hp.kind.toVec (roundVal x.hp.kind w) = some q := by
    intro n
    by_cases hn : ∃ x ∈ s.com, x.name = n ∧ a n ≠ none
    · obtain ⟨x, hx, rfl, hne⟩ := hn
      cases hq : a x.name with
      | none => exact absurd hq hne
      | some q =>
        obtain ⟨w, h1, h2⟩ := hag x.hp (node_hp h hx) q hq
        refine ⟨w, fun y hy e q' hq' => ?_⟩
        rw [node_eq h hy hx e]
        cases hq'
        exact ⟨h1, h2⟩
    · refine ⟨.int 0, fun x hx e q hq => absurd ⟨x, hx, e, by rw [hq]; simp⟩ hn⟩
  choose f hf using hch
  refine ⟨_, cartesian_choice f ?_, ?_⟩
  · intro st hst
    obtain ⟨x, hx, h1, h2, h3⟩ := hs st hst
    cases hq : a x.name with
    | none => exact absurd hq h3
    | some q =>
      rw [valueSet_iff h2]
      exact (hf st.1 x hx h1 q (by rw [← h1]; exact hq)).1
  · intro x hx w hw
    have := lookup_mem hw
    simp only [List.mem_map, Prod.mk.injEq, Option.some.injEq] at this
    obtain ⟨st, hst, e1, e2⟩ := this
    subst e2
    obtain ⟨y, hy, h1, h2, h3⟩ := hs st hst
    have hyx := node_eq h hy hx (by rw [h1, e1])
    subst hyx
    cases hq : a y.name with
    | none => exact absurd hq h3
    | some q => exact (hf st.1 y hy h1 q (by rw [← h1]; exact hq)).2

theorem below_append {a : Assign} {pt d : Dict} (h1 : Below s a pt) (h2 : Below s a d) : Below s a (pt ++ d) := by
  intro x hx w hw
  rw [lookup_append] at hw
  cases hl : pt.lookup x.name with
  | none => rw [hl] at hw; exact h2 x hx w hw
  | some b => rw [hl] at hw; simp only [Option.some.injEq] at hw; subst hw; exact h1 x hx w hl

/-- **C39** (completeness; partial: if the grid is returned, for conditions that the code keeps apart, conditions and
clauses on own hyperparameters, and grid values that need no rounding). Every valid configuration whose values are grid
values is in the grid. -/
theorem C39_grid_complete_partial (h : Reach calls s) (hne : allHps calls ≠ []) (hsep : Separable calls)
    (hown : OwnClauses calls) (hoc : OwnConds calls) {steps : List (Name × Nat)}
    (hex : ∀ x ∈ allHps calls, ∀ w, GridValue steps x w → roundVal x.kind w = w)
    {k : Nat} {cs : List Config} (hg : generateGrid s steps k = some (.ok cs)) {a : Assign} (hva : Valid calls a)
    (hag : ∀ x ∈ allHps calls, ∀ q, a x.name = some q → ∃ w, GridValue steps x w ∧ x.kind.toVec w = some q) :
    ∃ c ∈ cs, Represents s c.vec a := by
  have hag' : ∀ x ∈ allHps calls, ∀ q, a x.name = some q → ∃ w, GridValue steps x w ∧
      x.kind.toVec (roundVal x.kind w) = some q := by
    intro x hx q hq
    obtain ⟨w, h1, h2⟩ := hag x hx q hq
    exact ⟨w, h1, by rw [hex x hx w h1]; exact h2⟩
  unfold generateGrid at hg
  split at hg
  · cases hg
  · rename_i sets hs
    have hstart := gridStart h hs
    have hv := valueSets_ok hs
    have hsne : sets.isEmpty = false := by
      cases sets with
      | nil => exact absurd hv.1.symm (roots_ne h hne)
      | cons _ _ => rfl
    have hgp : gridProduct sets = cartesian sets := by simp [gridProduct, hsne]
    have hsets : ∀ st ∈ sets, ∃ x ∈ s.com, x.name = st.1 ∧ valueSet steps x.hp = .ok st.2 ∧ a x.name ≠ none := by
      intro st hst
      obtain ⟨y, hy, hyv⟩ := hv.2 st hst
      have hst' : st.1 ∈ s.dag.roots := by rw [← hv.1]; exact List.mem_map.2 ⟨st, hst, rfl⟩
      obtain ⟨x, hx, hxn⟩ := roots_node h hst'
      rw [← hxn, hp?_node h hx] at hy
      cases hy
      obtain ⟨r1, r2⟩ := (C06_roots_no_condition h _).1 hst'
      obtain ⟨q, hq⟩ := hva.roots _ r1 r2
      exact ⟨x, hx, hxn, hyv, by rw [hxn, hq]; simp⟩
    obtain ⟨d0, hd0, hb0⟩ := product_below h hag' (by rw [hv.1]; exact roots_nodup h) hsets
    -- what happens to a point below the assignment
    rcases gridLoop_inv (s := s) (steps := steps)
      (fun q acc => (∀ pt ∈ q, PtOk s steps pt) ∧
        ((∃ c ∈ acc, Represents s c.vec a) ∨ ∃ pt ∈ q, Below s a pt))
      (by
        rintro pt q acc c ⟨h1, h2⟩ hc
        refine ⟨fun p hp => h1 p (List.mem_cons_of_mem _ hp), ?_⟩
        rcases h2 with ⟨c', hc', hr⟩ | ⟨p, hp, hb⟩
        · exact .inl ⟨c', List.mem_append_left _ hc', hr⟩
        · rcases List.mem_cons.1 hp with rfl | hp
          · refine .inl ⟨c, by simp, ?_⟩
            have hpt := h1 p (by simp)
            obtain ⟨v, hv⟩ := ptVec_exists h hpt
            obtain ⟨vals, j1, _⟩ := ofValues_pt h hpt hv
            rw [j1] at hc
            cases hck : s.check v with
            | some e => rw [hck] at hc; cases hc
            | none =>
              rw [hck] at hc
              cases hc
              have hrep := represents_asg h hv.len
              obtain ⟨k1, k2, _, _⟩ := (check_iff h hsep hown hrep).1 hck
              have := restricts_unique h (below_asg h hb hv) k1 k2 hva.active
              refine ⟨hv.len, fun i n hin => ?_⟩
              rw [hrep.2 i n hin]
              have hn : n ∈ s.com.map Node.name := List.mem_of_getElem? hin
              obtain ⟨x, hx, rfl⟩ := List.mem_map.1 hn
              exact this x hx
          · exact .inr ⟨p, hp, hb⟩)
      (by
        rintro pt q acc ⟨h1, h2⟩ hc
        refine ⟨fun p hp => h1 p (List.mem_cons_of_mem _ hp), ?_⟩
        rcases h2 with h2 | ⟨p, hp, hb⟩
        · exact .inl h2
        · rcases List.mem_cons.1 hp with rfl | hp
          · exfalso
            have hpt := h1 p (by simp)
            obtain ⟨v, hv⟩ := ptVec_exists h hpt
            obtain ⟨vals, j1, _⟩ := ofValues_pt h hpt hv
            rw [j1] at hc
            have hck : s.check v = some .forbidden := by
              cases hck : s.check v with
              | none => rw [hck] at hc; cases hc
              | some e => rw [hck] at hc; cases hc; rfl
            obtain ⟨f, hf, hff⟩ := check_forbidden h hown (represents_asg h hv.len) hck
            exact hva.allowed f hf (forbids_restricts (below_asg h hb hv) hff)
          · exact .inr ⟨p, hp, hb⟩)
      (by
        rintro pt q acc n new ⟨h1, h2⟩ _ he
        have hpt := h1 pt (by simp)
        obtain ⟨sets', rfl, _, k2, k3⟩ := expandPoint_ok h hpt he
        refine ⟨?_, ?_⟩
        · intro p hp
          simp only [List.mem_append, List.mem_map] at hp
          rcases hp with hp | ⟨d, hd, rfl⟩
          · exact h1 p (by simp [hp])
          · refine ptOk_extend hpt k2 (fun st hst => ?_) hd
            obtain ⟨x, hx, a1, a2, a3, _⟩ := k3 st hst
            exact ⟨x, hx, a1, a2, a3⟩
        · rcases h2 with h2 | ⟨p, hp, hb⟩
          · exact .inl h2
          · right
            rcases List.mem_cons.1 hp with rfl | hp
            · obtain ⟨v, hv⟩ := ptVec_exists h hpt
              obtain ⟨va, hva'⟩ : ∃ va, Represents s va a := represents_exists h a
              obtain ⟨d, hd, hbd⟩ := product_below h hag' k2 (by
                intro st hst
                obtain ⟨x, hx, a1, a2, _, c, hc, hsat⟩ := k3 st hst
                refine ⟨x, hx, a1, a2, ?_⟩
                obtain ⟨m1, m2, _⟩ := node_cond h hx hc
                have := (cond_point_ok h hoc hex hv (w := va) (fun y hy q hq => by
                  rw [at_idx hva' (mem_names hy)]
                  exact below_restricts hb hv y hy q hq) m1).2 true hsat
                obtain ⟨q, hq⟩ := (hva.active c m1 _ m2).2 ((holds_represents h hva' m1).1 this)
                rw [hq]; simp)
              exact ⟨p ++ d, by simp [hd], below_append hb hbd⟩
            · exact ⟨p, by simp [hp], hb⟩)
      hg ⟨fun pt hpt => (hstart pt hpt).1, .inr ⟨d0, by rw [hgp]; exact hd0, hb0⟩⟩ with
      ⟨cs', e, _, hr⟩ | ⟨_, _, _, _, he, _⟩
    · cases e
      rcases hr with hr | ⟨pt, hpt, _⟩
      · exact hr
      · cases hpt
    · cases he

/-! ## When a grid is returned -/

/-- A satisfied condition of the shapes that the grid can handle has all its parents set. -/
theorem gridSafe_parents (h : Reach calls s) (hgs : GridSafe calls) {a : Assign} (hr : RootsSet calls a) {c : Cond}
    (hc : c ∈ allConds calls) (hh : Holds a c) : ∀ p ∈ c.parents, ∃ q, a p = some q := by
  have hk : ∀ p ∈ c.parents, Known calls p := fun p hp => (reach_isNode h p).1 (cond_parents_known h hc hp)
  rcases hgs c hc with hall | ⟨l, rfl, hl⟩
  · exact tight_parents hr (.root hall) hk hh
  · exact tight_parents hr (.pos hl) hk hh

/-- The invariant of the points in the queue. -/
structure PtSafe (calls : List Call) (s : Space) (steps : List (Name × Nat)) (pt : Dict) : Prop where
  ok : PtOk s steps pt
  roots : ∀ n ∈ s.dag.roots, n ∈ pt.map Prod.fst
  act : ∀ v, PtVec s steps pt v → ∀ x ∈ s.com, ∀ c, x.cond = some c → v.at (s.idx x.name) ≠ none →
    Holds (asg s.idx v) c

theorem ptSafe_roots (h : Reach calls s) {steps : List (Name × Nat)} {pt : Dict} (hp : PtSafe calls s steps pt) {v : Vec}
    (hv : PtVec s steps pt v) : RootsSet calls (asg s.idx v) := by
  intro n hk hc
  have hn := (C06_roots_no_condition h n).2 ⟨hk, hc⟩
  obtain ⟨x, hx, rfl⟩ := roots_node h hn
  have := hp.roots _ hn
  rcases hv.ent x hx with ⟨w, q, _, _, _, k4⟩ | ⟨k1, _⟩
  · exact ⟨q, k4⟩
  · exact absurd this (lookup_none_iff.1 k1)

theorem set_iff_key {steps : List (Name × Nat)} {pt : Dict} {v : Vec}
    (hv : PtVec s steps pt v) {x : Node} (hx : x ∈ s.com) : v.at (s.idx x.name) ≠ none ↔ x.name ∈ pt.map Prod.fst := by
  rcases hv.ent x hx with ⟨w, q, k1, _, _, k4⟩ | ⟨k1, k2⟩
  · rw [k4]
    simp only [ne_eq, reduceCtorEq, not_false_eq_true, true_iff]
    exact Classical.byContradiction fun hn => by rw [lookup_none_iff.2 hn] at k1; cases k1
  · rw [k2]
    simp only [ne_eq, not_true_eq_false, false_iff]
    exact lookup_none_iff.1 k1

/-- **C39** (partial: conditions that the code keeps apart and that are built from own hyperparameters, which are on
unconditional hyperparameters only or single literals other than `!=`; grid values that need no rounding). With steps for
all numerical hyperparameters, a grid is returned. -/
theorem C39_grid_returned_partial (h : Reach calls s) (hsep : Separable calls) (hoc : OwnConds calls)
    (hgs : GridSafe calls) {steps : List (Name × Nat)} (hst : ∀ x ∈ allHps calls, StepsGiven steps x)
    (hex : ∀ x ∈ allHps calls, ∀ w, GridValue steps x w → roundVal x.kind w = w) :
    ∃ N cs, ∀ k, N ≤ k → generateGrid s steps k = some (.ok cs) := by
  obtain ⟨N, r, hr⟩ := C39_grid_ends h steps
  refine ⟨N, ?_⟩
  have htot : ∀ ns : List Name, (∀ n ∈ ns, n ∈ s.names) → ∃ sets, valueSets s steps ns = .ok sets := by
    intro ns hns
    refine valueSets_total (fun n hn => ?_)
    obtain ⟨x, hx, rfl⟩ := List.mem_map.1 (show n ∈ s.com.map Node.name from hns n hn)
    obtain ⟨vs, hvs⟩ := valueSet_total (hst x.hp (node_hp h hx))
    exact ⟨x.hp, vs, hp?_node h hx, hvs⟩
  obtain ⟨sets, hs⟩ := htot s.dag.roots (fun n hn => by
    obtain ⟨x, hx, rfl⟩ := roots_node h hn
    exact mem_names hx)
  have hg := hr N (Nat.le_refl _)
  have hg' := hg
  unfold generateGrid at hg'
  rw [hs] at hg'
  simp only at hg'
  have hstart := gridStart h hs
  rcases gridLoop_inv (s := s) (steps := steps) (fun q _ => ∀ pt ∈ q, PtSafe calls s steps pt)
      (fun pt q acc c h1 _ p hp => h1 p (List.mem_cons_of_mem _ hp))
      (fun pt q acc h1 _ p hp => h1 p (List.mem_cons_of_mem _ hp))
      (by
        rintro pt q acc n new h1 _ he p hp
        have hpt := h1 pt (by simp)
        obtain ⟨sets', rfl, _, k2, k3⟩ := expandPoint_ok h hpt.ok he
        rcases List.mem_append.1 hp with hp | hp
        · exact h1 p (List.mem_cons_of_mem _ hp)
        · obtain ⟨d, hd, rfl⟩ := List.mem_map.1 hp
          refine ⟨ptOk_extend hpt.ok k2 (fun st hst => ?_) hd, ?_, ?_⟩
          · obtain ⟨x, hx, a1, a2, a3, _⟩ := k3 st hst
            exact ⟨x, hx, a1, a2, a3⟩
          · intro n hn
            rw [List.map_append]
            exact List.mem_append_left _ (hpt.roots n hn)
          · intro v hv x hx c hc hset
            obtain ⟨v0, hv0⟩ := ptVec_exists h hpt.ok
            obtain ⟨m1, _, _⟩ := node_cond h hx hc
            -- the condition holds for the shorter point already
            have hold : Holds (asg s.idx v0) c := by
              rw [set_iff_key hv hx, List.map_append, List.mem_append] at hset
              rcases hset with hk | hk
              · exact hpt.act v0 hv0 x hx c hc ((set_iff_key hv0 hx).2 hk)
              · rw [cartesian_keys hd] at hk
                obtain ⟨st, hst, e⟩ := List.mem_map.1 hk
                obtain ⟨y, hy, a1, _, _, c', hc', hsat⟩ := k3 st hst
                have := node_eq h hy hx (by rw [a1, e])
                subst this
                rw [hc] at hc'
                cases hc'
                have := (cond_point_ok h hoc hex hv0 (w := v0) (fun _ _ _ hq => hq) m1).2 true hsat
                exact (satVec_iff c s.idx v0).1 this
            refine (holds_congr c ?_).1 hold
            intro p hp
            obtain ⟨q, hq⟩ := gridSafe_parents h hgs (ptSafe_roots h hpt hv0) m1 hold p hp
            obtain ⟨y, hy, rfl⟩ := List.mem_map.1 (show p ∈ s.com.map Node.name from cond_parents_known h m1 hp)
            rw [hq]
            have hq' : v0.at (s.idx y.name) = some q := hq
            rcases hv0.ent y hy with ⟨w, q', j1, _, j3, j4⟩ | ⟨_, j2⟩
            · rcases hv.ent y hy with ⟨w2, q2, l1, _, l3, l4⟩ | ⟨l1, _⟩
              · rw [lookup_append, j1] at l1
                cases l1
                rw [j3] at l3
                cases l3
                rw [j4] at hq'
                rw [asg_node, l4, ← hq']
              · rw [lookup_append, j1] at l1; cases l1
            · rw [j2] at hq'; cases hq')
      hg' (by
        intro pt hpt
        obtain ⟨p1, p2⟩ := hstart pt hpt
        refine ⟨p1, fun n hn => by rw [p2]; exact hn, ?_⟩
        intro v hv x hx c hc hset
        rw [set_iff_key hv hx, p2] at hset
        obtain ⟨m1, m2, _⟩ := node_cond h hx hc
        exact absurd ⟨c, m1, m2⟩ ((C06_roots_no_condition h _).1 hset).2) with
      ⟨cs, e, _⟩ | ⟨e, pt, q', acc', he, hsafe, hfail⟩
  · exact ⟨cs, fun k hk => by rw [hr k hk, e]⟩
  · exfalso
    have hpt := hsafe pt (by simp)
    obtain ⟨v, hv⟩ := ptVec_exists h hpt.ok
    obtain ⟨vals, j1, _⟩ := ofValues_pt h hpt.ok hv
    have hrep := represents_asg h hv.len
    have hroots := ptSafe_roots h hpt hv
    rcases check_cases h hsep hrep hroots (ptVec_legal h hv) (fun x hx c hc hne => hpt.act v hv x hx c hc hne) with
      hck | hck | ⟨x, hx, c, hc, hh, hun, hck⟩
    · rw [hck] at j1
      rcases hfail with ⟨f1, _⟩ | ⟨n, f1, _⟩ <;> rw [j1] at f1 <;> cases f1
    · rw [hck] at j1
      rcases hfail with ⟨f1, f2, _⟩ | ⟨n, f1, _⟩ <;> rw [j1] at f1 <;> cases f1
      exact f2 rfl
    · rw [hck] at j1
      rcases hfail with ⟨f1, _, f3⟩ | ⟨n, _, f2⟩
      · rw [j1] at f1
        cases f1
        exact f3 _ rfl
      · -- the point can be extended
        obtain ⟨m1, m2, _⟩ := node_cond h hx hc
        have heval : ∀ p ∈ pt.map Prod.fst, ∀ n ∈ s.childrenOf p, n ∉ pt.map Prod.fst →
            ∃ b, allCond pt (s.parentConds n) = .ok b := by
          intro p hp n hn _
          obtain ⟨y, hy, rfl, d, hd⟩ := childrenOf_node h hn
          obtain ⟨d1, d2, _⟩ := node_cond h hy hd
          rw [parentConds_node h hy hd, allCond_single]
          refine ⟨_, (cond_point_ok h hoc hex hv (w := v) (fun _ _ _ hq => hq) d1).1 ?_⟩
          rcases hgs d d1 with hall | ⟨l, rfl, _⟩
          · intro p' hp' hnone
            obtain ⟨l, hl, e⟩ := parents_iff.1 hp'
            have : p' ∈ s.dag.roots := (C06_roots_no_condition h p').2
              ⟨(reach_isNode h p').1 (cond_parents_known h d1 hp'), e ▸ hall l hl⟩
            exact lookup_none_iff.1 hnone (hpt.roots _ this)
          · intro p' hp' hnone
            -- the only parent is the name whose children are visited
            have hps : p ∈ (Cond.lit l).parents := by
              have hedge := edge_iff_childAt.1 (show Edge s.com p y.name from hn)
              cases hca : childAt s.com p y.name with
              | none => rw [hca] at hedge; cases hedge
              | some c0 =>
                have := ((reach_ninv h).child p y.name c0).1 hca
                have hcy : condAt s.com y.name = some (.lit l) := by
                  simp [condAt, findNode_of_mem (reach_ninv h).nodup hy, hd]
                rw [hcy] at this
                cases this.1
                exact this.2
            simp only [Cond.parents, Cond.dlcs, List.map_cons, List.map_nil, List.mem_singleton] at hps hp'
            rw [hp', ← hps] at hnone
            exact lookup_none_iff.1 hnone hp
        obtain ⟨new, hnew⟩ := newActive_total (s := s) (pt := pt) (ps := pt.map Prod.fst) (acc := []) heval
        obtain ⟨_, n2, _, n4⟩ := newActive_ok hnew List.nodup_nil
        have hxin : x.name ∈ new := by
          obtain ⟨p, hp⟩ := List.exists_mem_of_ne_nil _ (wf_parents_ne ((reach_wf h).2.1 c m1))
          have hset := gridSafe_parents h hgs hroots m1 hh
          have hkey : ∀ p ∈ c.parents, p ∈ pt.map Prod.fst := by
            intro p hp
            obtain ⟨q, hq⟩ := hset p hp
            obtain ⟨y, hy, rfl⟩ := List.mem_map.1 (show p ∈ s.com.map Node.name from cond_parents_known h m1 hp)
            exact (set_iff_key hv hy).1 (by rw [← asg_node, hq]; simp)
          have hxn : x.name ∉ pt.map Prod.fst := fun hk => (set_iff_key hv hx).2 hk hun
          rcases n4 p (hkey p hp) x.name (children_of_parent h hx hc hp) hxn with hin | hfalse
          · exact hin
          · exfalso
            rw [parentConds_node h hx hc, allCond_single,
              (cond_point_ok h hoc hex hv (w := v) (fun _ _ _ hq => hq) m1).1
                (fun p hp hnone => lookup_none_iff.1 hnone (hkey p hp)),
              (satVec_iff c s.idx v).2 hh] at hfalse
            cases hfalse
        obtain ⟨vsets, hvs⟩ := htot new (fun n hn => by
          rcases n2 n hn with hn | ⟨p, _, hn, _⟩
          · cases hn
          · obtain ⟨y, hy, rfl, _⟩ := childrenOf_node h hn
            exact mem_names hy)
        unfold expandPoint at f2
        rw [hnew] at f2
        simp only [hvs] at f2
        split at f2
        · rename_i hemp
          rw [List.isEmpty_iff] at hemp
          rw [hemp] at hxin
          cases hxin
        · cases f2

/-! ## Spaces without conditions and clauses -/

theorem gridLoop_all {steps : List (Name × Nat)} : ∀ (q : List Dict) (acc : List Config),
    (∀ pt ∈ q, ∃ c, Config.ofValues s pt = .ok c) →
    ∃ cs, (∀ k, q.length ≤ k → gridLoop s steps k q acc = some (.ok (acc ++ cs))) ∧
      List.Forall₂ (fun c pt => Config.ofValues s pt = .ok c) cs q := by
  intro q
  induction q with
  | nil => intro acc _; exact ⟨[], fun k _ => by rw [gridLoop_nil, List.append_nil], .nil⟩
  | cons pt q ih =>
    intro acc hall
    obtain ⟨c, hc⟩ := hall pt (by simp)
    obtain ⟨cs, h1, h2⟩ := ih (acc ++ [c]) (fun p hp => hall p (List.mem_cons_of_mem _ hp))
    refine ⟨c :: cs, ?_, .cons hc h2⟩
    intro k hk
    cases k with
    | zero => simp at hk
    | succ k =>
      rw [gridLoop_succ, hc]
      simp only
      rw [h1 k (by simpa using hk)]
      simp

theorem forall₂_mem_right {α β : Type} {R : α → β → Prop} {as : List α} {bs : List β} (h : List.Forall₂ R as bs) {b : β}
    (hb : b ∈ bs) : ∃ a ∈ as, R a b := forall₂_mem h.flip hb

/-- **C39** (the full product). In a space without conditions and clauses the grid has as many configurations as there
are combinations of grid values, and every combination is one of them. -/
theorem C39_full_product (h : Reach calls s) (hne : allHps calls ≠ []) (hc : allConds calls = [])
    (hf : allForbs calls = []) {steps : List (Name × Nat)} (hst : ∀ x ∈ allHps calls, StepsGiven steps x) :
    ∃ N cs, (∀ k, N ≤ k → generateGrid s steps k = some (.ok cs)) ∧
      cs.length = ((allHps calls).map (gridCount steps)).prod ∧
      ∀ f : Name → Val, (∀ x ∈ allHps calls, GridValue steps x (f x.name)) →
        ∃ c ∈ cs, ∀ x ∈ allHps calls, (c.getItem s x.name).1 = .ok (roundVal x.kind (f x.name)) := by
  have hi := sinv_of_reach h
  have hroot : ∀ n, n ∈ s.dag.roots ↔ n ∈ s.names := by
    intro n
    rw [C06_roots_no_condition h n]
    constructor
    · exact fun k => (reach_isNode h n).2 k.1
    · refine fun k => ⟨(reach_isNode h n).1 k, ?_⟩
      rintro ⟨c, hcm, _⟩
      rw [hc] at hcm
      cases hcm
  obtain ⟨sets, hs⟩ : ∃ sets, valueSets s steps s.dag.roots = .ok sets := by
    refine valueSets_total (fun n hn => ?_)
    obtain ⟨x, hx, rfl⟩ := roots_node h hn
    obtain ⟨vs, hvs⟩ := valueSet_total (hst x.hp (node_hp h hx))
    exact ⟨x.hp, vs, hp?_node h hx, hvs⟩
  have hv := valueSets_ok hs
  have hsne : sets.isEmpty = false := by
    cases sets with
    | nil => exact absurd hv.1.symm (roots_ne h hne)
    | cons _ _ => rfl
  have hgp : gridProduct sets = cartesian sets := by simp [gridProduct, hsne]
  have hsep : Separable calls := by intro c hcm; rw [hc] at hcm; cases hcm
  have hown : OwnClauses calls := by intro f hfm; rw [hf] at hfm; cases hfm
  have hbuild : ∀ pt ∈ gridProduct sets, ∃ c, Config.ofValues s pt = .ok c := by
    intro pt hpt
    obtain ⟨p1, p2⟩ := gridStart h hs pt hpt
    obtain ⟨v, hvv⟩ := ptVec_exists h p1
    obtain ⟨vals, j1, _⟩ := ofValues_pt h p1 hvv
    have hck : s.check v = none := by
      refine (check_iff h hsep hown (represents_asg h hvv.len)).2 ⟨?_, ?_, ?_, ?_⟩
      · intro n hk _
        have hn := (hroot n).2 ((reach_isNode h n).2 hk)
        obtain ⟨x, hx, rfl⟩ := roots_node h hn
        have := (set_iff_key hvv hx).2 (by rw [p2]; exact hn)
        cases hq : v.at (s.idx x.name) with
        | none => exact absurd hq this
        | some q => exact ⟨q, hq⟩
      · intro c hcm; rw [hc] at hcm; cases hcm
      · rintro _ _ ⟨c, hcm, _⟩; rw [hc] at hcm; cases hcm
      · intro f hfm; rw [hf] at hfm; cases hfm
    rw [hck] at j1
    exact ⟨_, j1⟩
  obtain ⟨cs, h1, h2⟩ := gridLoop_all (steps := steps) (gridProduct sets) [] hbuild
  refine ⟨(gridProduct sets).length, cs, ?_, ?_, ?_⟩
  · intro k hk
    unfold generateGrid
    rw [hs]
    simp only
    rw [h1 k hk, List.nil_append]
  · rw [h2.length_eq, hgp, cartesian_length]
    -- the value sets, by name
    have e1 : sets.map (fun st => st.2.length) =
        (s.dag.roots.map (fun n => match s.hp? n with | some x => gridCount steps x | none => 0)) := by
      rw [← hv.1, List.map_map]
      apply List.map_congr_left
      intro st hst'
      obtain ⟨x, hx, hxv⟩ := hv.2 st hst'
      simp only [Function.comp, hx]
      exact valueSet_length hxv
    have e2 : ((allHps calls).map (gridCount steps)) =
        ((allHps calls).map HP.name).map (fun n => match s.hp? n with | some x => gridCount steps x | none => 0) := by
      rw [List.map_map]
      apply List.map_congr_left
      intro x hx
      simp only [Function.comp, (hp_of h).2 ⟨hx, rfl⟩]
    rw [e1, e2]
    refine List.Perm.prod_eq (List.Perm.map _ ?_)
    have p1 : (s.com.map Node.name).Perm ((allHps calls).map HP.name) := by
      have := hi.hist.hps.map HP.name
      rw [hi.com, List.map_map] at this
      exact this
    refine List.Perm.trans ?_ p1
    exact (List.perm_ext_iff_of_nodup (roots_nodup h) (reach_ninv h).nodup).2 hroot
  · intro f hfv
    have hm := cartesian_choice (sets := sets) f (by
      intro st hst'
      obtain ⟨x, hx, hxv⟩ := hv.2 st hst'
      obtain ⟨hxm, hxn⟩ := (hp_of h).1 hx
      rw [valueSet_iff hxv, ← hxn]
      exact hfv x hxm)
    rw [← hgp] at hm
    obtain ⟨c, hcm, hcv⟩ := forall₂_mem_right h2 hm
    refine ⟨c, hcm, ?_⟩
    intro y hy
    obtain ⟨x, hx, rfl⟩ := node_of_hp h hy
    have hfull := full_of_values h hcv
    obtain ⟨_, _, _, _, vals, g1, _, g3⟩ := ofValues_ok h hcv
    rw [show x.hp.name = x.name from rfl, getItem_full h hfull hx, g1]
    have hl : (sets.map (fun st => (st.1, some (f st.1)))).lookup x.name = some (some (f x.name)) := by
      refine lookup_of_mem ?_ ?_
      · rw [List.map_map]
        have : (Prod.fst ∘ fun st : Name × List Val => (st.1, some (f st.1))) = Prod.fst := rfl
        rw [this, hv.1]
        exact roots_nodup h
      · have : x.name ∈ sets.map Prod.fst := by rw [hv.1]; exact (hroot _).2 (mem_names hx)
        obtain ⟨st, hst', e⟩ := List.mem_map.1 this
        exact List.mem_map.2 ⟨st, hst', by rw [e]⟩
    rcases g3 x hx with ⟨w, q, m1, _, _, _, m5⟩ | ⟨m1, _⟩
    · rw [hl] at m1
      cases m1
      simp only [Option.getD_some, m5]
    · rw [hl] at m1; simp at m1

/-! ## Examples and counterexamples -/

/-- The vectors of a returned grid. -/
def gridVecs (r : Option (Except Err (List Config))) : Option (List Vec) :=
  match r with
  | some (.ok cs) => some (cs.map Config.vec)
  | _ => none

theorem gridVecs_eq {r : Option (Except Err (List Config))} {vs : List Vec} (h : gridVecs r = some vs) :
    ∃ cs, r = some (.ok cs) ∧ cs.map Config.vec = vs := by
  unfold gridVecs at h
  split at h
  · rename_i cs
    cases h
    exact ⟨cs, rfl, rfl⟩
  · cases h

theorem gridRaised_eq {r : Option (Except Err (List Config))} {e : Err}
    (h : (match r with | some (.error e') => some e' | _ => none) = some e) : r = some (.error e) := by
  split at h
  · cases h; rfl
  · cases h

namespace Ex
theorem ownCondsL : OwnConds [callL] := by
  intro c hc l hl
  simp only [allConds, callL, List.flatMap_cons, List.flatMap_nil, List.append_nil, List.mem_cons,
    List.not_mem_nil, or_false] at hc
  rcases hc with rfl | rfl <;> simp only [Cond.dlcs, List.mem_singleton] at hl <;> subst hl <;>
    simp [allHps, callL, isA]
theorem gridSafeL : GridSafe [callL] := by
  intro c hc
  simp only [allConds, callL, List.flatMap_cons, List.flatMap_nil, List.append_nil, List.mem_cons,
    List.not_mem_nil, or_false] at hc
  rcases hc with rfl | rfl
  · exact .inr ⟨_, rfl, by rintro ⟨_, _, e⟩; cases e⟩
  · exact .inr ⟨_, rfl, by rintro ⟨_, _, e⟩; cases e⟩
theorem abL {x : HP} (hx : x ∈ allHps [callL]) : ∃ n, x = ab n := by
  simp only [show allHps [callL] = [ab "p", ab "x", ab "y"] from rfl, List.mem_cons, List.not_mem_nil, or_false] at hx
  rcases hx with rfl | rfl | rfl <;> exact ⟨_, rfl⟩
theorem gridL : gridVecs (generateGrid spL [] 20) =
    some [[some 1, none, none], [some 0, some 1, none], [some 0, some 0, some 0], [some 0, some 0, some 1]] := by
  decide +kernel

/-- Two unconditional hyperparameters: an integer in `0..3` and a float in `[0, 1]`. -/
def hpI : HP := ⟨"i", .int 0 3, .int 1⟩
def hpF : HP := ⟨"f", .flt 0 1, .flt (1 / 2)⟩
def callGr : Call := ⟨[hpI, hpF], [], []⟩
def spGr : Space := committed {} callGr
theorem reachGr : Reach [callGr] spGr := Reach.snoc (calls := []) .nil (by decide +kernel)
  (add_of_stages [("f", some (.flt (1 / 2))), ("i", some (.int 1))]
    [some (1 / 2), some (1 / 3)] [("f", .flt (1 / 2)), ("i", .int 1)]
    (by decide +kernel) (by decide +kernel) (by decide +kernel) (by decide +kernel) (by decide +kernel)
    (by decide +kernel))

/-- `x | p == "a"`, `y | x != "a"`. -/
def callNR : Call := ⟨[ab "p", ab "x", ab "y"], [.lit (isA "x" "p"), .lit ⟨ab "y", ab "x", .bin .ne (.str "a") 0⟩], []⟩
def spNR : Space := committed {} callNR
theorem reachNR : Reach [callNR] spNR := Reach.snoc (calls := []) .nil (by decide +kernel)
  (add_of_stages [("p", some (.str "a")), ("x", some (.str "a")), ("y", none)]
    [some 0, some 0, none] [("p", .str "a"), ("x", .str "a")]
    (by decide +kernel) (by decide +kernel) (by decide +kernel) (by decide +kernel) (by decide +kernel)
    (by decide +kernel))

/-- `x | p == "a"`, `y | f == 1/3`. -/
def callR : Call := ⟨[hpF, ab "p", ab "x", ab "y"],
  [.lit (isA "x" "p"), .lit ⟨ab "y", hpF, .bin .eq (.flt (1 / 3)) (1 / 3)⟩], []⟩
def spR : Space := committed {} callR
theorem reachR : Reach [callR] spR := Reach.snoc (calls := []) .nil (by decide +kernel)
  (add_of_stages [("f", some (.flt (1 / 2))), ("p", some (.str "a")), ("x", some (.str "a")), ("y", none)]
    [some (1 / 2), some 0, some 0, none] [("f", .flt (1 / 2)), ("p", .str "a"), ("x", .str "a")]
    (by decide +kernel) (by decide +kernel) (by decide +kernel) (by decide +kernel) (by decide +kernel)
    (by decide +kernel))
end Ex

/-- The chain `x | p == "a"`, `y | x == "a"` meets the hypotheses of all theorems about grids: a grid is returned, its
configurations are valid and different, and `{"p": "a", "x": "b"}` is one of them. -/
example : ∃ N cs, (∀ k, N ≤ k → generateGrid Ex.spL [] k = some (.ok cs)) ∧
    (∀ c ∈ cs, ∃ a, Represents Ex.spL c.vec a ∧ Valid [Ex.callL] a) ∧
    cs.Pairwise (fun c c' => c.vec ≠ c'.vec) ∧ ∃ c ∈ cs, c.vec = [some 0, some 1, none] := by
  have hex : ∀ x ∈ allHps [Ex.callL], ∀ w, GridValue [] x w → roundVal x.kind w = w := by
    intro x hx w _
    obtain ⟨n, rfl⟩ := Ex.abL hx
    rfl
  have hown : OwnClauses [Ex.callL] := by intro f hf; simp [allForbs, Ex.callL] at hf
  obtain ⟨N, cs, h1⟩ := C39_grid_returned_partial Ex.reachL Ex.sepL Ex.ownCondsL Ex.gridSafeL (steps := [])
    (by intro x hx; obtain ⟨n, rfl⟩ := Ex.abL hx; exact .inl ⟨_, rfl⟩) hex
  refine ⟨N, cs, h1, C39_grid_valid_partial Ex.reachL Ex.sepL hown (h1 N (Nat.le_refl _)),
    C39_grid_no_duplicates Ex.reachL ?_ (h1 N (Nat.le_refl _)), ?_⟩
  · intro x hx
    obtain ⟨n, rfl⟩ := Ex.abL hx
    exact ⟨fun _ _ e => (by cases e), fun _ _ e => (by cases e)⟩
  · have hl : ([some 0, some 1, none] : Vec).length = Ex.spL.len := by decide +kernel
    have hr := represents_asg Ex.reachL hl
    have hck := (check_iff Ex.reachL Ex.sepL hown hr).1 (by decide +kernel)
    have hp : asg Ex.spL.idx [some 0, some 1, none] "p" = some 0 := by decide +kernel
    have hx' : asg Ex.spL.idx [some 0, some 1, none] "x" = some 1 := by decide +kernel
    have hy' : asg Ex.spL.idx [some 0, some 1, none] "y" = none := by decide +kernel
    obtain ⟨c, hc, hcv⟩ := C39_grid_complete_partial Ex.reachL (by simp [allHps, Ex.callL]) Ex.sepL hown Ex.ownCondsL hex
      (h1 N (Nat.le_refl _)) (a := asg Ex.spL.idx [some 0, some 1, none])
      ⟨hck.1, hck.2.1, (by
        intro x hx q hq
        simp only [show allHps [Ex.callL] = [Ex.ab "p", Ex.ab "x", Ex.ab "y"] from rfl, List.mem_cons,
          List.not_mem_nil, or_false] at hx
        rcases hx with rfl | rfl | rfl
        · rw [show (Ex.ab "p").name = "p" from rfl, hp] at hq; cases hq; decide +kernel
        · rw [show (Ex.ab "x").name = "x" from rfl, hx'] at hq; cases hq; decide +kernel
        · rw [show (Ex.ab "y").name = "y" from rfl, hy'] at hq; cases hq), hck.2.2.2⟩
      (by
        intro x hx q hq
        simp only [show allHps [Ex.callL] = [Ex.ab "p", Ex.ab "x", Ex.ab "y"] from rfl, List.mem_cons,
          List.not_mem_nil, or_false] at hx
        rcases hx with rfl | rfl | rfl
        · rw [show (Ex.ab "p").name = "p" from rfl, hp] at hq; cases hq
          exact ⟨.str "a", List.mem_cons_self, by decide +kernel⟩
        · rw [show (Ex.ab "x").name = "x" from rfl, hx'] at hq; cases hq
          exact ⟨.str "b", List.mem_cons_of_mem _ List.mem_cons_self, by decide +kernel⟩
        · rw [show (Ex.ab "y").name = "y" from rfl, hy'] at hq; cases hq)
    refine ⟨c, hc, vec_ext hcv.1 hl ?_⟩
    intro i hi
    rw [show Ex.spL.len = 3 by decide +kernel] at hi
    match i, hi with
    | 0, _ => rw [hcv.2 0 "p" (by unfold At; decide +kernel), hp]; rfl
    | 1, _ => rw [hcv.2 1 "x" (by unfold At; decide +kernel), hx']; rfl
    | 2, _ => rw [hcv.2 2 "y" (by unfold At; decide +kernel), hy']; rfl

/-- The space with an integer and a float meets the hypotheses of `C39_full_product`: two times three points. -/
example : ∃ N cs, (∀ k, N ≤ k → generateGrid Ex.spGr [("i", 2), ("f", 3)] k = some (.ok cs)) ∧ cs.length = 6 ∧
    ∃ c ∈ cs, (c.getItem Ex.spGr "i").1 = .ok (.int 3) ∧ (c.getItem Ex.spGr "f").1 = .ok (.flt (1 / 2)) := by
  have hh : allHps [Ex.callGr] = [Ex.hpI, Ex.hpF] := rfl
  obtain ⟨N, cs, h1, h2, h3⟩ := C39_full_product Ex.reachGr (by simp [hh]) rfl rfl (steps := [("i", 2), ("f", 3)]) (by
    intro x hx
    simp only [hh, List.mem_cons, List.not_mem_nil, or_false] at hx
    rcases hx with rfl | rfl
    · exact .inr (.inr (.inr ⟨1, rfl⟩))
    · exact .inr (.inr (.inr ⟨2, rfl⟩)))
  refine ⟨N, cs, h1, by rw [h2, hh]; rfl, ?_⟩
  obtain ⟨c, hc, hr⟩ := h3 (fun n => if n = "i" then .int 3 else .flt (1 / 2)) (by
    intro x hx
    simp only [hh, List.mem_cons, List.not_mem_nil, or_false] at hx
    rcases hx with rfl | rfl
    · exact ⟨2, rfl, 1, by decide, by decide +kernel⟩
    · exact ⟨3, rfl, 1, by decide, by decide +kernel⟩)
  refine ⟨c, hc, ?_, ?_⟩
  · have := hr Ex.hpI (by simp [hh])
    rw [show Ex.hpI.name = "i" from rfl] at this
    rw [this]
    decide +kernel
  · have := hr Ex.hpF (by simp [hh])
    rw [show Ex.hpF.name = "f" from rfl] at this
    rw [this]
    decide +kernel

/-- With more steps than integers in the range, the same configuration is returned twice. -/
theorem C39_duplicates : ∃ calls s steps cs, ∃ (i j : Nat) (v : Vec), Reach calls s ∧
    generateGrid s steps 50 = some (.ok cs) ∧ i ≠ j ∧ (cs.map Config.vec)[i]? = some v ∧ (cs.map Config.vec)[j]? = some v := by
  have hg : ∃ v1 v2 rest, gridVecs (generateGrid Ex.spGr [("i", 9), ("f", 1)] 50) = some (v1 :: v2 :: rest) ∧ v1 = v2 := by
    refine ⟨[some 0, some 0], [some 0, some 0], _, (by decide +kernel :
      gridVecs (generateGrid Ex.spGr [("i", 9), ("f", 1)] 50) = some ([some 0, some 0] :: [some 0, some 0] ::
        [[some 0, some (1/3)], [some 0, some (1/3)], [some 0, some (2/3)], [some 0, some (2/3)], [some 0, some (2/3)],
         [some 0, some 1], [some 0, some 1]])), rfl⟩
  obtain ⟨v1, v2, rest, h1, h2⟩ := hg
  obtain ⟨cs, h3, h4⟩ := gridVecs_eq h1
  subst h2
  exact ⟨[Ex.callGr], Ex.spGr, _, cs, 0, 1, v1, Ex.reachGr, h3, by decide, by rw [h4]; rfl, by rw [h4]; rfl⟩

/-- A conjunction with a parent that is not yet in the point raises `KeyError`, although the space has valid
configurations and all conditions are conjunctions of `==`. -/
theorem C39_conjunction_raises : ∃ calls s v, Reach calls s ∧ (∀ d ∈ allConds calls, Tight calls d) ∧
    s.check v = none ∧ generateGrid s [] 50 = some (.error .keyError) := by
  refine ⟨[Ex.callI], Ex.spI, [some 0, some 0, some 0, some 0, some 0], Ex.reachI, ?_, by decide +kernel,
    gridRaised_eq (by decide +kernel)⟩
  intro d hd
  simp only [allConds, Ex.callI, List.flatMap_cons, List.flatMap_nil, List.append_nil, List.mem_cons,
    List.not_mem_nil, or_false] at hd
  have hp : ∀ c p, Tight [Ex.callI] (.lit (Ex.isA c p)) := fun c p => .pos (by rintro ⟨_, _, e⟩; cases e)
  rcases hd with rfl | rfl | rfl
  · exact hp _ _
  · exact hp _ _
  · refine .and ?_
    intro c hc
    simp only [List.mem_cons, List.not_mem_nil, or_false] at hc
    rcases hc with rfl | rfl <;> exact hp _ _

/-- `!=` on an inactive hyperparameter raises `RuntimeError`. -/
theorem C39_not_equals_raises : ∃ calls s, Reach calls s ∧ generateGrid s [] 50 = some (.error .runtimeError) :=
  ⟨[Ex.callNR], Ex.spNR, Ex.reachNR, gridRaised_eq (by decide +kernel)⟩

/-- A float that is rounded makes the two ways of evaluating a condition disagree, and the generation raises
`InactiveHyperparameterSetError`. -/
theorem C39_rounding_raises : ∃ calls s steps, Reach calls s ∧ generateGrid s steps 50 = some (.error (.inactiveSet "y")) :=
  ⟨[Ex.callR], Ex.spR, [("f", 4)], Ex.reachR, gridRaised_eq (by decide +kernel)⟩

/-- Numerical hyperparameters without a number of steps raise `ValueError`. -/
theorem C39_missing_steps_raises : ∃ calls s, Reach calls s ∧ generateGrid s [] 50 = some (.error .valueError) :=
  ⟨[Ex.callGr], Ex.spGr, Ex.reachGr, gridRaised_eq (by decide +kernel)⟩

/-- The grid of the empty space is empty, although the space has a configuration. -/
theorem C39_empty_space : ∃ s c, Reach [] s ∧ Config.ofValues s [] = .ok c ∧ generateGrid s [] 50 = some (.ok []) :=
  ⟨{}, ⟨[], some [], false⟩, .nil, rfl, rfl⟩

example := C39_integer_steps_distinct (l := 1) (u := 10) (n := 4) (by decide)
example := C39_float_steps_distinct (l := 0) (u := 1) (n := 5) (by norm_num)

end Verif
