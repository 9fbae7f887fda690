import Verif.Spec.Positions
import Verif.Lemmas.Alias
import Verif.Lemmas.SpaceEq
import Verif.Props.Family
import Verif.Props.Sample

/-!
# Lemmas: positions kept in objects
-/

set_option autoImplicit false

namespace Verif
open Spec

variable {o : Objs}

/-! ## Evaluation with the right positions -/

theorem satAllAt_iff {at' : Nat → Nat} {v : Vec} : ∀ {ts : List (Tree Nat)},
    Tree.satAllAt o at' v ts = ts.all (fun t => t.satAt o at' v)
  | [] => rfl
  | t :: ts => by rw [Tree.satAllAt, satAllAt_iff, List.all_cons]

theorem satAnyAt_iff {at' : Nat → Nat} {v : Vec} : ∀ {ts : List (Tree Nat)},
    Tree.satAnyAt o at' v ts = ts.any (fun t => t.satAt o at' v)
  | [] => rfl
  | t :: ts => by rw [Tree.satAnyAt, satAnyAt_iff, List.any_cons]

theorem satVecAll_toCondL {idx : Name → Nat} {v : Vec} : ∀ {ts : List (Tree Nat)},
    Cond.satVecAll idx v (Tree.toCondL o ts) = ts.all (fun t => (t.toCond o).satVec idx v)
  | [] => rfl
  | t :: ts => by rw [Tree.toCondL, Cond.satVecAll, satVecAll_toCondL, List.all_cons]

theorem satVecAny_toCondL {idx : Name → Nat} {v : Vec} : ∀ {ts : List (Tree Nat)},
    Cond.satVecAny idx v (Tree.toCondL o ts) = ts.any (fun t => (t.toCond o).satVec idx v)
  | [] => rfl
  | t :: ts => by rw [Tree.toCondL, Cond.satVecAny, satVecAny_toCondL, List.any_cons]

theorem satAt_eq {idx : Name → Nat} {at' : Nat → Nat} {v : Vec} {t : Tree Nat}
    (h : ∀ i ∈ t.leaves, at' i = idx (o.lit i).parent.name) : t.satAt o at' v = (t.toCond o).satVec idx v := by
  induction t using Tree.induct with
  | hl i => rw [Tree.satAt, Tree.toCond, Cond.satVec, h i (by simp [Tree.leaves])]
  | hn k ts ih =>
    have hi : ∀ t ∈ ts, t.satAt o at' v = (t.toCond o).satVec idx v := fun t ht =>
      ih t ht (fun i hi => h i (by rw [Tree.leaves]; exact Tree.mem_leavesL.2 ⟨t, ht, hi⟩))
    cases k with
    | true =>
      rw [Tree.satAt, Tree.toCond, Cond.satVec, satAllAt_iff, satVecAll_toCondL, Bool.eq_iff_iff, List.all_eq_true,
        List.all_eq_true]
      exact forall₂_congr (fun t ht => by rw [hi t ht])
    | false =>
      rw [Tree.satAt, Tree.toCond, Cond.satVec, satAnyAt_iff, satVecAny_toCondL, Bool.eq_iff_iff, List.any_eq_true,
        List.any_eq_true]
      exact exists_congr (fun t => and_congr_right (fun ht => by rw [hi t ht]))

theorem onAt_eq {idx : Name → Nat} {v : Vec} {f : FLit} :
    f.onAt (f.hps.map (fun h => idx h.name)) v = f.toForb.onVec idx v := by
  cases f <;> rfl

theorem forbAllAt_iff {at' : Nat → List Nat} {v : Vec} : ∀ {ts : List (Tree Nat)},
    Tree.forbAllAt o at' v ts = ts.all (fun t => t.forbAt o at' v)
  | [] => rfl
  | t :: ts => by rw [Tree.forbAllAt, forbAllAt_iff, List.all_cons]

theorem onVecAll_toForbL {idx : Name → Nat} {v : Vec} : ∀ {ts : List (Tree Nat)},
    Forb.onVecAll idx v (Tree.toForbL o ts) = ts.all (fun t => (t.toForb o).onVec idx v)
  | [] => rfl
  | t :: ts => by rw [Tree.toForbL, Forb.onVecAll, onVecAll_toForbL, List.all_cons]

theorem forbAt_eq {idx : Name → Nat} {at' : Nat → List Nat} {v : Vec} {t : Tree Nat}
    (h : ∀ i ∈ t.leaves, at' i = (o.clause i).hps.map (fun x => idx x.name)) :
    t.forbAt o at' v = (t.toForb o).onVec idx v := by
  induction t using Tree.induct with
  | hl i => rw [Tree.forbAt, Tree.toForb, h i (by simp [Tree.leaves]), onAt_eq]
  | hn k ts ih =>
    have hi : ∀ t ∈ ts, t.forbAt o at' v = (t.toForb o).onVec idx v := fun t ht =>
      ih t ht (fun i hi => h i (by rw [Tree.leaves]; exact Tree.mem_leavesL.2 ⟨t, ht, hi⟩))
    rw [Tree.forbAt, Tree.toForb, Forb.onVec, forbAllAt_iff, onVecAll_toForbL, Bool.eq_iff_iff, List.all_eq_true,
      List.all_eq_true]
    exact forall₂_congr (fun t ht => by rw [hi t ht])

/-! ## Assignments -/

theorem setCond_fold {idx : Name → Nat} : ∀ (ts : List (Tree Nat)) (p : Positions),
    (ts.foldl (Positions.setCond o idx) p).clause = p.clause ∧
    ∀ i, (ts.foldl (Positions.setCond o idx) p).cond i =
      if ∃ t ∈ ts, i ∈ t.leaves then some (idx (o.lit i).parent.name) else p.cond i := by
  intro ts
  induction ts with
  | nil => intro p; simp
  | cons t ts ih =>
    intro p
    rw [List.foldl_cons]
    refine ⟨(ih _).1, fun i => ?_⟩
    rw [(ih _).2 i]
    by_cases h1 : ∃ t ∈ ts, i ∈ t.leaves
    · rw [if_pos h1, if_pos]
      obtain ⟨u, hu, hi⟩ := h1
      exact ⟨u, by simp [hu], hi⟩
    · rw [if_neg h1]
      by_cases h2 : i ∈ t.leaves
      · rw [if_pos ⟨t, by simp, h2⟩]
        simp [Positions.setCond, h2]
      · rw [if_neg]
        · simp [Positions.setCond, h2]
        · rintro ⟨u, hu, hi⟩
          rcases List.mem_cons.1 hu with rfl | hu
          · exact h2 hi
          · exact h1 ⟨u, hu, hi⟩

theorem setClause_fold {idx : Name → Nat} : ∀ (ts : List (Tree Nat)) (p : Positions),
    (ts.foldl (Positions.setClause o idx) p).cond = p.cond ∧
    ∀ i, (ts.foldl (Positions.setClause o idx) p).clause i =
      if ∃ t ∈ ts, i ∈ t.leaves then some ((o.clause i).hps.map (fun h => idx h.name)) else p.clause i := by
  intro ts
  induction ts with
  | nil => intro p; simp
  | cons t ts ih =>
    intro p
    rw [List.foldl_cons]
    refine ⟨(ih _).1, fun i => ?_⟩
    rw [(ih _).2 i]
    by_cases h1 : ∃ t ∈ ts, i ∈ t.leaves
    · rw [if_pos h1, if_pos]
      obtain ⟨u, hu, hi⟩ := h1
      exact ⟨u, by simp [hu], hi⟩
    · rw [if_neg h1]
      by_cases h2 : i ∈ t.leaves
      · rw [if_pos ⟨t, by simp, h2⟩]
        simp [Positions.setClause, h2]
      · rw [if_neg]
        · simp [Positions.setClause, h2]
        · rintro ⟨u, hu, hi⟩
          rcases List.mem_cons.1 hu with rfl | hu
          · exact h2 hi
          · exact h1 ⟨u, hu, hi⟩

theorem commit_cond {s : Space} {cs fs : List (Tree Nat)} {p : Positions} (i : Nat) :
    (p.commit o s cs fs).cond i =
      if ∃ t ∈ conditionObjs o s cs, i ∈ t.leaves then some (s.idx (o.lit i).parent.name) else p.cond i := by
  unfold Positions.commit
  rw [(setCond_fold _ _).2, (setClause_fold _ _).1]

theorem commit_clause {s : Space} {cs fs : List (Tree Nat)} {p : Positions} (i : Nat) :
    (p.commit o s cs fs).clause i =
      if ∃ t ∈ fs, i ∈ t.leaves then some ((o.clause i).hps.map (fun h => s.idx h.name)) else p.clause i := by
  unfold Positions.commit
  rw [(setCond_fold _ _).1, (setClause_fold _ _).2]

/-! ## Worlds -/

/-- All condition objects added to space `k`. -/
def condsOf (es : List (Nat × OCall)) (k : Nat) : List (Tree Nat) :=
  (es.filter (fun e => decide (e.1 = k))).flatMap (fun e => e.2.conds)

/-- All clause objects added to space `k`. -/
def forbsOf (es : List (Nat × OCall)) (k : Nat) : List (Tree Nat) :=
  (es.filter (fun e => decide (e.1 = k))).flatMap (fun e => e.2.forbs)

theorem mem_condsOf {es : List (Nat × OCall)} {k : Nat} {t : Tree Nat} :
    t ∈ condsOf es k ↔ ∃ e ∈ es, e.1 = k ∧ t ∈ e.2.conds := by
  simp only [condsOf, List.mem_flatMap, List.mem_filter, decide_eq_true_eq, and_assoc]

theorem mem_forbsOf {es : List (Nat × OCall)} {k : Nat} {t : Tree Nat} :
    t ∈ forbsOf es k ↔ ∃ e ∈ es, e.1 = k ∧ t ∈ e.2.forbs := by
  simp only [forbsOf, List.mem_flatMap, List.mem_filter, decide_eq_true_eq, and_assoc]

theorem callsOf_snoc {es : List (Nat × OCall)} {j k : Nat} {c : OCall} :
    callsOf o (es ++ [(j, c)]) k = if j = k then callsOf o es k ++ [c.call o] else callsOf o es k := by
  unfold callsOf
  rw [List.filter_append]
  by_cases h : j = k <;> simp [h]

theorem condsOf_snoc {es : List (Nat × OCall)} {j k : Nat} {c : OCall} :
    condsOf (es ++ [(j, c)]) k = if j = k then condsOf es k ++ c.conds else condsOf es k := by
  unfold condsOf
  rw [List.filter_append]
  by_cases h : j = k <;> simp [h]

theorem forbsOf_snoc {es : List (Nat × OCall)} {j k : Nat} {c : OCall} :
    forbsOf (es ++ [(j, c)]) k = if j = k then forbsOf es k ++ c.forbs else forbsOf es k := by
  unfold forbsOf
  rw [List.filter_append]
  by_cases h : j = k <;> simp [h]

theorem allConds_callsOf {es : List (Nat × OCall)} {k : Nat} :
    allConds (callsOf o es k) = (condsOf es k).map (Tree.toCond o) := by
  unfold callsOf condsOf allConds
  generalize es.filter (fun e => decide (e.1 = k)) = l
  induction l with
  | nil => rfl
  | cons e l ih => simp only [List.map_cons, List.flatMap_cons, List.map_append, ih]; rfl

theorem allForbs_callsOf {es : List (Nat × OCall)} {k : Nat} :
    allForbs (callsOf o es k) = (forbsOf es k).map (Tree.toForb o) := by
  unfold callsOf forbsOf allForbs
  generalize es.filter (fun e => decide (e.1 = k)) = l
  induction l with
  | nil => rfl
  | cons e l ih => simp only [List.map_cons, List.flatMap_cons, List.map_append, ih]; rfl

theorem conditionObjs_mem {s : Space} {ts : List (Tree Nat)} {t : Tree Nat} (h : t ∈ conditionObjs o s ts) : t ∈ ts := by
  obtain ⟨h1, _⟩ := uniqueBy_mem h
  obtain ⟨n, _, hn⟩ := List.mem_filterMap.1 h1
  unfold lastObj at hn
  exact (List.mem_filter.1 (List.mem_of_getLast? hn)).1

theorem worlds_hist {es : List (Nat × OCall)} {w : World} (h : Worlds o es w) (k : Nat) :
    Reach (callsOf o es k) (w.space k) ∧ w.conds k = condsOf es k ∧ w.forbs k = forbsOf es k := by
  induction h with
  | nil => exact ⟨.nil, rfl, rfl⟩
  | @snoc es w j c s' hw hc ha ih =>
    rw [callsOf_snoc, condsOf_snoc, forbsOf_snoc]
    by_cases hjk : k = j
    · subst hjk
      simp only [World.added, if_true]
      refine ⟨.snoc ih.1 hc ha, ?_, ?_⟩
      · rw [ih.2.1]
      · rw [ih.2.2]
    · have hkj : ¬ j = k := fun e => hjk e.symm
      simp only [World.added, if_neg hjk, if_neg hkj]
      exact ih

/-- The positions of the objects that `conditions` and `forbidden_clauses` of space `k` list. -/
theorem worlds_pos {es : List (Nat × OCall)} {w : World} (h : Worlds o es w) {k : Nat} (hs : NotShared es k) :
    (∀ t ∈ conditionObjs o (w.space k) (condsOf es k), ∀ i ∈ t.leaves,
      w.pos.cond i = some ((w.space k).idx (o.lit i).parent.name)) ∧
    ∀ t ∈ forbsOf es k, ∀ i ∈ t.leaves,
      w.pos.clause i = some ((o.clause i).hps.map (fun x => (w.space k).idx x.name)) := by
  induction h with
  | nil =>
    refine ⟨fun t ht => ?_, fun t ht => ?_⟩
    · have := conditionObjs_mem ht
      simp [condsOf] at this
    · simp [forbsOf] at ht
  | @snoc es w j c s' hw hc ha ih =>
    have hs' : NotShared es k := by
      intro j' hj'
      refine ⟨fun i hu hv => (hs j' hj').1 i ?_ ?_, fun i hu hv => (hs j' hj').2 i ?_ ?_⟩
      · obtain ⟨e, he, h1⟩ := hu; exact ⟨e, by simp [he], h1⟩
      · obtain ⟨e, he, h1⟩ := hv; exact ⟨e, by simp [he], h1⟩
      · obtain ⟨e, he, h1⟩ := hu; exact ⟨e, by simp [he], h1⟩
      · obtain ⟨e, he, h1⟩ := hv; exact ⟨e, by simp [he], h1⟩
    obtain ⟨ih1, ih2⟩ := ih hs'
    obtain ⟨_, hc1, hf1⟩ := worlds_hist hw j
    rw [condsOf_snoc, forbsOf_snoc]
    by_cases hjk : k = j
    · subst hjk
      simp only [World.added, if_true]
      rw [hc1, hf1]
      refine ⟨fun t ht i hi => ?_, fun t ht i hi => ?_⟩
      · rw [commit_cond, if_pos ⟨t, ht, hi⟩]
      · rw [commit_clause, if_pos ⟨t, ht, hi⟩]
    · have hkj : ¬ j = k := fun e => hjk e.symm
      simp only [World.added, if_neg hjk, if_neg hkj]
      rw [hc1, hf1]
      refine ⟨fun t ht i hi => ?_, fun t ht i hi => ?_⟩
      · rw [commit_cond, if_neg, ih1 t ht i hi]
        rintro ⟨u, hu, hiu⟩
        have h1 := conditionObjs_mem hu
        refine (hs j hkj).1 i ?_ ?_
        · obtain ⟨e, he, hek, het⟩ := mem_condsOf.1 (conditionObjs_mem ht)
          exact ⟨e, by simp [he], hek, t, het, hi⟩
        · rcases List.mem_append.1 h1 with h1 | h1
          · obtain ⟨e, he, hek, het⟩ := mem_condsOf.1 h1
            exact ⟨e, by simp [he], hek, u, het, hiu⟩
          · exact ⟨(j, c), by simp, rfl, u, h1, hiu⟩
      · rw [commit_clause, if_neg, ih2 t ht i hi]
        rintro ⟨u, h1, hiu⟩
        refine (hs j hkj).2 i ?_ ?_
        · obtain ⟨e, he, hek, het⟩ := mem_forbsOf.1 ht
          exact ⟨e, by simp [he], hek, t, het, hi⟩
        · rcases List.mem_append.1 h1 with h1 | h1
          · obtain ⟨e, he, hek, het⟩ := mem_forbsOf.1 h1
            exact ⟨e, by simp [he], hek, u, het, hiu⟩
          · exact ⟨(j, c), by simp, rfl, u, h1, hiu⟩

theorem lastObj_of {es : List (Nat × OCall)} {k : Nat} {n : Name} {t : Tree Nat} (h : CondObj o es k n t) :
    lastObj o (condsOf es k) n = some t := by
  obtain ⟨pre, post, h1, h2, h3⟩ := h
  unfold lastObj condsOf
  rw [h1, List.filter_append, List.filter_cons_of_pos (by simpa [childName] using h2)]
  have : post.filter (fun t => decide ((t.toCond o).child?.map HP.name = some n)) = [] := by
    rw [List.filter_eq_nil_iff]
    intro u hu
    simpa [childName] using h3 u hu
  rw [this]
  simp

theorem lastObj_child {ts : List (Tree Nat)} {n : Name} {t : Tree Nat} (h : lastObj o ts n = some t) :
    t ∈ ts ∧ childName (t.toCond o) = some n := by
  unfold lastObj at h
  have := List.mem_filter.1 (List.mem_of_getLast? h)
  simpa [childName] using this

theorem lastObj_cond {ts : List (Tree Nat)} {n : Name} :
    lastCond (ts.map (Tree.toCond o)) n = (lastObj o ts n).map (Tree.toCond o) := by
  unfold lastCond lastObj
  rw [List.filter_map, List.getLast?_map]
  rfl

/-- With conditions that print differently, the condition object of every hyperparameter is in `conditions`. -/
theorem condObj_listed {es : List (Nat × OCall)} {w : World} (h : Worlds o es w) {k : Nat}
    (hp : PrintApart (callsOf o es k)) {n : Name} {t : Tree Nat} (ht : CondObj o es k n t) :
    t ∈ conditionObjs o (w.space k) (condsOf es k) := by
  have hr := (worlds_hist h k).1
  have hl := lastObj_of ht
  obtain ⟨hm, hn⟩ := lastObj_child hl
  have hin : t.toCond o ∈ allConds (callsOf o es k) := by
    rw [allConds_callsOf]
    exact List.mem_map.2 ⟨t, hm, rfl⟩
  obtain ⟨x, hx, hxn, _⟩ := node_of_child hr hin hn
  have hname : n ∈ (w.space k).names := by rw [← hxn]; exact mem_names hx
  have hmem : t ∈ (w.space k).names.filterMap (lastObj o (condsOf es k)) := List.mem_filterMap.2 ⟨n, hname, hl⟩
  rcases uniqueBy_key (key := fun t => (t.toCond o).render) (seen := []) hmem with h0 | ⟨y, hy, hk⟩
  · cases h0
  · obtain ⟨hy1, _⟩ := uniqueBy_mem hy
    obtain ⟨m, _, hym⟩ := List.mem_filterMap.1 hy1
    obtain ⟨hy2, hyn⟩ := lastObj_child hym
    have hyin : y.toCond o ∈ allConds (callsOf o es k) := by
      rw [allConds_callsOf]
      exact List.mem_map.2 ⟨y, hy2, rfl⟩
    have := hp _ hyin _ hin hk
    rw [hyn, hn] at this
    cases this
    rw [hl] at hym
    cases hym
    exact hy

theorem sat_of_pos {p : Positions} {s : Space} {t : Tree Nat}
    (h : ∀ i ∈ t.leaves, p.cond i = some (s.idx (o.lit i).parent.name)) (v : Vec) :
    p.sat o t v = some ((t.toCond o).satVec s.idx v) := by
  unfold Positions.sat
  rw [if_pos (List.all_eq_true.2 (fun i hi => by rw [h i hi]; rfl)), satAt_eq (idx := s.idx) (fun i hi => by rw [h i hi]; rfl)]

theorem forbids_of_pos {p : Positions} {s : Space} {t : Tree Nat}
    (h : ∀ i ∈ t.leaves, p.clause i = some ((o.clause i).hps.map (fun x => s.idx x.name))) (v : Vec) :
    p.forbids o t v = some ((t.toForb o).onVec s.idx v) := by
  unfold Positions.forbids
  rw [if_pos (List.all_eq_true.2 (fun i hi => by rw [h i hi]; rfl)), forbAt_eq (idx := s.idx) (fun i hi => by rw [h i hi]; rfl)]

end Verif
