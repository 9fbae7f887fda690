import Verif.Lemmas.Order
import Verif.Model.Sample
import Verif.Props.Eval

/-!
# Sampling, column by column
-/

set_option autoImplicit false

namespace Verif
open Verif.Spec

/-- The matrix with `n` rows and the given columns. -/
def ofCols (n : Nat) (vs : List Vec) : Mat := (List.range n).map (fun i => vs.map (fun v => v.at i))

theorem ofCols_length {n : Nat} {vs : List Vec} : (ofCols n vs).length = n := by simp [ofCols]

theorem ofCols_rect {n : Nat} {vs : List Vec} : Rect (ofCols n vs) vs.length := by
  intro row hr
  simp only [ofCols, List.mem_map] at hr
  obtain ⟨i, _, rfl⟩ := hr
  simp

theorem cols_eq (w : Nat) (m : Mat) : m.cols w = (List.range w).map (fun j => column m j) := rfl

theorem vec_ext {v w : Vec} {n : Nat} (hv : v.length = n) (hw : w.length = n) (h : ∀ i < n, v.at i = w.at i) :
    v = w := by
  apply List.ext_getElem (by rw [hv, hw])
  intro i h1 h2
  have := h i (by omega)
  simpa [Vec.at, h1, h2] using this

theorem column_ofCols {n : Nat} {vs : List Vec} (hl : ∀ v ∈ vs, v.length = n) {j : Nat} (hj : j < vs.length) :
    column (ofCols n vs) j = vs[j] := by
  refine vec_ext (n := n) (by simp [column, ofCols]) (hl _ (List.getElem_mem hj)) ?_
  intro i hi
  simp [column, ofCols, Vec.at, hi, hj]

theorem cols_ofCols {n : Nat} {vs : List Vec} (hl : ∀ v ∈ vs, v.length = n) : (ofCols n vs).cols vs.length = vs := by
  rw [cols_eq]
  apply List.ext_getElem (by simp)
  intro j h1 h2
  simp only [List.getElem_map, List.getElem_range]
  exact column_ofCols hl h2

theorem ofCols_cols {m : Mat} {w : Nat} (hr : Rect m w) : ofCols m.length (m.cols w) = m := by
  apply List.ext_getElem (by simp [ofCols])
  intro i h1 h2
  have := row_eq hr h2
  simp only [Mat.row, List.getD_eq_getElem?_getD, List.getElem?_eq_getElem h2, Option.getD_some] at this
  rw [this]
  simp [ofCols, cols_eq, Function.comp_def]

theorem cols_length_mem {m : Mat} {w : Nat} : ∀ v ∈ m.cols w, v.length = m.length := by
  intro v hv
  simp only [Mat.cols, List.mem_map] at hv
  obtain ⟨j, _, rfl⟩ := hv
  simp

theorem keepRow_map {α : Type} (f : α → NV) (p : α → Bool) (vs : List α) :
    keepRow (vs.map p) (vs.map f) = (vs.filter p).map f := by
  unfold keepRow
  induction vs with
  | nil => rfl
  | cons v vs ih =>
    cases hp : p v <;> simp [hp] <;> simpa using ih

theorem keepCols_ofCols {n : Nat} {vs : List Vec} (p : Vec → Bool) :
    (ofCols n vs).keepCols (vs.map p) = ofCols n (vs.filter p) := by
  unfold Mat.keepCols ofCols
  rw [List.map_map]
  refine List.map_congr_left ?_
  intro i _
  exact keepRow_map _ p vs

theorem numTrue_map {α : Type} (p : α → Bool) (vs : List α) : numTrue (vs.map p) = (vs.filter p).length := by
  unfold numTrue
  induction vs with
  | nil => rfl
  | cons v vs ih => cases hp : p v <;> simp [hp] <;> simpa using ih

variable {calls : List Call} {s : Space}

theorem satArr_ofCols (h : Reach calls s) {c : Cond} (hc : c ∈ allConds calls) {vs : List Vec}
    (hl : ∀ v ∈ vs, v.length = s.len) :
    c.satArr s.idx vs.length (ofCols s.len vs) = vs.map (fun v => c.satVec s.idx v) := by
  rw [satArr_col ofCols_rect c]
  · apply List.ext_getElem (by simp)
    intro j h1 h2
    simp only [List.getElem_map, List.getElem_range]
    rw [column_ofCols hl (by simpa using h1)]
  · intro p hp
    rw [ofCols_length]
    exact idx_lt h (cond_parents_known h hc hp)

theorem onArr_ofCols (h : Reach calls s) {f : Forb} (hf : f ∈ allForbs calls) {vs : List Vec}
    (hl : ∀ v ∈ vs, v.length = s.len) :
    f.onArr s.idx vs.length (ofCols s.len vs) = vs.map (fun v => f.onVec s.idx v) := by
  rw [onArr_col ofCols_rect f]
  · apply List.ext_getElem (by simp)
    intro j h1 h2
    simp only [List.getElem_map, List.getElem_range]
    rw [column_ofCols hl (by simpa using h1)]
  · intro p hp
    rw [ofCols_length]
    have hi := sinv_of_reach h
    have := hi.hist.forbNames f hf p hp
    rw [hi.com] at this
    exact idx_lt h this

theorem forbMask_ofCols (h : Reach calls s) {vs : List Vec} (hl : ∀ v ∈ vs, v.length = s.len) {fs : List Forb}
    (hf : ∀ f ∈ fs, f ∈ allForbs calls) :
    forbMask s vs.length (ofCols s.len vs) fs = vs.map (fun v => fs.any (fun f => f.onVec s.idx v)) := by
  unfold forbMask
  have key : ∀ (fs : List Forb) (p : Vec → Bool), (∀ f ∈ fs, f ∈ allForbs calls) →
      fs.foldl (fun acc f => List.zipWith (· || ·) acc (f.onArr s.idx vs.length (ofCols s.len vs))) (vs.map p) =
        vs.map (fun v => p v || fs.any (fun f => f.onVec s.idx v)) := by
    intro fs
    induction fs with
    | nil => intro p _; simp
    | cons f fs ih =>
      intro p hfs
      rw [List.foldl_cons, onArr_ofCols h (hfs f (by simp)) hl, zipWith_map_same,
        ih (fun v => p v || f.onVec s.idx v) (fun g hg => hfs g (by simp [hg]))]
      simp [Bool.or_assoc]
  have := key fs (fun _ => false) hf
  simpa [List.map_const'] using this

/-- One condition node of the sampler, on one column. -/
def maskOne (s : Space) (v : Vec) (c : CNode) : Vec :=
  v.mapIdx (fun i e => if i ∈ c.kids.map s.idx then if c.cond.satVec s.idx v then e else none else e)

theorem maskOne_length {v : Vec} {c : CNode} : (maskOne s v c).length = v.length := by simp [maskOne]

theorem maskOne_at_idx {v : Vec} {c : CNode} {i : Nat} :
    (maskOne s v c).at i = if i ∈ c.kids.map s.idx then if c.cond.satVec s.idx v then v.at i else none else v.at i := by
  unfold maskOne Vec.at
  rw [List.getD_eq_getElem?_getD, List.getElem?_mapIdx]
  by_cases hi : i < v.length
  · rw [List.getElem?_eq_getElem hi]
    simp [List.getD_eq_getElem?_getD, hi]
  · rw [List.getElem?_eq_none (by omega)]
    simp [List.getD_eq_getElem?_getD, hi]

theorem maskKids_ofCols (h : Reach calls s) {c : CNode} (hc : c ∈ s.minConds) {vs : List Vec}
    (hl : ∀ v ∈ vs, v.length = s.len) :
    maskKids s (ofCols s.len vs) c (c.cond.satArr s.idx vs.length (ofCols s.len vs)) =
      ofCols s.len (vs.map (fun v => maskOne s v c)) := by
  rw [satArr_ofCols h (cond_known h hc) hl]
  unfold maskKids
  apply List.ext_getElem (by simp [ofCols])
  intro i h1 h2
  simp only [ofCols, List.getElem_mapIdx, List.getElem_map, List.getElem_range, List.map_map]
  by_cases hi : i ∈ c.kids.map s.idx
  · rw [if_pos hi, zipWith_map_same]
    refine List.map_congr_left ?_
    intro v _
    simp only [Function.comp_apply, maskOne_at_idx, if_pos hi]
  · rw [if_neg hi]
    refine List.map_congr_left ?_
    intro v _
    simp only [Function.comp_apply, maskOne_at_idx, if_neg hi]

/-- All condition nodes of the sampler, on one column. -/
def maskCol (s : Space) (v : Vec) : Vec := s.minConds.foldl (maskOne s) v

theorem maskFold_ofCols (h : Reach calls s) : ∀ (cs : List CNode) (vs : List Vec), (∀ c ∈ cs, c ∈ s.minConds) →
    (∀ v ∈ vs, v.length = s.len) →
    cs.foldl (fun m c => maskKids s m c (c.cond.satArr s.idx vs.length m)) (ofCols s.len vs) =
      ofCols s.len (vs.map (fun v => cs.foldl (maskOne s) v)) := by
  intro cs
  induction cs with
  | nil => intro vs _ _; simp
  | cons c cs ih =>
    intro vs hc hl
    rw [List.foldl_cons, maskKids_ofCols h (hc c (by simp)) hl]
    have := ih (vs.map (fun v => maskOne s v c)) (fun d hd => hc d (by simp [hd])) (by
      intro v hv
      obtain ⟨u, hu, rfl⟩ := List.mem_map.1 hv
      rw [maskOne_length, hl u hu])
    rw [List.length_map] at this
    rw [this, List.map_map]
    rfl

theorem maskFold_length : ∀ (cs : List CNode) (v : Vec), (cs.foldl (maskOne s) v).length = v.length := by
  intro cs
  induction cs with
  | nil => intro v; rfl
  | cons c cs ih => intro v; rw [List.foldl_cons, ih, maskOne_length]

theorem maskCol_length {v : Vec} : (maskCol s v).length = v.length := maskFold_length _ _

/-- **The sampler works column by column.** -/
theorem sampleBatch_eq (h : Reach calls s) {w : Nat} {m : Mat} (hr : Rect m w) (hm : m.length = s.len) :
    s.sampleBatch w m =
      (((m.cols w).filter (fun v => !(s.dag.uncond.any (fun f => f.onVec s.idx v)))).map (maskCol s)).filter
        (fun v => !(s.dag.condF.any (fun f => f.onVec s.idx v))) := by
  have hi := sinv_of_reach h
  have hmem : ∀ f, f ∈ s.dag.uncond ++ s.dag.condF → f ∈ allForbs calls := fun f hf => hi.hist.forbs.mem_iff.1 hf
  have hlen := cols_length_mem (m := m) (w := w)
  rw [hm] at hlen
  have hw : (m.cols w).length = w := by simp [Mat.cols]
  have hmm : m = ofCols s.len (m.cols w) := by rw [← hm, ofCols_cols hr]
  unfold Space.sampleBatch
  simp only
  generalize m.cols w = vs at hlen hw hmm
  subst hw
  subst hmm
  rw [forbMask_ofCols h hlen (fun f hf => hmem f (by simp [hf])), List.map_map]
  simp only [Function.comp_def]
  rw [keepCols_ofCols, numTrue_map (fun x => !(s.dag.uncond.any (fun f => f.onVec s.idx x)))]
  have hl1 : ∀ v ∈ vs.filter (fun v => !(s.dag.uncond.any (fun f => f.onVec s.idx v))), v.length = s.len :=
    fun v hv => hlen v (List.mem_filter.1 hv).1
  generalize vs.filter (fun v => !(s.dag.uncond.any (fun f => f.onVec s.idx v))) = us at hl1
  rw [maskFold_ofCols h s.minConds us (fun c hc => hc) hl1]
  have hl2 : ∀ v ∈ us.map (maskCol s), v.length = s.len := by
    intro v hv
    obtain ⟨u, hu, rfl⟩ := List.mem_map.1 hv
    rw [maskCol_length, hl1 u hu]
  change Mat.cols _ (Mat.keepCols (ofCols s.len (us.map (maskCol s))) _) = _
  have h3 : forbMask s us.length (ofCols s.len (us.map fun v => s.minConds.foldl (maskOne s) v)) s.dag.condF =
      (us.map (maskCol s)).map (fun v => s.dag.condF.any (fun f => f.onVec s.idx v)) := by
    have := forbMask_ofCols h hl2 (fs := s.dag.condF) (fun f hf => hmem f (by simp [hf]))
    rw [List.length_map] at this
    exact this
  rw [h3, List.map_map]
  simp only [Function.comp_def]
  rw [keepCols_ofCols (fun v => !(s.dag.condF.any (fun f => f.onVec s.idx v))),
    numTrue_map (fun v => !(s.dag.condF.any (fun f => f.onVec s.idx v))), cols_ofCols]
  intro v hv
  exact hl2 v (List.mem_filter.1 hv).1

/-! ## Masking one column -/

theorem maskOne_at (h : Reach calls s) {v : Vec} {c : CNode} (hk : ∀ n ∈ c.kids, n ∈ s.names) {m : Name}
    (hm : m ∈ s.names) : (maskOne s v c).at (s.idx m) =
      if m ∈ c.kids then if c.cond.satVec s.idx v then v.at (s.idx m) else none else v.at (s.idx m) := by
  have hiff : s.idx m ∈ c.kids.map s.idx ↔ m ∈ c.kids := by
    rw [List.mem_map]
    constructor
    · rintro ⟨k, hk', e⟩
      rw [← idx_inj h (hk k hk') hm e]
      exact hk'
    · exact fun h => ⟨m, h, rfl⟩
  rw [maskOne_at_idx]
  simp only [hiff]

theorem maskFold_other (h : Reach calls s) {m : Name} (hm : m ∈ s.names) : ∀ (cs : List CNode) (v : Vec),
    (∀ c ∈ cs, c ∈ s.minConds) → (∀ c ∈ cs, m ∉ c.kids) →
    (cs.foldl (maskOne s) v).at (s.idx m) = v.at (s.idx m) := by
  intro cs
  induction cs with
  | nil => intro v _ _; rfl
  | cons c cs ih =>
    intro v hc hn
    rw [List.foldl_cons, ih _ (fun d hd => hc d (by simp [hd])) (fun d hd => hn d (by simp [hd])),
      maskOne_at h (kids_known h (hc c (by simp))) hm, if_neg (hn c (by simp))]

/-- Entries are kept or removed. -/
theorem maskFold_values (h : Reach calls s) {m : Name} (hm : m ∈ s.names) : ∀ (cs : List CNode) (v : Vec),
    (∀ c ∈ cs, c ∈ s.minConds) →
    (cs.foldl (maskOne s) v).at (s.idx m) = none ∨ (cs.foldl (maskOne s) v).at (s.idx m) = v.at (s.idx m) := by
  intro cs
  induction cs with
  | nil => intro v _; exact .inr rfl
  | cons c cs ih =>
    intro v hc
    rw [List.foldl_cons]
    rcases ih (maskOne s v c) (fun d hd => hc d (by simp [hd])) with k | k
    · exact .inl k
    · rw [k, maskOne_at h (kids_known h (hc c (by simp))) hm]
      by_cases h1 : m ∈ c.kids
      · rw [if_pos h1]
        by_cases h2 : c.cond.satVec s.idx v = true
        · rw [if_pos h2]; exact .inr rfl
        · rw [if_neg h2]; exact .inl rfl
      · rw [if_neg h1]; exact .inr rfl

/-- In a topological order, the members of each group are kept exactly if the condition holds in the end. -/
theorem maskFold_groups (h : Reach calls s) (ht : Topo s.minConds) : ∀ (cs pre : List CNode) (v : Vec),
    s.minConds = pre ++ cs → ∀ c ∈ cs, ∀ m ∈ c.kids,
    (cs.foldl (maskOne s) v).at (s.idx m) =
      if c.cond.satVec s.idx (cs.foldl (maskOne s) v) then v.at (s.idx m) else none := by
  intro cs
  induction cs with
  | nil => intro pre v _ c hc; cases hc
  | cons x cs ih =>
    intro pre v hs c hc m hm
    rw [List.foldl_cons]
    have hmem : ∀ d ∈ x :: cs, d ∈ s.minConds := fun d hd => by rw [hs]; exact List.mem_append.2 (.inr hd)
    have hposx : s.minConds[pre.length]? = some x := by rw [hs]; simp
    have hcm := hmem c hc
    have hmn := kids_known h hcm m hm
    rcases List.mem_cons.1 hc with rfl | hcs
    · have hnot : ∀ d ∈ cs, m ∉ d.kids := by
        intro d hd hmd
        obtain ⟨k, hk⟩ := List.getElem?_of_mem hd
        have hpos : s.minConds[pre.length + 1 + k]? = some d := by
          rw [hs, List.getElem?_append_right (by omega)]
          simpa [show pre.length + 1 + k - pre.length = k + 1 by omega] using hk
        have := kid_unique h ⟨c, hposx, hm⟩ ⟨d, hpos, hmd⟩
        omega
      have hsat : c.cond.satVec s.idx (cs.foldl (maskOne s) (maskOne s v c)) = c.cond.satVec s.idx v := by
        refine satVec_congr ?_
        intro p hp
        rw [maskFold_other h (parents_known h hcm p hp) cs _ (fun d hd => hmem d (by simp [hd])),
          maskOne_at h (kids_known h hcm) (parents_known h hcm p hp), if_neg]
        · intro hk
          exact (reach_ninv h).toDInv.acyclic p (.edge (group_edge h ⟨c, hposx, hp⟩ ⟨c, hposx, hk⟩))
        · intro d hd hpd
          obtain ⟨k, hk⟩ := List.getElem?_of_mem hd
          have hpos : s.minConds[pre.length + 1 + k]? = some d := by
            rw [hs, List.getElem?_append_right (by omega)]
            simpa [show pre.length + 1 + k - pre.length = k + 1 by omega] using hk
          have := ht _ _ ⟨p, ⟨d, hpos, hpd⟩, ⟨c, hposx, hp⟩⟩
          omega
      rw [maskFold_other h hmn cs _ (fun d hd => hmem d (by simp [hd])) hnot, hsat,
        maskOne_at h (kids_known h hcm) hmn, if_pos hm]
    · rw [ih (pre ++ [x]) (maskOne s v x) (by simp [hs]) c hcs m hm]
      have hnot : m ∉ x.kids := by
        intro hmx
        obtain ⟨k, hk⟩ := List.getElem?_of_mem hcs
        have hpos : s.minConds[pre.length + 1 + k]? = some c := by
          rw [hs, List.getElem?_append_right (by omega)]
          simpa [show pre.length + 1 + k - pre.length = k + 1 by omega] using hk
        have := kid_unique h ⟨x, hposx, hmx⟩ ⟨c, hpos, hm⟩
        omega
      rw [maskOne_at h (kids_known h (hmem x (by simp))) hmn, if_neg hnot]

/-! ## The loop -/

theorem sampleLoop_ok {rng : Nat → Nat → Mat} {size : Nat} {P : Vec → Prop}
    (hP : ∀ b w, ∀ v ∈ s.sampleBatch w (rng b w), P v) : ∀ (fuel b need : Nat) (acc r : List Vec),
    (∀ v ∈ acc, P v) → s.sampleLoop rng size fuel b need acc = some r → (∀ v ∈ r, P v) ∧ size ≤ r.length := by
  intro fuel
  induction fuel with
  | zero =>
    intro b need acc r ha he
    unfold Space.sampleLoop at he
    split at he
    · cases he; exact ⟨ha, by assumption⟩
    · cases he
  | succ k ih =>
    intro b need acc r ha he
    unfold Space.sampleLoop at he
    split at he
    · cases he; exact ⟨ha, by assumption⟩
    · refine ih _ _ _ _ ?_ he
      intro v hv
      rcases List.mem_append.1 hv with hv | hv
      · exact ha v hv
      · exact hP _ _ v hv

end Verif
