import Verif.Lemmas.AnyNum

/-!
# Any arithmetic: sampling, column by column
-/

set_option autoImplicit false
set_option linter.unusedSectionVars false

namespace Verif.AnyNum
open Verif Verif.Spec.Any
open Verif.Spec (Known Conditional childName At clauseHps clauseHpsL OwnClauses Tight WeaklyLayered)

variable {α β : Type} [DecidableEq α] {A : Arith α β}

variable {calls : List Call} {s : Space}

/-- Column `j` of a matrix. -/
def column (m : AMat α) (j : Nat) : AVec α := m.map (fun row => row.getD j none)

/-- All rows have `w` entries. -/
def Rect (m : AMat α) (w : Nat) : Prop := ∀ row ∈ m, row.length = w

/-- A row of a rectangular matrix, entry by entry. -/
theorem row_eq {m : AMat α} {w i : Nat} (hr : Rect m w) (hi : i < m.length) :
    (m.getD i []) = (List.range w).map (fun j => (column m j).at i) := by
  have hrow : (m.getD i []) = m[i] := by simp [hi]
  have hlen : ((m.getD i [])).length = w := by rw [hrow]; exact hr _ (List.getElem_mem hi)
  apply List.ext_getElem
  · rw [hlen]; simp
  · intro j h1 h2
    have hj : j < w := by simpa using h2
    have hj' : j < (m[i]).length := by rw [← hrow, hlen]; exact hj
    simp [AVec.at, column, hi, hj']

mutual
theorem satArr_col {idx : Name → Nat} {m : AMat α} {w : Nat} (hr : Rect m w) : ∀ (c : Cond),
    (∀ p ∈ c.parents, idx p < m.length) →
    satArr A idx w m c = (List.range w).map (fun j => satVec A idx (column m j) c)
  | .lit l, h => by
    have hl : idx l.parent.name < m.length := h _ (by simp [Cond.parents, Cond.dlcs])
    simp only [satArr, satVec]
    rw [row_eq hr hl, List.map_map]
    rfl
  | .and cs, h => by
    simp only [satArr, satVec]
    have h0 : List.replicate w true = (List.range w).map (fun _ => true) := by
      simp [List.map_const']
    rw [h0, satArrAll_col hr cs (fun _ => true)
      (fun c hc p hp => h p (by
        simp only [Cond.parents, Cond.dlcs, List.mem_map] at hp ⊢
        obtain ⟨l, hl, e⟩ := hp
        exact ⟨l, dlcs_sub hc hl, e⟩))]
    simp
  | .or cs, h => by
    simp only [satArr, satVec]
    have h0 : List.replicate w false = (List.range w).map (fun _ => false) := by
      simp [List.map_const']
    rw [h0, satArrAny_col hr cs (fun _ => false)
      (fun c hc p hp => h p (by
        simp only [Cond.parents, Cond.dlcs, List.mem_map] at hp ⊢
        obtain ⟨l, hl, e⟩ := hp
        exact ⟨l, dlcs_sub hc hl, e⟩))]
    simp
theorem satArrAll_col {idx : Name → Nat} {m : AMat α} {w : Nat} (hr : Rect m w) : ∀ (cs : List Cond)
    (a : Nat → Bool), (∀ c ∈ cs, ∀ p ∈ c.parents, idx p < m.length) →
    satArrAll A idx w m ((List.range w).map a) cs
      = (List.range w).map (fun j => a j && satVecAll A idx (column m j) cs)
  | [], a, _ => by simp [satArrAll, satVecAll]
  | c :: cs, a, h => by
    simp only [satArrAll, satVecAll]
    rw [satArr_col hr c (h c (by simp)), zipWith_map_same,
      satArrAll_col hr cs _ (fun d hd => h d (by simp [hd]))]
    simp [Bool.and_assoc]
theorem satArrAny_col {idx : Name → Nat} {m : AMat α} {w : Nat} (hr : Rect m w) : ∀ (cs : List Cond)
    (a : Nat → Bool), (∀ c ∈ cs, ∀ p ∈ c.parents, idx p < m.length) →
    satArrAny A idx w m ((List.range w).map a) cs
      = (List.range w).map (fun j => a j || satVecAny A idx (column m j) cs)
  | [], a, _ => by simp [satArrAny, satVecAny]
  | c :: cs, a, h => by
    simp only [satArrAny, satVecAny]
    rw [satArr_col hr c (h c (by simp)), zipWith_map_same,
      satArrAny_col hr cs _ (fun d hd => h d (by simp [hd]))]
    simp [Bool.or_assoc]
end

mutual
theorem onArr_col {idx : Name → Nat} {m : AMat α} {w : Nat} (hr : Rect m w) : ∀ (f : Forb),
    (∀ p ∈ f.names, idx p < m.length) →
    onArr A idx w m f = (List.range w).map (fun j => onVec A idx (column m j) f)
  | .eq h v x, hn => by
    have hl : idx h.name < m.length := hn _ (by simp [Forb.names])
    simp only [onArr, onVec]
    rw [row_eq hr hl, List.map_map]
    rfl
  | .isIn h vs xs, hn => by
    have hl : idx h.name < m.length := hn _ (by simp [Forb.names])
    simp only [onArr, onVec]
    rw [row_eq hr hl, List.map_map]
    rfl
  | .rel op l r, hn => by
    have h1 : idx l.name < m.length := hn _ (by simp [Forb.names])
    have h2 : idx r.name < m.length := hn _ (by simp [Forb.names])
    simp only [onArr, onVec]
    rw [row_eq hr h1, row_eq hr h2, zipWith_map_same]
  | .and cs, hn => by
    simp only [onArr, onVec]
    have h0 : List.replicate w true = (List.range w).map (fun _ => true) := by
      simp [List.map_const']
    rw [h0, onArrAll_col hr cs (fun _ => true) (by simpa [Forb.names] using hn)]
    simp
theorem onArrAll_col {idx : Name → Nat} {m : AMat α} {w : Nat} (hr : Rect m w) : ∀ (cs : List Forb)
    (a : Nat → Bool), (∀ p ∈ Forb.namesL cs, idx p < m.length) →
    onArrAll A idx w m ((List.range w).map a) cs
      = (List.range w).map (fun j => a j && onVecAll A idx (column m j) cs)
  | [], a, _ => by simp [onArrAll, onVecAll]
  | c :: cs, a, h => by
    simp only [onArrAll, onVecAll]
    rw [onArr_col hr c (fun p hp => h p (by simp [Forb.namesL, hp])), zipWith_map_same,
      onArrAll_col hr cs _ (fun p hp => h p (by simp [Forb.namesL, hp]))]
    simp [Bool.and_assoc]
end
theorem satVec_congr {c : Cond} {v w : AVec α} (h : ∀ p ∈ c.parents, v.at (s.idx p) = w.at (s.idx p)) :
    satVec A s.idx v c = satVec A s.idx w c := by
  have : satVec A s.idx v c = true ↔ satVec A s.idx w c = true := by
    rw [satVec_iff, satVec_iff]
    exact holds_congr c (fun p hp => h p hp)
  cases h1 : satVec A s.idx v c <;> cases h2 : satVec A s.idx w c <;> simp_all
theorem activity_iff (h : Reach calls s) (hsep : Separable A calls) {v : AVec α} {a : Entries α} (hv : Represents s v a) :
    ActivityOk A calls a ↔ ∀ (i : Nat) (c : CNode), s.minConds[i]? = some c → ∀ m ∈ c.kids,
      (v.at (s.idx m)).isSome = satVec A s.idx v c.cond := by
  have hi := sinv_of_reach h
  have hg := groupsOk_sorted s.com
  rw [← hi.mins] at hg
  have hmean : ∀ g ∈ s.minConds, ∀ c ∈ allConds calls,
      (g.cond = c ∨ g.cond.equivOnParent c = true) → (satVec A s.idx v g.cond = true ↔ Holds A a c) := by
    intro g hgm c hc he
    rw [holds_represents h hv (cond_known h hgm)]
    rcases he with rfl | he
    · rfl
    · exact hsep _ (cond_known h hgm) _ hc he a
  constructor
  · intro hact i g hgi m hm
    have hgm := List.mem_of_getElem? hgi
    obtain ⟨x, hx, rfl, c, hc, he⟩ := hg.members g hgm m hm
    obtain ⟨m1, m2, _⟩ := node_cond h hx hc
    have k1 := hact c m1 _ m2
    rw [← hmean g hgm c m1 he, ← at_idx hv (mem_names hx), ← Option.isSome_iff_exists] at k1
    exact Bool.eq_iff_iff.2 k1
  · intro hall d hd n hn
    obtain ⟨x, hx, rfl, c, hc⟩ := node_of_child h hd hn
    obtain ⟨m1, m2, m3⟩ := node_cond h hx hc
    obtain ⟨g, hgm, hk, he⟩ := hg.covers x hx c hc
    obtain ⟨i, hgi⟩ := List.getElem?_of_mem hgm
    have k1 := hall i g hgi _ hk
    rw [← holds_pyEq hsep m1 hd (m3 d hd hn) a, ← hmean g hgm c m1 he,
      ← at_idx hv (mem_names hx), ← k1, Option.isSome_iff_exists]

/-- The matrix with `n` rows and the given columns. -/
def ofCols (n : Nat) (vs : List (AVec α)) : AMat α := (List.range n).map (fun i => vs.map (fun v => v.at i))

theorem ofCols_length {n : Nat} {vs : List (AVec α)} : (ofCols n vs).length = n := by simp [ofCols]

theorem ofCols_rect {n : Nat} {vs : List (AVec α)} : Rect (ofCols n vs) vs.length := by
  intro row hr
  simp only [ofCols, List.mem_map] at hr
  obtain ⟨i, _, rfl⟩ := hr
  simp

theorem cols_eq (w : Nat) (m : AMat α) : (cols w m) = (List.range w).map (fun j => column m j) := rfl

theorem vec_ext {v w : AVec α} {n : Nat} (hv : v.length = n) (hw : w.length = n) (h : ∀ i < n, v.at i = w.at i) :
    v = w := by
  apply List.ext_getElem (by rw [hv, hw])
  intro i h1 h2
  have := h i (by omega)
  simpa [AVec.at, h1, h2] using this

theorem column_ofCols {n : Nat} {vs : List (AVec α)} (hl : ∀ v ∈ vs, v.length = n) {j : Nat} (hj : j < vs.length) :
    column (ofCols n vs) j = vs[j] := by
  refine vec_ext (n := n) (by simp [column, ofCols]) (hl _ (List.getElem_mem hj)) ?_
  intro i hi
  simp [column, ofCols, AVec.at, hi, hj]

theorem cols_ofCols {n : Nat} {vs : List (AVec α)} (hl : ∀ v ∈ vs, v.length = n) : cols vs.length (ofCols n vs) = vs := by
  rw [cols_eq]
  apply List.ext_getElem (by simp)
  intro j h1 h2
  simp only [List.getElem_map, List.getElem_range]
  exact column_ofCols hl h2

theorem ofCols_cols {m : AMat α} {w : Nat} (hr : Rect m w) : ofCols m.length ((cols w m)) = m := by
  apply List.ext_getElem (by simp [ofCols])
  intro i h1 h2
  have := row_eq hr h2
  simp only [List.getD_eq_getElem?_getD, List.getElem?_eq_getElem h2, Option.getD_some] at this
  rw [this]
  simp [ofCols, cols_eq, Function.comp_def]

theorem cols_length_mem {m : AMat α} {w : Nat} : ∀ v ∈ (cols w m), v.length = m.length := by
  intro v hv
  simp only [cols, List.mem_map] at hv
  obtain ⟨j, _, rfl⟩ := hv
  simp

theorem keepRow_map {γ : Type} (f : γ → Option α) (p : γ → Bool) (vs : List γ) :
    keepRow (vs.map p) (vs.map f) = (vs.filter p).map f := by
  unfold keepRow
  induction vs with
  | nil => rfl
  | cons v vs ih =>
    cases hp : p v <;> simp [hp] <;> simpa using ih

theorem keepCols_ofCols {n : Nat} {vs : List (AVec α)} (p : AVec α → Bool) :
    (ofCols n vs).map (keepRow (vs.map p)) = ofCols n (vs.filter p) := by
  unfold ofCols
  rw [List.map_map]
  refine List.map_congr_left ?_
  intro i _
  exact keepRow_map _ p vs

theorem satArr_ofCols (h : Reach calls s) {c : Cond} (hc : c ∈ allConds calls) {vs : List (AVec α)}
    (hl : ∀ v ∈ vs, v.length = s.len) :
    satArr A s.idx vs.length (ofCols s.len vs) c = vs.map (fun v => satVec A s.idx v c) := by
  rw [satArr_col ofCols_rect c]
  · apply List.ext_getElem (by simp)
    intro j h1 h2
    simp only [List.getElem_map, List.getElem_range]
    rw [column_ofCols hl (by simpa using h1)]
  · intro p hp
    rw [ofCols_length]
    exact idx_lt h (cond_parents_known h hc hp)

theorem onArr_ofCols (h : Reach calls s) {f : Forb} (hf : f ∈ allForbs calls) {vs : List (AVec α)}
    (hl : ∀ v ∈ vs, v.length = s.len) :
    onArr A s.idx vs.length (ofCols s.len vs) f = vs.map (fun v => onVec A s.idx v f) := by
  rw [onArr_col ofCols_rect f]
  · apply List.ext_getElem (by simp)
    intro j h1 h2
    simp only [List.getElem_map, List.getElem_range]
    rw [column_ofCols hl (by simpa using h1)]
  · intro p hp
    rw [ofCols_length]
    have hi := sinv_of_reach h
    have := hi.hist.forbNames f hf p hp
    rw [hi.com] at this
    exact idx_lt h this

theorem forbMask_ofCols (h : Reach calls s) {vs : List (AVec α)} (hl : ∀ v ∈ vs, v.length = s.len) {fs : List Forb}
    (hf : ∀ f ∈ fs, f ∈ allForbs calls) :
    forbMask A s vs.length (ofCols s.len vs) fs = vs.map (fun v => fs.any (fun f => onVec A s.idx v f)) := by
  unfold forbMask
  have key : ∀ (fs : List Forb) (p : AVec α → Bool), (∀ f ∈ fs, f ∈ allForbs calls) →
      fs.foldl (fun acc f => List.zipWith (· || ·) acc (onArr A s.idx vs.length (ofCols s.len vs) f)) (vs.map p) =
        vs.map (fun v => p v || fs.any (fun f => onVec A s.idx v f)) := by
    intro fs
    induction fs with
    | nil => intro p _; simp
    | cons f fs ih =>
      intro p hfs
      rw [List.foldl_cons, onArr_ofCols h (hfs f (by simp)) hl, zipWith_map_same,
        ih (fun v => p v || onVec A s.idx v f) (fun g hg => hfs g (by simp [hg]))]
      simp [Bool.or_assoc]
  have := key fs (fun _ => false) hf
  simpa [List.map_const'] using this

/-- One condition node of the sampler, on one column. -/
def maskOne (A : Arith α β) (s : Space) (v : AVec α) (c : CNode) : AVec α :=
  v.mapIdx (fun i e => if i ∈ c.kids.map s.idx then if satVec A s.idx v c.cond then e else none else e)

theorem maskOne_length {v : AVec α} {c : CNode} : (maskOne A s v c).length = v.length := by simp [maskOne]

theorem maskOne_at_idx {v : AVec α} {c : CNode} {i : Nat} :
    (maskOne A s v c).at i = if i ∈ c.kids.map s.idx then if satVec A s.idx v c.cond then v.at i else none else v.at i := by
  unfold maskOne AVec.at
  rw [List.getD_eq_getElem?_getD, List.getElem?_mapIdx]
  by_cases hi : i < v.length
  · rw [List.getElem?_eq_getElem hi]
    simp [List.getD_eq_getElem?_getD, hi]
  · rw [List.getElem?_eq_none (by omega)]
    simp [List.getD_eq_getElem?_getD, hi]

theorem maskKids_ofCols (h : Reach calls s) {c : CNode} (hc : c ∈ s.minConds) {vs : List (AVec α)}
    (hl : ∀ v ∈ vs, v.length = s.len) :
    maskKids s (ofCols s.len vs) c (satArr A s.idx vs.length (ofCols s.len vs) c.cond) =
      ofCols s.len (vs.map (fun v => maskOne A s v c)) := by
  rw [satArr_ofCols h (cond_known h hc) hl]
  unfold maskKids
  apply List.ext_getElem (by simp [ofCols])
  intro i h1 h2
  simp only [ofCols, List.getElem_mapIdx, List.getElem_map, List.getElem_range, List.map_map]
  by_cases hi : i ∈ c.kids.map s.idx
  · rw [if_pos hi, zipWith_map_same]
    refine List.map_congr_left ?_
    intro v _
    simp only [Function.comp_apply, maskOne_at_idx, if_pos hi]
  · rw [if_neg hi]
    refine List.map_congr_left ?_
    intro v _
    simp only [Function.comp_apply, maskOne_at_idx, if_neg hi]

/-- All condition nodes of the sampler, on one column. -/
def maskCol (A : Arith α β) (s : Space) (v : AVec α) : AVec α := s.minConds.foldl (maskOne A s) v

theorem maskFold_ofCols (h : Reach calls s) : ∀ (cs : List CNode) (vs : List (AVec α)), (∀ c ∈ cs, c ∈ s.minConds) →
    (∀ v ∈ vs, v.length = s.len) →
    cs.foldl (fun m c => maskKids s m c (satArr A s.idx vs.length m c.cond)) (ofCols s.len vs) =
      ofCols s.len (vs.map (fun v => cs.foldl (maskOne A s) v)) := by
  intro cs
  induction cs with
  | nil => intro vs _ _; simp
  | cons c cs ih =>
    intro vs hc hl
    rw [List.foldl_cons, maskKids_ofCols h (hc c (by simp)) hl]
    have := ih (vs.map (fun v => maskOne A s v c)) (fun d hd => hc d (by simp [hd])) (by
      intro v hv
      obtain ⟨u, hu, rfl⟩ := List.mem_map.1 hv
      rw [maskOne_length, hl u hu])
    rw [List.length_map] at this
    rw [this, List.map_map]
    rfl

theorem maskFold_length : ∀ (cs : List CNode) (v : AVec α), (cs.foldl (maskOne A s) v).length = v.length := by
  intro cs
  induction cs with
  | nil => intro v; rfl
  | cons c cs ih => intro v; rw [List.foldl_cons, ih, maskOne_length]

theorem maskCol_length {v : AVec α} : (maskCol A s v).length = v.length := maskFold_length _ _

/-- **The sampler works column by column.** -/
theorem sampleBatch_eq (h : Reach calls s) {w : Nat} {m : AMat α} (hr : Rect m w) (hm : m.length = s.len) :
    sampleBatch A s w m =
      ((((cols w m)).filter (fun v => !(s.dag.uncond.any (fun f => onVec A s.idx v f)))).map (maskCol A s)).filter
        (fun v => !(s.dag.condF.any (fun f => onVec A s.idx v f))) := by
  have hi := sinv_of_reach h
  have hmem : ∀ f, f ∈ s.dag.uncond ++ s.dag.condF → f ∈ allForbs calls := fun f hf => hi.hist.forbs.mem_iff.1 hf
  have hlen := cols_length_mem (m := m) (w := w)
  rw [hm] at hlen
  have hw : ((cols w m)).length = w := by simp [cols]
  have hmm : m = ofCols s.len ((cols w m)) := by rw [← hm, ofCols_cols hr]
  unfold sampleBatch
  simp only
  generalize (cols w m) = vs at hlen hw hmm
  subst hw
  subst hmm
  rw [forbMask_ofCols h hlen (fun f hf => hmem f (by simp [hf])), List.map_map]
  simp only [Function.comp_def]
  rw [keepCols_ofCols, numTrue_map (fun x => !(s.dag.uncond.any (fun f => onVec A s.idx x f)))]
  have hl1 : ∀ v ∈ vs.filter (fun v => !(s.dag.uncond.any (fun f => onVec A s.idx v f))), v.length = s.len :=
    fun v hv => hlen v (List.mem_filter.1 hv).1
  generalize vs.filter (fun v => !(s.dag.uncond.any (fun f => onVec A s.idx v f))) = us at hl1
  rw [maskFold_ofCols h s.minConds us (fun c hc => hc) hl1]
  have hl2 : ∀ v ∈ us.map (maskCol A s), v.length = s.len := by
    intro v hv
    obtain ⟨u, hu, rfl⟩ := List.mem_map.1 hv
    rw [maskCol_length, hl1 u hu]
  change cols _ ((ofCols s.len (us.map (maskCol A s))).map (keepRow _)) = _
  have h3 : forbMask A s us.length (ofCols s.len (us.map fun v => s.minConds.foldl (maskOne A s) v)) s.dag.condF =
      (us.map (maskCol A s)).map (fun v => s.dag.condF.any (fun f => onVec A s.idx v f)) := by
    have := forbMask_ofCols (A := A) h hl2 (fs := s.dag.condF) (fun f hf => hmem f (by simp [hf]))
    rw [List.length_map] at this
    exact this
  rw [h3, List.map_map]
  simp only [Function.comp_def]
  rw [keepCols_ofCols (fun v => !(s.dag.condF.any (fun f => onVec A s.idx v f))),
    numTrue_map (fun v => !(s.dag.condF.any (fun f => onVec A s.idx v f))), cols_ofCols]
  intro v hv
  exact hl2 v (List.mem_filter.1 hv).1

/-! ## Masking one column -/

theorem maskOne_at (h : Reach calls s) {v : AVec α} {c : CNode} (hk : ∀ n ∈ c.kids, n ∈ s.names) {m : Name}
    (hm : m ∈ s.names) : (maskOne A s v c).at (s.idx m) =
      if m ∈ c.kids then if satVec A s.idx v c.cond then v.at (s.idx m) else none else v.at (s.idx m) := by
  have hiff : s.idx m ∈ c.kids.map s.idx ↔ m ∈ c.kids := by
    rw [List.mem_map]
    constructor
    · rintro ⟨k, hk', e⟩
      rw [← idx_inj h (hk k hk') hm e]
      exact hk'
    · exact fun h => ⟨m, h, rfl⟩
  rw [maskOne_at_idx]
  simp only [hiff]

theorem maskFold_other (h : Reach calls s) {m : Name} (hm : m ∈ s.names) : ∀ (cs : List CNode) (v : AVec α),
    (∀ c ∈ cs, c ∈ s.minConds) → (∀ c ∈ cs, m ∉ c.kids) →
    (cs.foldl (maskOne A s) v).at (s.idx m) = v.at (s.idx m) := by
  intro cs
  induction cs with
  | nil => intro v _ _; rfl
  | cons c cs ih =>
    intro v hc hn
    rw [List.foldl_cons, ih _ (fun d hd => hc d (by simp [hd])) (fun d hd => hn d (by simp [hd])),
      maskOne_at h (kids_known h (hc c (by simp))) hm, if_neg (hn c (by simp))]

/-- Entries are kept or removed. -/
theorem maskFold_values (h : Reach calls s) {m : Name} (hm : m ∈ s.names) : ∀ (cs : List CNode) (v : AVec α),
    (∀ c ∈ cs, c ∈ s.minConds) →
    (cs.foldl (maskOne A s) v).at (s.idx m) = none ∨ (cs.foldl (maskOne A s) v).at (s.idx m) = v.at (s.idx m) := by
  intro cs
  induction cs with
  | nil => intro v _; exact .inr rfl
  | cons c cs ih =>
    intro v hc
    rw [List.foldl_cons]
    rcases ih (maskOne A s v c) (fun d hd => hc d (by simp [hd])) with k | k
    · exact .inl k
    · rw [k, maskOne_at h (kids_known h (hc c (by simp))) hm]
      by_cases h1 : m ∈ c.kids
      · rw [if_pos h1]
        by_cases h2 : satVec A s.idx v c.cond = true
        · rw [if_pos h2]; exact .inr rfl
        · rw [if_neg h2]; exact .inl rfl
      · rw [if_neg h1]; exact .inr rfl

/-- In a topological order, the members of each group are kept exactly if the condition holds in the end. -/
theorem maskFold_groups (h : Reach calls s) (ht : Topo s.minConds) : ∀ (cs pre : List CNode) (v : AVec α),
    s.minConds = pre ++ cs → ∀ c ∈ cs, ∀ m ∈ c.kids,
    (cs.foldl (maskOne A s) v).at (s.idx m) =
      if satVec A s.idx (cs.foldl (maskOne A s) v) c.cond then v.at (s.idx m) else none := by
  intro cs
  induction cs with
  | nil => intro pre v _ c hc; cases hc
  | cons x cs ih =>
    intro pre v hs c hc m hm
    rw [List.foldl_cons]
    have hmem : ∀ d ∈ x :: cs, d ∈ s.minConds := fun d hd => by rw [hs]; exact List.mem_append.2 (.inr hd)
    have hposx : s.minConds[pre.length]? = some x := by rw [hs]; simp
    have hcm := hmem c hc
    have hmn := kids_known h hcm m hm
    rcases List.mem_cons.1 hc with rfl | hcs
    · have hnot : ∀ d ∈ cs, m ∉ d.kids := by
        intro d hd hmd
        obtain ⟨k, hk⟩ := List.getElem?_of_mem hd
        have hpos : s.minConds[pre.length + 1 + k]? = some d := by
          rw [hs, List.getElem?_append_right (by omega)]
          simpa [show pre.length + 1 + k - pre.length = k + 1 by omega] using hk
        have := kid_unique h ⟨c, hposx, hm⟩ ⟨d, hpos, hmd⟩
        omega
      have hsat : satVec A s.idx (cs.foldl (maskOne A s) (maskOne A s v c)) c.cond = satVec A s.idx v c.cond := by
        refine satVec_congr ?_
        intro p hp
        rw [maskFold_other h (parents_known h hcm p hp) cs _ (fun d hd => hmem d (by simp [hd])),
          maskOne_at h (kids_known h hcm) (parents_known h hcm p hp), if_neg]
        · intro hk
          exact (reach_ninv h).toDInv.acyclic p (.edge (group_edge h ⟨c, hposx, hp⟩ ⟨c, hposx, hk⟩))
        · intro d hd hpd
          obtain ⟨k, hk⟩ := List.getElem?_of_mem hd
          have hpos : s.minConds[pre.length + 1 + k]? = some d := by
            rw [hs, List.getElem?_append_right (by omega)]
            simpa [show pre.length + 1 + k - pre.length = k + 1 by omega] using hk
          have := ht _ _ ⟨p, ⟨d, hpos, hpd⟩, ⟨c, hposx, hp⟩⟩
          omega
      rw [maskFold_other h hmn cs _ (fun d hd => hmem d (by simp [hd])) hnot, hsat,
        maskOne_at h (kids_known h hcm) hmn, if_pos hm]
    · rw [ih (pre ++ [x]) (maskOne A s v x) (by simp [hs]) c hcs m hm]
      have hnot : m ∉ x.kids := by
        intro hmx
        obtain ⟨k, hk⟩ := List.getElem?_of_mem hcs
        have hpos : s.minConds[pre.length + 1 + k]? = some c := by
          rw [hs, List.getElem?_append_right (by omega)]
          simpa [show pre.length + 1 + k - pre.length = k + 1 by omega] using hk
        have := kid_unique h ⟨x, hposx, hmx⟩ ⟨c, hpos, hm⟩
        omega
      rw [maskOne_at h (kids_known h (hmem x (by simp))) hmn, if_neg hnot]

/-! ## The loop -/

theorem sampleLoop_ok {rng : Nat → Nat → AMat α} {size : Nat} {P : AVec α → Prop}
    (hP : ∀ b w, ∀ v ∈ sampleBatch A s w (rng b w), P v) : ∀ (fuel b need : Nat) (acc r : List (AVec α)),
    (∀ v ∈ acc, P v) → sampleLoop A s rng size fuel b need acc = some r → (∀ v ∈ r, P v) ∧ size ≤ r.length := by
  intro fuel
  induction fuel with
  | zero =>
    intro b need acc r ha he
    unfold sampleLoop at he
    split at he
    · cases he; exact ⟨ha, by assumption⟩
    · cases he
  | succ k ih =>
    intro b need acc r ha he
    unfold sampleLoop at he
    split at he
    · cases he; exact ⟨ha, by assumption⟩
    · refine ih _ _ _ _ ?_ he
      intro v hv
      rcases List.mem_append.1 hv with hv | hv
      · exact ha v hv
      · exact hP _ _ v hv

/-! ## What a batch contributes -/

theorem batch_mem (h : Reach calls s) {w : Nat} {m : AMat α} (hr : Rect m w) (hm : m.length = s.len) {v : AVec α} :
    v ∈ sampleBatch A s w m ↔ ∃ u ∈ (cols w m), v = maskCol A s u ∧ (∀ f ∈ s.dag.uncond, ¬ Forbids A (asg s.idx u) f) ∧
      ∀ f ∈ s.dag.condF, ¬ Forbids A (asg s.idx v) f := by
  have key : ∀ (fs : List Forb) (x : AVec α), (!(fs.any (fun f => onVec A s.idx x f))) = true ↔
      ∀ f ∈ fs, ¬ Forbids A (asg s.idx x) f := by
    intro fs x
    rw [Bool.not_eq_true', ← Bool.not_eq_true, forb_any_iff]
    push Not
    rfl
  rw [sampleBatch_eq h hr hm, List.mem_filter, key]
  constructor
  · rintro ⟨h1, h2⟩
    obtain ⟨u, hu, rfl⟩ := List.mem_map.1 h1
    obtain ⟨h3, h4⟩ := List.mem_filter.1 hu
    exact ⟨u, h3, rfl, (key _ _).1 h4, h2⟩
  · rintro ⟨u, hu, rfl, h1, h2⟩
    exact ⟨List.mem_map.2 ⟨u, List.mem_filter.2 ⟨hu, (key _ _).2 h1⟩, rfl⟩, h2⟩

theorem maskCol_root (h : Reach calls s) {n : Name} (hn : n ∈ s.names) (hc : ¬ Conditional calls n) (u : AVec α) :
    (maskCol A s u).at (s.idx n) = u.at (s.idx n) :=
  maskFold_other h hn _ _ (fun _ hd => hd) (fun _ hd hk => hc (kid_conditional h hd hk))

/-- Masking does not change what clauses on unconditional hyperparameters say. -/
theorem uncond_mask (h : Reach calls s) {f : Forb} (hf : f ∈ s.dag.uncond) (u : AVec α) :
    Forbids A (asg s.idx (maskCol A s u)) f ↔ Forbids A (asg s.idx u) f := by
  obtain ⟨hp, he, hu, _⟩ := C09_clauses_kept_and_classified h
  have hfa : f ∈ allForbs calls := hp.mem_iff.1 (by rw [he]; exact List.mem_append.2 (.inl hf))
  exact forbids_congr f (fun x hx => maskCol_root h (forb_known h hfa hx) (hu f hf x hx) u)

theorem batch_allowed (h : Reach calls s) {w : Nat} {m : AMat α} (hr : Rect m w) (hm : m.length = s.len) {v : AVec α}
    (hv : v ∈ sampleBatch A s w m) : v.length = s.len ∧ NotForbidden A calls (asg s.idx v) := by
  obtain ⟨u, hu, rfl, h1, h2⟩ := (batch_mem h hr hm).1 hv
  obtain ⟨hp, he, _, _⟩ := C09_clauses_kept_and_classified h
  refine ⟨by rw [maskCol_length, cols_length_mem u hu, hm], ?_⟩
  intro f hf
  have hf' := hp.mem_iff.2 hf
  rw [he] at hf'
  rcases List.mem_append.1 hf' with k | k
  · rw [uncond_mask h k]; exact h1 f k
  · exact h2 f k

/-! ## C26 -/

/-- The columns of a legal draw have a legal entry for every hyperparameter. -/
theorem legal_column (h : Reach calls s) {rng : Nat → Nat → AMat α} (hd : LegalDraws A calls s rng) {b w : Nat} {u : AVec α}
    (hu : u ∈ cols w (rng b w)) {x : HP} (hx : x ∈ allHps calls) :
    ∃ q, u.at (s.idx x.name) = some q ∧ A.legalVec x q = true := by
  obtain ⟨hs, hl⟩ := hd
  obtain ⟨h1, h2⟩ := hs b w
  have hxn := (reach_isNode h x.name).2 ⟨x, hx, rfl⟩
  have hlt : s.idx x.name < (rng b w).length := by rw [h1]; exact idx_lt h hxn
  simp only [cols, List.mem_map, List.mem_range] at hu
  obtain ⟨j, hj, rfl⟩ := hu
  have hrow : (rng b w)[s.idx x.name].length = w := h2 _ (List.getElem_mem hlt)
  have hat : At s.names (s.idx x.name) x.name := by
    have hlt' : s.names.idxOf x.name < s.names.length := List.idxOf_lt_length_of_mem hxn
    unfold At
    change s.names[s.names.idxOf x.name]? = _
    rw [List.getElem?_eq_getElem hlt', List.getElem_idxOf hlt']
  obtain ⟨q, hq, hlq⟩ := hl b w x hx _ _ hat (List.getElem?_eq_getElem hlt) _
    (List.getElem_mem (by rw [hrow]; exact hj : j < _))
  refine ⟨q, ?_, hlq⟩
  simp only [AVec.at, List.getD_eq_getElem?_getD, List.getElem?_map, List.getElem?_eq_getElem hlt, Option.map_some,
    Option.getD_some]
  rw [List.getElem?_eq_getElem (by rw [hrow]; exact hj)]
  exact hq

theorem maskCol_group (h : Reach calls s) (hw : WeaklyLayered calls) (u : AVec α) {c : CNode} (hc : c ∈ s.minConds)
    {m : Name} (hm : m ∈ c.kids) : (maskCol A s u).at (s.idx m) =
      if satVec A s.idx (maskCol A s u) c.cond then u.at (s.idx m) else none :=
  maskFold_groups h (topo_of_weakly h hw) s.minConds [] u rfl c hc m hm

end Verif.AnyNum
