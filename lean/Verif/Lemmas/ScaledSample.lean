import Verif.Lemmas.ScaledValid

/-!
# Logarithmic scales: sampling, on a matrix of random values and its twin
-/

set_option autoImplicit false
set_option linter.unusedSectionVars false

namespace Verif.Scaled
open Verif Verif.Spec Verif.Num

variable {calls : List Call} {s : Space}

/-! ## Lists -/

theorem map_forall₂ {α β γ : Type} {P : α → β → Prop} {f : α → γ} {g : β → γ} : ∀ {l : List α} {l' : List β}, List.Forall₂ P l l' →
    (∀ a b, P a b → f a = g b) → l.map f = l'.map g
  | _, _, .nil, _ => rfl
  | _, _, .cons h t, hfg => by rw [List.map_cons, List.map_cons, hfg _ _ h, map_forall₂ t hfg]

theorem zipWith_forall₂ {α β α' β' γ : Type} {P : α → α' → Prop} {Q : β → β' → Prop} {f : α → β → γ} {g : α' → β' → γ} :
    ∀ {l : List α} {l' : List α'} {m : List β} {m' : List β'}, List.Forall₂ P l l' → List.Forall₂ Q m m' →
    (∀ a b c d, P a c → Q b d → f a b = g c d) → List.zipWith f l m = List.zipWith g l' m'
  | _, _, _, _, .nil, _, _ => by simp
  | _, _, _, _, .cons _ _, .nil, _ => by simp
  | _, _, _, _, .cons h t, .cons h' t', hfg => by
    rw [List.zipWith_cons_cons, List.zipWith_cons_cons, hfg _ _ _ _ h h', zipWith_forall₂ t t' hfg]

theorem keepRow_forall₂ {P : Option ℝ → NV → Prop} : ∀ {l : List (Option ℝ)} {l' : List NV}, List.Forall₂ P l l' → ∀ mask : List Bool,
    List.Forall₂ P (keepRow mask l) (Verif.keepRow mask l')
  | _, _, .nil, mask => by simp [keepRow, Verif.keepRow]
  | _, _, .cons h t, [] => by simp [keepRow, Verif.keepRow]
  | _, _, .cons h t, b :: mask => by
    have ih := keepRow_forall₂ t mask
    unfold keepRow Verif.keepRow at ih ⊢
    cases b
    · simpa using ih
    · exact .cons h ih

theorem mask_forall₂ {P : Option ℝ → NV → Prop} (h0 : P none none) : ∀ {l : List (Option ℝ)} {l' : List NV}, List.Forall₂ P l l' →
    ∀ mask : List Bool, List.Forall₂ P (List.zipWith (fun e b => if b then e else none) l mask)
      (List.zipWith (fun e b => if b then e else none) l' mask)
  | _, _, .nil, mask => by simp
  | _, _, .cons h t, [] => by simp
  | _, _, .cons h t, b :: mask => by
    rw [List.zipWith_cons_cons, List.zipWith_cons_cons]
    refine .cons ?_ (mask_forall₂ h0 t mask)
    cases b
    · exact h0
    · exact h

theorem forall₂_getD {α β : Type} {P : α → β → Prop} {a : α} {b : β} (h0 : P a b) : ∀ {l : List α} {l' : List β}, List.Forall₂ P l l' →
    ∀ j, P (l.getD j a) (l'.getD j b)
  | _, _, .nil, j => by simpa using h0
  | _, _, .cons h t, 0 => by simpa using h
  | _, _, .cons h t, j + 1 => by simpa using forall₂_getD h0 t j

theorem getD_map_row {α β : Type} (f : List α → List β) (hf : f [] = []) (m : List (List α)) (i : Nat) :
    (m.map f).getD i [] = f (m.getD i []) := by
  rw [List.getD_eq_getElem?_getD, List.getD_eq_getElem?_getD, List.getElem?_map]
  cases m[i]? with
  | none => simp [hf]
  | some r => rfl

theorem getD_mapIdx_row {α β : Type} (f : Nat → List α → List β) (m : List (List α)) {i : Nat} (hi : i < m.length) :
    (m.mapIdx f).getD i [] = f i (m.getD i []) := by
  rw [List.getD_eq_getElem?_getD, List.getD_eq_getElem?_getD, List.getElem?_mapIdx, List.getElem?_eq_getElem hi]
  rfl

/-! ## Matrices -/

/-- A matrix of random values and its twin. -/
structure MTwin (lg : Scales) (calls : List Call) (s : Space) (R : ℝ → Prop) (φ : ℝ → Rat) (m : RMat) (m' : Mat) : Prop where
  len : m.length = s.len
  len' : m'.length = s.len
  rows : ∀ h ∈ allHps calls, List.Forall₂ (Ent (lg h) h.kind R φ) (m.getD (s.idx h.name) []) (m'.getD (s.idx h.name) [])

theorem satArr_congr (lg : Scales) (c : Cond) (idx : Name → Nat) (w : Nat) (m : RMat) (m' : Mat)
    (h : ∀ l ∈ c.dlcs, (m.getD (idx l.parent.name) []).map (onEntryB (lg l.parent) l.parent.kind l.test) =
      (m'.row (idx l.parent.name)).map l.test.onEntry) : satArr lg idx w m c = c.satArr idx w m' := by
  induction c using Cond.induct with
  | hl l => simpa [satArr, Cond.satArr] using h l (by simp [Cond.dlcs])
  | ha cs ih =>
    simp only [satArr, Cond.satArr]
    have h' : ∀ c ∈ cs, satArr lg idx w m c = c.satArr idx w m' := fun c hc =>
      ih c hc (fun l hl => h l (by rw [Cond.dlcs]; exact mem_dlcsL.2 ⟨c, hc, hl⟩))
    clear ih h
    generalize List.replicate w true = acc
    induction cs generalizing acc with
    | nil => rfl
    | cons c cs ih =>
      simp only [satArrAll, Cond.satArrAll, h' c (by simp), ih (fun x hx => h' x (by simp [hx]))]
  | ho cs ih =>
    simp only [satArr, Cond.satArr]
    have h' : ∀ c ∈ cs, satArr lg idx w m c = c.satArr idx w m' := fun c hc =>
      ih c hc (fun l hl => h l (by rw [Cond.dlcs]; exact mem_dlcsL.2 ⟨c, hc, hl⟩))
    clear ih h
    generalize List.replicate w false = acc
    induction cs generalizing acc with
    | nil => rfl
    | cons c cs ih =>
      simp only [satArrAny, Cond.satArrAny, h' c (by simp), ih (fun x hx => h' x (by simp [hx]))]

section Mats
variable {lg : Scales} {R : ℝ → Prop} {φ : ℝ → Rat} (hr : Reach calls s) (hφ : Keeps R φ) (hc : Cover lg calls R)
include hr hφ hc

variable {m : RMat} {m' : Mat} (hm : MTwin lg calls s R φ m m')
include hm

theorem satArr_twin {c : Cond} (hcm : c ∈ allConds calls) (w : Nat) : satArr lg s.idx w m c = c.satArr s.idx w m' := by
  refine satArr_congr lg c s.idx w m m' (fun l hl => ?_)
  have hwf := (reach_wf hr).2.1 c hcm
  simp only [Cond.wf, Bool.and_eq_true] at hwf
  obtain ⟨h1, h2⟩ := hc.conds c hcm l hl
  obtain ⟨k1, k2⟩ := lit_ok (wf0_lit hwf.1 l hl)
  exact map_forall₂ (hm.rows _ h1) (fun a b hab => onEntry_twin hφ k1 (hc.pos _ h1) k2 h2 hab)

theorem onArr_twin (w : Nat) (f : Forb) (hf : Fine (allHps calls) R f) : onArr lg s.idx w m f = f.onArr s.idx w m' := by
  have hH := hc.good hr
  induction f using Forb.induct with
  | he h v x =>
    have hh := hf.hps h (by simp [clauseHps])
    have hwf := hf.wf
    simp only [Forb.wf, Bool.and_eq_true, decide_eq_true_eq] at hwf
    simp only [onArr, Forb.onArr]
    exact map_forall₂ (hm.rows h hh) (fun a b hab => (eqEntry_twin hφ (hH h hh).1 (hH h hh).2.2 rfl hwf.1.2 hwf.2
      (hf.vals (h, v) (by simp [clauseVals])) hab).trans (by cases b <;> rfl))
  | hi h ws xs =>
    have hh := hf.hps h (by simp [clauseHps])
    have hwf := hf.wf
    simp only [Forb.wf, Bool.and_eq_true, List.all_eq_true, decide_eq_true_eq] at hwf
    simp only [onArr, Forb.onArr]
    exact map_forall₂ (hm.rows h hh) (fun a b hab => (inEntry_twin hφ (hH h hh).1 (hH h hh).2.2 rfl hwf.1.2
      (fun w hw => hf.vals (h, w) (by simp only [clauseVals, List.mem_map]; exact ⟨w, hw, rfl⟩)) hab).trans (by
        rw [hwf.2]; cases b <;> rfl))
  | hr op l r =>
    have hl := hf.hps l (by simp [clauseHps])
    have hr' := hf.hps r (by simp [clauseHps])
    simp only [onArr, Forb.onArr]
    exact zipWith_forall₂ (hm.rows l hl) (hm.rows r hr') (fun a b c d hac hbd =>
      rel_twin hφ (hH l hl).1 (hH r hr').1 (hH l hl).2.1 (hH r hr').2.1 (hH l hl).2.2 (hH r hr').2.2 hac hbd op)
  | ha cs ih =>
    simp only [onArr, Forb.onArr]
    have h' : ∀ c ∈ cs, onArr lg s.idx w m c = c.onArr s.idx w m' := fun c hcm => ih c hcm (fine_and.1 hf c hcm)
    clear ih hf
    generalize List.replicate w true = acc
    induction cs generalizing acc with
    | nil => rfl
    | cons c cs ih =>
      simp only [onArrAll, Forb.onArrAll, h' c (by simp), ih (fun x hx => h' x (by simp [hx]))]

theorem forbMask_twin (w : Nat) {fs : List Forb} (hfs : ∀ f ∈ fs, Fine (allHps calls) R f) :
    forbMask lg s w m fs = Verif.forbMask s w m' fs := by
  unfold forbMask Verif.forbMask
  generalize List.replicate w false = acc
  induction fs generalizing acc with
  | nil => rfl
  | cons f fs ih =>
    rw [List.foldl_cons, List.foldl_cons, onArr_twin hr hφ hc hm w f (hfs f (by simp)), ih (fun g hg => hfs g (by simp [hg]))]

theorem MTwin.keep (mask : List Bool) : MTwin lg calls s R φ (m.map (keepRow mask)) (m'.keepCols mask) where
  len := by simp [hm.len]
  len' := by simp [Mat.keepCols, hm.len']
  rows := fun h hh => by
    unfold Mat.keepCols
    rw [getD_map_row _ (by simp [keepRow]), getD_map_row _ (by simp [Verif.keepRow])]
    exact keepRow_forall₂ (hm.rows h hh) mask

theorem MTwin.mask (c : CNode) (sat : List Bool) : MTwin lg calls s R φ (maskKids s m c sat) (Verif.maskKids s m' c sat) where
  len := by simp [maskKids, hm.len]
  len' := by simp [Verif.maskKids, hm.len']
  rows := fun h hh => by
    have hlt := idx_lt hr ((reach_isNode hr h.name).2 ⟨h, hh, rfl⟩)
    unfold maskKids Verif.maskKids
    rw [getD_mapIdx_row _ _ (by rw [hm.len]; exact hlt), getD_mapIdx_row _ _ (by rw [hm.len']; exact hlt)]
    split
    · exact mask_forall₂ (.inl ⟨rfl, rfl⟩) (hm.rows h hh) sat
    · exact hm.rows h hh

theorem MTwin.cols (w : Nat) : List.Forall₂ (fun v v' => VTwin lg calls s R φ v v' ∧ v.length = s.len) (cols w m) (Mat.cols w m') := by
  unfold Scaled.cols Mat.cols
  rw [List.forall₂_map_left_iff, List.forall₂_map_right_iff, List.forall₂_same]
  intro j _
  refine ⟨fun h hh => ?_, by simp [hm.len]⟩
  have := forall₂_getD (a := (none : Option ℝ)) (b := (none : NV)) (.inl ⟨rfl, rfl⟩) (hm.rows h hh) j
  have e1 : RVec.at (m.map (fun row => row.getD j none)) (s.idx h.name) = (m.getD (s.idx h.name) []).getD j none := by
    simp only [RVec.at, List.getD_eq_getElem?_getD, List.getElem?_map]
    cases m[s.idx h.name]? <;> simp
  have e2 : Vec.at (m'.map (fun row => row.getD j none)) (s.idx h.name) = (m'.getD (s.idx h.name) []).getD j none := by
    simp only [Vec.at, List.getD_eq_getElem?_getD, List.getElem?_map]
    cases m'[s.idx h.name]? <;> simp
  rw [e1, e2]
  exact this

/-- One batch. -/
theorem sampleBatch_twin (w : Nat) : List.Forall₂ (fun v v' => VTwin lg calls s R φ v v' ∧ v.length = s.len)
    (sampleBatch lg s w m) (s.sampleBatch w m') := by
  have hi := sinv_of_reach hr
  have hmem : ∀ f, f ∈ s.dag.uncond ++ s.dag.condF → Fine (allHps calls) R f := fun f hf =>
    fine_of hr hc (hi.hist.forbs.mem_iff.1 hf)
  have fold : ∀ (w1 : Nat) (cs : List CNode), (∀ c ∈ cs, c ∈ s.minConds) → ∀ (m : RMat) (m' : Mat), MTwin lg calls s R φ m m' →
      MTwin lg calls s R φ (cs.foldl (fun m c => maskKids s m c (satArr lg s.idx w1 m c.cond)) m)
        (cs.foldl (fun m c => Verif.maskKids s m c (c.cond.satArr s.idx w1 m)) m') := by
    intro w1 cs
    induction cs with
    | nil => intro _ m m' h; exact h
    | cons c cs ih =>
      intro hcs m m' h
      rw [List.foldl_cons, List.foldl_cons]
      refine ih (fun d hd => hcs d (by simp [hd])) _ _ ?_
      rw [satArr_twin hr hφ hc h (cond_known hr (hcs c (by simp))) w1]
      exact h.mask hr hφ hc c _
  unfold sampleBatch Space.sampleBatch
  simp only
  rw [forbMask_twin hr hφ hc hm w (fun f hf => hmem f (by simp [hf]))]
  have h2 := fold (numTrue ((Verif.forbMask s w m' s.dag.uncond).map not)) s.minConds (fun c hc => hc) _ _
    (hm.keep hr hφ hc ((Verif.forbMask s w m' s.dag.uncond).map not))
  rw [forbMask_twin hr hφ hc h2 _ (fun f hf => hmem f (by simp [hf]))]
  exact (h2.keep hr hφ hc _).cols hr hφ hc _

end Mats

/-! ## The numbers of a batch -/

/-- The rows stand for numbers. -/
def NumRows (lg : Scales) (calls : List Call) (s : Space) (m : RMat) (ys : Name → List ℝ) : Prop :=
  ∀ h ∈ allHps calls, List.Forall₂ (fun e y => ∃ x, e = some x ∧ Stands (lg h) h.kind x y) (m.getD (s.idx h.name) []) (ys h.name)

noncomputable section
/-- The twin of rows of numbers. -/
def twinMat (s : Space) (φ : ℝ → Rat) (ys : Name → List ℝ) : Mat :=
  s.com.map (fun x => (ys x.name).map (fun y => some (encQ x.hp.kind (φ y))))
end

theorem twinMat_row (hr : Reach calls s) {φ : ℝ → Rat} {ys : Name → List ℝ} {h : HP} (hh : h ∈ allHps calls) :
    (twinMat s φ ys)[s.idx h.name]? = some ((ys h.name).map (fun y => some (encQ h.kind (φ y)))) := by
  obtain ⟨x, hx, e, en⟩ := com_at hr hh
  unfold twinMat
  rw [List.getElem?_map, hx]
  simp only [Option.map_some, e, en]

theorem twinMat_twin (hr : Reach calls s) {lg : Scales} {R : ℝ → Prop} {φ : ℝ → Rat} {m : RMat} {ys : Name → List ℝ}
    (hl : m.length = s.len) (hn : NumRows lg calls s m ys) (hR : ∀ h ∈ allHps calls, ∀ y ∈ ys h.name, R y) :
    MTwin lg calls s R φ m (twinMat s φ ys) where
  len := hl
  len' := by rw [(sinv_of_reach hr).len]; simp [twinMat]
  rows := fun h hh => by
    rw [List.getD_eq_getElem?_getD (l := twinMat s φ ys), twinMat_row hr hh, Option.getD_some, List.forall₂_map_right_iff]
    have h1 := hn h hh
    have h2 := hR h hh
    generalize m.getD (s.idx h.name) [] = row at h1
    generalize ys h.name = zs at h1 h2
    induction h1 with
    | nil => exact .nil
    | cons hab _ ih =>
      obtain ⟨x, e, hs⟩ := hab
      exact .cons (.inr ⟨x, _, e, hs, h2 _ (by simp), rfl⟩) (ih (fun y hy => h2 y (by simp [hy])))

/-- The twin of a batch is a legal batch. -/
theorem twinMat_legal (hr : Reach calls s) {lg : Scales} {R : ℝ → Prop} {φ : ℝ → Rat} (hφ : Keeps R φ) (hc : Cover lg calls R) {m : RMat}
    {ys : Name → List ℝ} {w : Nat} (hn : NumRows lg calls s m ys) (hw : ∀ h ∈ allHps calls, (ys h.name).length = w)
    (hR : ∀ h ∈ allHps calls, ∀ y ∈ ys h.name, R y) :
    (∀ row ∈ twinMat s φ ys, row.length = w) ∧ ∀ h ∈ allHps calls, ∀ i row, At s.names i h.name → (twinMat s φ ys)[i]? = some row →
      ∀ e ∈ row, ∃ q, e = some q ∧ h.kind.legalVec q = true := by
  constructor
  · intro row hrow
    obtain ⟨x, hx, rfl⟩ := List.mem_map.1 hrow
    obtain ⟨h1, h2, -⟩ := F64.node_hp hr hx
    rw [List.length_map, ← h2]
    exact hw _ h1
  · intro h hh i row hat hrow e he
    have hi : i = s.idx h.name := (idx_unique (reach_ninv hr).nodup hat).symm
    subst hi
    rw [twinMat_row hr hh] at hrow
    cases hrow
    obtain ⟨y, hy, rfl⟩ := List.mem_map.1 he
    refine ⟨_, rfl, ?_⟩
    obtain ⟨g1, g2, -⟩ := hc.good hr h hh
    have : ∃ x, Stands (lg h) h.kind x y := by
      have h1 := hn h hh
      generalize m.getD (s.idx h.name) [] = row at h1
      generalize ys h.name = zs at h1 hy
      clear he
      induction h1 with
      | nil => cases hy
      | cons hab _ ih =>
        rcases List.mem_cons.1 hy with rfl | hy
        · obtain ⟨x, -, hs⟩ := hab; exact ⟨x, hs⟩
        · exact ih hy
    obtain ⟨x, hs⟩ := this
    exact twin_legal hφ g1 g2 hs (hR h hh y hy)

/-- Numbers of all entries, in one list. -/
theorem batch_numbers (lg lg' : Scales) {m m2 : RMat} (hr : Reach calls s)
    (hs : ∀ h ∈ allHps calls, List.Forall₂ (fun e e' => ∃ x x' y, e = some x ∧ e' = some x' ∧ Stands (lg h) h.kind x y ∧ Stands (lg' h) h.kind x' y)
      (m.getD (s.idx h.name) []) (m2.getD (s.idx h.name) [])) :
    ∃ (ys : Name → List ℝ), NumRows lg calls s m ys ∧ NumRows lg' calls s m2 ys := by
  have key : ∀ n : Name, ∃ zs : List ℝ, ∀ h ∈ allHps calls, h.name = n →
      List.Forall₂ (fun e y => ∃ x, e = some x ∧ Stands (lg h) h.kind x y) (m.getD (s.idx h.name) []) zs ∧
      List.Forall₂ (fun e y => ∃ x, e = some x ∧ Stands (lg' h) h.kind x y) (m2.getD (s.idx h.name) []) zs := by
    intro n
    by_cases hn : ∃ h ∈ allHps calls, h.name = n
    · obtain ⟨h, hh, e⟩ := hn
      have h1 := hs h hh
      have : ∃ zs : List ℝ, List.Forall₂ (fun e y => ∃ x, e = some x ∧ Stands (lg h) h.kind x y) (m.getD (s.idx h.name) []) zs ∧
          List.Forall₂ (fun e y => ∃ x, e = some x ∧ Stands (lg' h) h.kind x y) (m2.getD (s.idx h.name) []) zs := by
        generalize m.getD (s.idx h.name) [] = row at h1
        generalize m2.getD (s.idx h.name) [] = row2 at h1
        induction h1 with
        | nil => exact ⟨[], .nil, .nil⟩
        | cons hab _ ih =>
          obtain ⟨x, x', y, e1, e2, s1, s2⟩ := hab
          obtain ⟨zs, z1, z2⟩ := ih
          exact ⟨y :: zs, .cons ⟨x, e1, s1⟩ z1, .cons ⟨x', e2, s2⟩ z2⟩
      obtain ⟨zs, z1, z2⟩ := this
      refine ⟨zs, fun h' hh' e' => ?_⟩
      have : h' = h := reach_hp_inj hr _ hh' _ hh (e'.trans e.symm)
      subst this
      exact ⟨z1, z2⟩
    · exact ⟨[], fun h hh e => absurd ⟨h, hh, e⟩ hn⟩
  choose ys hys using key
  exact ⟨ys, fun h hh => (hys h.name h hh rfl).1, fun h hh => (hys h.name h hh rfl).2⟩

/-! ## The loop -/

/-- The loop, for any batches. -/
def loopG {α : Type} (B : Nat → Nat → List α) (width : Nat → Nat) (size : Nat) : Nat → Nat → Nat → List α → Option (List α)
  | 0, _, _, acc => if size ≤ acc.length then some acc else none
  | fuel + 1, b, need, acc =>
    if size ≤ acc.length then some acc
    else
      let acc' := acc ++ B b (width need)
      loopG B width size fuel (b + 1) (size - acc'.length) acc'

theorem sampleLoop_eq (lg : Scales) (s : Space) (rng : Nat → Nat → RMat) (size : Nat) : ∀ fuel b need acc,
    sampleLoop lg s rng size fuel b need acc = loopG (fun b w => sampleBatch lg s w (rng b w)) s.batchWidth size fuel b need acc
  | 0, b, need, acc => rfl
  | fuel + 1, b, need, acc => by simp only [sampleLoop, loopG, sampleLoop_eq lg s rng size fuel]

theorem loopG_rel {α β : Type} {P : α → β → Prop} {B : Nat → Nat → List α} {B' : Nat → Nat → List β}
    (hB : ∀ b w, List.Forall₂ P (B b w) (B' b w)) (width : Nat → Nat) (size : Nat) : ∀ fuel b need acc acc', List.Forall₂ P acc acc' →
    Option.Rel (List.Forall₂ P) (loopG B width size fuel b need acc) (loopG B' width size fuel b need acc')
  | 0, b, need, acc, acc', h => by
    simp only [loopG, h.length_eq]
    split
    · exact .some h
    · exact .none
  | fuel + 1, b, need, acc, acc', h => by
    simp only [loopG, h.length_eq]
    split
    · exact .some h
    · have h' := List.rel_append h (hB b (width need))
      rw [h'.length_eq]
      exact loopG_rel hB width size fuel _ _ _ _ h'

theorem loopG_mem {α : Type} {B : Nat → Nat → List α} (width : Nat → Nat) (size : Nat) : ∀ fuel b need acc r,
    loopG B width size fuel b need acc = some r → size ≤ r.length ∧ ∀ v ∈ r, v ∈ acc ∨ ∃ b w, v ∈ B b w
  | 0, b, need, acc, r, h => by
    simp only [loopG] at h
    split at h
    · cases h; exact ⟨by assumption, fun v hv => .inl hv⟩
    · cases h
  | fuel + 1, b, need, acc, r, h => by
    simp only [loopG] at h
    split at h
    · cases h; exact ⟨by assumption, fun v hv => .inl hv⟩
    · obtain ⟨h1, h2⟩ := loopG_mem width size fuel _ _ _ _ h
      refine ⟨h1, fun v hv => ?_⟩
      rcases h2 v hv with k | k
      · rcases List.mem_append.1 k with k | k
        · exact .inl k
        · exact .inr ⟨_, _, k⟩
      · exact .inr k

/-! ## Validity of a batch -/

/-- Every vector of a legal batch is valid. -/
theorem batch_valid (h : Reach calls s) (hsep : Separable calls) (hw : WeaklyLayered calls) {rng : Nat → Nat → Mat}
    (hd : LegalDraws calls s rng) {b w : Nat} {v : Vec} (hm : v ∈ s.sampleBatch w (rng b w)) : ∃ a, Represents s v a ∧ Valid calls a := by
  obtain ⟨h1, hnf⟩ := batch_allowed h (hd.1 b w).2 (hd.1 b w).1 hm
  have ha := represents_asg h h1
  refine ⟨_, ha, ?_⟩
  obtain ⟨u, hu, he, _, _⟩ := (batch_mem h (hd.1 b w).2 (hd.1 b w).1).1 hm
  refine ⟨?_, ?_, ?_, hnf⟩
  · intro n hn hcn
    obtain ⟨x, hx, rfl⟩ := hn
    have hxn := (reach_isNode h x.name).2 ⟨x, hx, rfl⟩
    obtain ⟨q, hq, _⟩ := legal_column h hd hu hx
    refine ⟨q, ?_⟩
    rw [← at_idx ha hxn, he, maskCol_root h hxn hcn, hq]
  · rw [activity_iff h hsep ha]
    intro i g hg m hmk
    have hgm := List.mem_of_getElem? hg
    have hmn := kids_known h hgm m hmk
    obtain ⟨x, hx, rfl⟩ := (reach_isNode h m).1 hmn
    obtain ⟨q, hq, _⟩ := legal_column h hd hu hx
    rw [he, maskCol_group h hw u hgm hmk, hq]
    cases g.cond.satVec s.idx (maskCol s u) <;> rfl
  · intro x hx q hq
    have hxn := (reach_isNode h x.name).2 ⟨x, hx, rfl⟩
    obtain ⟨p, hp, hlp⟩ := legal_column h hd hu hx
    rw [← at_idx ha hxn, he] at hq
    rcases maskFold_values h hxn s.minConds u (fun _ hc => hc) with k | k
    · rw [show (maskCol s u).at (s.idx x.name) = none from k] at hq; cases hq
    · rw [show (maskCol s u).at (s.idx x.name) = _ from k, hp] at hq
      cases hq
      exact hlp

end Verif.Scaled
