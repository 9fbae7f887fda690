import Verif.Lemmas.ScaledSample
import Verif.Lemmas.ScaledConfig

/-!
# C94: logarithmic scales do not change what a space admits

A float or an integer can be given a logarithmic scale.  Only the vectors change: which numbers are accepted, which hyperparameters
are active, what is read and what is sampled are the same on every scale.
-/

set_option autoImplicit false
set_option linter.unusedSectionVars false

namespace Verif.Scaled
open Verif Verif.Spec Verif.Num

variable {calls : List Call} {s : Space}

/-! ## Numbers of twins -/

/-- Two vectors with the same twin stand for the same numbers. -/
theorem common_numbers (hr : Reach calls s) {lg lg' : Scales} {R : ℝ → Prop} {φ : ℝ → Rat} (hφ : Keeps R φ) {v v2 : RVec} {v' : Vec}
    (hl : v.length = s.len) (hl2 : v2.length = s.len) (h : VTwin lg calls s R φ v v') (h2 : VTwin lg' calls s R φ v2 v') :
    ∃ a, Encodes lg calls s v a ∧ Encodes lg' calls s v2 a ∧ ∀ a', Represents s v' a' → NTwin lg calls R φ a a' := by
  have key : ∀ n : Name, ∃ o : Option ℝ, ∀ k ∈ allHps calls, k.name = n →
      (v.at (s.idx k.name) = none ∧ v2.at (s.idx k.name) = none ∧ v'.at (s.idx k.name) = none ∧ o = none) ∨
      ∃ x x2 y, v.at (s.idx k.name) = some x ∧ v2.at (s.idx k.name) = some x2 ∧ v'.at (s.idx k.name) = some (encQ k.kind (φ y)) ∧
        o = some y ∧ Stands (lg k) k.kind x y ∧ Stands (lg' k) k.kind x2 y ∧ R y := by
    intro n
    by_cases hn : ∃ k ∈ allHps calls, k.name = n
    · obtain ⟨k, hk, e⟩ := hn
      have huniq : ∀ k' ∈ allHps calls, k'.name = n → k' = k := fun k' hk' e' => reach_hp_inj hr k' hk' k hk (e'.trans e.symm)
      rcases h k hk with ⟨e1, e2⟩ | ⟨x, y, e1, hs, hy, e2⟩ <;> rcases h2 k hk with ⟨f1, f2⟩ | ⟨x2, z, f1, hs2, hz, f2⟩
      · exact ⟨none, fun k' hk' e' => by rw [huniq k' hk' e']; exact .inl ⟨e1, f1, e2, rfl⟩⟩
      · rw [e2] at f2; cases f2
      · rw [e2] at f2; cases f2
      · have : y = z := by
          rw [e2] at f2
          exact (hφ.eq hy hz).1 ((encQ_eq ((reach_wf hr).1 k hk)).1 (Option.some.inj f2))
        subst this
        exact ⟨some y, fun k' hk' e' => by rw [huniq k' hk' e']; exact .inr ⟨x, x2, y, e1, f1, e2, rfl, hs, hs2, hy⟩⟩
    · exact ⟨none, fun k hk e => absurd ⟨k, hk, e⟩ hn⟩
  choose a ha using key
  refine ⟨a, ⟨hl, fun k hk => ?_⟩, ⟨hl2, fun k hk => ?_⟩, fun a' ha' k hk => ?_⟩
  · rcases ha k.name k hk rfl with ⟨e1, e2, e3, e4⟩ | ⟨x, x2, y, e1, e2, e3, e4, hs, hs2, hy⟩
    · exact .inl ⟨e1, e4⟩
    · exact .inr ⟨x, y, e1, e4, hs⟩
  · rcases ha k.name k hk rfl with ⟨e1, e2, e3, e4⟩ | ⟨x, x2, y, e1, e2, e3, e4, hs, hs2, hy⟩
    · exact .inl ⟨e2, e4⟩
    · exact .inr ⟨x2, y, e2, e4, hs2⟩
  · have hat := at_idx ha' ((reach_isNode hr k.name).2 ⟨k, hk, rfl⟩)
    rcases ha k.name k hk rfl with ⟨e1, e2, e3, e4⟩ | ⟨x, x2, y, e1, e2, e3, e4, hs, hs2, hy⟩
    · exact .inl ⟨e4, by rw [← hat, e3]⟩
    · exact .inr ⟨x, y, e4, hs, hy, by rw [← hat, e3]⟩

theorem forall₂_join {α β γ : Type} {P : α → γ → Prop} {Q : β → γ → Prop} {S : α → β → Prop} : ∀ {l : List α} {l' : List β} {t : List γ},
    List.Forall₂ P l t → List.Forall₂ Q l' t → (∀ a b c, P a c → Q b c → S a b) → List.Forall₂ S l l'
  | _, _, _, .nil, .nil, _ => .nil
  | _, _, _, .cons h t, .cons h' t', hs => .cons (hs _ _ _ h h') (forall₂_join t t' hs)

theorem forall₂_left {α β : Type} {P : α → β → Prop} : ∀ {l : List α} {l' : List β}, List.Forall₂ P l l' → ∀ a ∈ l, ∃ b ∈ l', P a b
  | _, _, .nil, a, ha => by cases ha
  | _, _, .cons h t, a, ha => by
    rcases List.mem_cons.1 ha with rfl | ha
    · exact ⟨_, by simp, h⟩
    · obtain ⟨b, hb, hab⟩ := forall₂_left t a ha
      exact ⟨b, by simp [hb], hab⟩

/-! ## Validation -/

/-- **C94** (partial: exact arithmetic, and conditions that the code groups together must mean the same).  On every scale, a vector
that stands for numbers is accepted if and only if the numbers are a valid configuration. -/
theorem C94_accepted_iff_valid_partial (hr : Reach calls s) (hsep : Separable calls) (hown : OwnClauses calls) (hoc : OwnConds calls)
    {lg : Scales} (hpos : PositiveLogs lg calls) {v : RVec} {a : NumAssign} (hv : Encodes lg calls s v a) :
    check lg s v = none ↔ ValidN calls a := by
  obtain ⟨φ, hφ⟩ := keeps_exists (spaceNums calls ++ numsOf calls a)
  have hc := cover_of (R := (· ∈ spaceNums calls ++ numsOf calls a)) hpos hoc hown (fun x hx => List.mem_append_left _ hx)
  obtain ⟨h1, h2, h3⟩ := twin_exists (φ := φ) hr hv (R := (· ∈ spaceNums calls ++ numsOf calls a)) (fun y hy => List.mem_append_right _ hy)
  have ha := represents_asg hr h2
  have hn := h3 _ ha
  rw [check_twin hr hφ hc h1 false, valid_twin hφ hr hc hn]
  refine ⟨C16_accepted_legal_roots_partial hr hsep hown ha (fun h hh _ q hq => ?_), C17_valid_is_accepted_partial hr hsep hown ha⟩
  rcases hn h hh with ⟨-, e⟩ | ⟨x, y, -, hs, hy, e⟩
  · rw [e] at hq; cases hq
  · rw [e] at hq
    cases hq
    exact twin_legal hφ (hc.good hr h hh).1 (hc.good hr h hh).2.1 hs hy

/-- **C94** (partial: exact arithmetic).  The same numbers on two scales: both validators give the same answer, with the same error,
and the same hyperparameters are active. -/
theorem C94_scales_agree_partial (hr : Reach calls s) (hown : OwnClauses calls) (hoc : OwnConds calls)
    {lg lg' : Scales} (hpos : PositiveLogs lg calls) (hpos' : PositiveLogs lg' calls) {v v' : RVec}
    (hv : SameNumbers lg lg' calls s v v') (allow : Bool) :
    check lg s v allow = check lg' s v' allow ∧ checkRigorous lg s v allow = checkRigorous lg' s v' allow ∧
      activeNames lg s v = activeNames lg' s v' := by
  obtain ⟨a, h1, h2⟩ := hv
  obtain ⟨φ, hφ⟩ := keeps_exists (spaceNums calls ++ numsOf calls a)
  have hc := cover_of (R := (· ∈ spaceNums calls ++ numsOf calls a)) hpos hoc hown (fun x hx => List.mem_append_left _ hx)
  have hc' := cover_of (R := (· ∈ spaceNums calls ++ numsOf calls a)) hpos' hoc hown (fun x hx => List.mem_append_left _ hx)
  have t1 := (twin_exists (φ := φ) hr h1 (R := (· ∈ spaceNums calls ++ numsOf calls a)) (fun y hy => List.mem_append_right _ hy)).1
  have t2 := (twin_exists (φ := φ) hr h2 (R := (· ∈ spaceNums calls ++ numsOf calls a)) (fun y hy => List.mem_append_right _ hy)).1
  refine ⟨?_, ?_, ?_⟩
  · rw [check_twin hr hφ hc t1, check_twin hr hφ hc' t2]
  · rw [checkRigorous_twin hr hφ hc t1, checkRigorous_twin hr hφ hc' t2]
  · rw [activeNames_twin hr hφ hc t1, activeNames_twin hr hφ hc' t2]

/-! ## Sampling -/

/-- One batch on two scales has a common twin. -/
theorem batch_twin (hr : Reach calls s) (hown : OwnClauses calls) (hoc : OwnConds calls) {lg lg' : Scales}
    (hpos : PositiveLogs lg calls) (hpos' : PositiveLogs lg' calls) {w : Nat} {m m2 : RMat} (hl : m.length = s.len) (hl2 : m2.length = s.len)
    (hw : ∀ h ∈ allHps calls, (m.getD (s.idx h.name) []).length = w)
    (hs : ∀ h ∈ allHps calls, List.Forall₂ (fun e e' => ∃ x x' y, e = some x ∧ e' = some x' ∧ Stands (lg h) h.kind x y ∧ Stands (lg' h) h.kind x' y)
      (m.getD (s.idx h.name) []) (m2.getD (s.idx h.name) [])) :
    ∃ (R : ℝ → Prop) (φ : ℝ → Rat) (m' : Mat), Keeps R φ ∧ Cover lg calls R ∧ Cover lg' calls R ∧ MTwin lg calls s R φ m m' ∧
      MTwin lg' calls s R φ m2 m' ∧ (∀ row ∈ m', row.length = w) ∧
      ∀ h ∈ allHps calls, ∀ i row, At s.names i h.name → m'[i]? = some row → ∀ e ∈ row, ∃ q, e = some q ∧ h.kind.legalVec q = true := by
  obtain ⟨ys, h1, h2⟩ := batch_numbers lg lg' hr hs
  let L : List ℝ := spaceNums calls ++ (allHps calls).flatMap (fun h => ys h.name)
  obtain ⟨φ, hφ⟩ := keeps_exists L
  have hR : ∀ h ∈ allHps calls, ∀ y ∈ ys h.name, y ∈ L := fun h hh y hy => List.mem_append_right _ (List.mem_flatMap.2 ⟨h, hh, hy⟩)
  have hc := cover_of (R := (· ∈ L)) hpos hoc hown (fun x hx => List.mem_append_left _ hx)
  have hc' := cover_of (R := (· ∈ L)) hpos' hoc hown (fun x hx => List.mem_append_left _ hx)
  obtain ⟨g1, g2⟩ := twinMat_legal hr hφ hc h1 (fun h hh => by rw [← (h1 h hh).length_eq]; exact hw h hh) hR
  exact ⟨(· ∈ L), φ, twinMat s φ ys, hφ, hc, hc', twinMat_twin hr hl h1 hR, twinMat_twin hr hl2 h2 hR, g1, g2⟩

theorem row_of (hr : Reach calls s) {m : RMat} (hl : m.length = s.len) {h : HP} (hh : h ∈ allHps calls) :
    m[s.idx h.name]? = some (m.getD (s.idx h.name) []) := by
  have hlt : s.idx h.name < m.length := by rw [hl]; exact idx_lt hr ((reach_isNode hr h.name).2 ⟨h, hh, rfl⟩)
  rw [List.getD_eq_getElem?_getD, List.getElem?_eq_getElem hlt]
  rfl

theorem self_rows {lg : Scales} {k : Kind} {g : Bool} : ∀ {row : List (Option ℝ)}, (∀ e ∈ row, ∃ x y, e = some x ∧ Stands g k x y) →
    List.Forall₂ (fun e e' => ∃ x x' y, e = some x ∧ e' = some x' ∧ Stands g k x y ∧ Stands g k x' y) row row
  | [], _ => .nil
  | e :: row, h => by
    obtain ⟨x, y, e1, e2⟩ := h e (by simp)
    exact .cons ⟨x, x, y, e1, e1, e2, e2⟩ (self_rows (lg := lg) (fun e he => h e (by simp [he])))

/-- **C94** (partial: exact arithmetic; the guards are those of C26).  On every scale, if every drawn entry stands for a number in the
range of its hyperparameter, `sample_configuration(size)` gives `size` vectors, and each of them stands for a valid configuration and
is accepted. -/
theorem C94_samples_valid_partial (hr : Reach calls s) (hsep : Separable calls) (hlay : WeaklyLayered calls) (hown : OwnClauses calls)
    (hoc : OwnConds calls) {lg : Scales} (hpos : PositiveLogs lg calls) {rng : Nat → Nat → RMat} (hd : NumberDraws lg calls s rng)
    {fuel size : Nat} {vs : List RVec} (hs : sample lg s rng fuel size = some vs) :
    vs.length = size ∧ ∀ v ∈ vs, check lg s v = none ∧ ∃ a, Encodes lg calls s v a ∧ ValidN calls a := by
  have hb : ∀ b w, ∃ (R : ℝ → Prop) (φ : ℝ → Rat) (m' : Mat), Keeps R φ ∧ Cover lg calls R ∧ MTwin lg calls s R φ (rng b w) m' ∧
      (∀ row ∈ m', row.length = w) ∧
      ∀ h ∈ allHps calls, ∀ i row, At s.names i h.name → m'[i]? = some row → ∀ e ∈ row, ∃ q, e = some q ∧ h.kind.legalVec q = true := by
    intro b w
    obtain ⟨hl, hrow⟩ := hd b w
    obtain ⟨R, φ, m', h1, h2, -, h4, -, h6, h7⟩ := batch_twin hr hown hoc hpos hpos hl hl
      (fun h hh => (hrow h hh _ (row_of hr hl hh)).1) (fun h hh => self_rows (lg := lg) (hrow h hh _ (row_of hr hl hh)).2)
    exact ⟨R, φ, m', h1, h2, h4, h6, h7⟩
  choose R φ rng' hφ hc hm hw hlegal using hb
  have hdraws : LegalDraws calls s rng' :=
    ⟨fun b w => ⟨(hm b w).len', hw b w⟩, fun b w => hlegal b w⟩
  unfold sample at hs
  rw [sampleLoop_eq, Option.map_eq_some_iff] at hs
  obtain ⟨acc, hacc, rfl⟩ := hs
  obtain ⟨h1, h2⟩ := loopG_mem _ _ _ _ _ _ _ hacc
  refine ⟨by rw [List.length_take]; omega, fun v hv => ?_⟩
  rcases h2 v (List.mem_of_mem_take hv) with h | ⟨b, w, hbw⟩
  · cases h
  · obtain ⟨v', hv', ht, hl⟩ := forall₂_left (sampleBatch_twin hr (hφ b w) (hc b w) (hm b w) w) v hbw
    obtain ⟨a', ha', hval⟩ := batch_valid hr hsep hlay hdraws hv'
    obtain ⟨a, e1, -, e3⟩ := common_numbers hr (hφ b w) hl hl ht ht
    have hN : ValidN calls a := (valid_twin (hφ b w) hr (hc b w) (e3 a' ha')).2 hval
    exact ⟨(C94_accepted_iff_valid_partial hr hsep hown hoc hpos e1).2 hN, a, e1, hN⟩

/-- **C94** (partial: exact arithmetic).  If the same numbers are drawn on two scales then `sample_configuration` gives the same number
of configurations after the same number of batches, and they stand for the same numbers, in the same order. -/
theorem C94_samples_same_partial (hr : Reach calls s) (hown : OwnClauses calls) (hoc : OwnConds calls) {lg lg' : Scales}
    (hpos : PositiveLogs lg calls) (hpos' : PositiveLogs lg' calls) {rng rng' : Nat → Nat → RMat} (hd : NumberDraws lg calls s rng)
    (hd' : NumberDraws lg' calls s rng') (hsame : SameDraws lg lg' calls s rng rng') (fuel size : Nat) :
    Option.Rel (List.Forall₂ (SameNumbers lg lg' calls s)) (sample lg s rng fuel size) (sample lg' s rng' fuel size) := by
  have hb : ∀ b w, List.Forall₂ (SameNumbers lg lg' calls s) (sampleBatch lg s w (rng b w)) (sampleBatch lg' s w (rng' b w)) := by
    intro b w
    obtain ⟨hl, hrow⟩ := hd b w
    obtain ⟨hl', -⟩ := hd' b w
    have hs : ∀ h ∈ allHps calls, List.Forall₂ (fun e e' => ∃ x x' y, e = some x ∧ e' = some x' ∧ Stands (lg h) h.kind x y ∧ Stands (lg' h) h.kind x' y)
        ((rng b w).getD (s.idx h.name) []) ((rng' b w).getD (s.idx h.name) []) := by
      intro h hh
      have h1 := hsame b w h hh
      have h2 := (hrow h hh _ (row_of hr hl hh)).2
      generalize (rng b w).getD (s.idx h.name) [] = r at h1 h2
      generalize (rng' b w).getD (s.idx h.name) [] = r' at h1
      clear hrow
      induction h1 with
      | nil => exact .nil
      | @cons e e' t t' he ht ih =>
        refine .cons ?_ (ih (fun e he => h2 e (by simp [he])))
        rcases he with ⟨rfl, rfl⟩ | he
        · obtain ⟨x, y, e1, -⟩ := h2 none (by simp)
          cases e1
        · exact he
    obtain ⟨R, φ, m', hφ, c1, c2, t1, t2, -, -⟩ := batch_twin hr hown hoc hpos hpos' hl hl'
      (fun h hh => (hrow h hh _ (row_of hr hl hh)).1) hs
    refine forall₂_join (sampleBatch_twin hr hφ c1 t1 w) (sampleBatch_twin hr hφ c2 t2 w) ?_
    rintro v v2 v' ⟨h1, h2⟩ ⟨h3, h4⟩
    obtain ⟨a, e1, e2, -⟩ := common_numbers hr hφ h2 h4 h1 h3
    exact ⟨a, e1, e2⟩
  unfold sample
  rw [sampleLoop_eq, sampleLoop_eq]
  have := loopG_rel hb s.batchWidth size fuel 0 size [] [] .nil
  generalize loopG _ s.batchWidth size fuel 0 size [] = r at this ⊢
  generalize loopG _ s.batchWidth size fuel 0 size [] = r' at this ⊢
  cases this with
  | none => exact .none
  | some h => exact .some (List.forall₂_take size h)

/-! ## Every valid configuration can be sampled -/

/-- Numbers have one vector. -/
theorem encodes_unique (hr : Reach calls s) {lg : Scales} {v v2 : RVec} {a : NumAssign} (h : Encodes lg calls s v a)
    (h2 : Encodes lg calls s v2 a) : v = v2 := by
  refine List.ext_getElem? (fun i => ?_)
  by_cases hi : i < s.len
  · have hlt : i < s.com.length := by rw [← (sinv_of_reach hr).len]; exact hi
    obtain ⟨k1, k2, -⟩ := F64.node_hp hr (List.getElem_mem hlt)
    have hidx : s.idx s.com[i].hp.name = i := by
      rw [k2]
      refine idx_unique (reach_ninv hr).nodup ?_
      show (s.com.map Node.name)[i]? = _
      rw [List.getElem?_map, List.getElem?_eq_getElem hlt]
      rfl
    have e1 : v.at i = v2.at i := by
      have g1 := h.2 _ k1
      have g2 := h2.2 _ k1
      rw [hidx] at g1 g2
      rcases g1 with ⟨a1, a2⟩ | ⟨x, y, a1, a2, a3⟩ <;> rcases g2 with ⟨b1, b2⟩ | ⟨x', y', b1, b2, b3⟩
      · rw [a1, b1]
      · rw [a2] at b2; cases b2
      · rw [a2] at b2; cases b2
      · rw [a2] at b2
        cases b2
        rw [a1, b1, Stands.enc a3, Stands.enc b3]
    have w1 : i < v.length := by rw [h.1]; exact hi
    have w2 : i < v2.length := by rw [h2.1]; exact hi
    unfold RVec.at at e1
    rw [List.getD_eq_getElem?_getD, List.getD_eq_getElem?_getD, List.getElem?_eq_getElem w1, List.getElem?_eq_getElem w2] at e1
    rw [List.getElem?_eq_getElem w1, List.getElem?_eq_getElem w2]
    exact congrArg some e1
  · rw [List.getElem?_eq_none (by rw [h.1]; omega), List.getElem?_eq_none (by rw [h2.1]; omega)]

theorem exactLoop_eq (s : Space) (rng : Nat → Nat → Mat) (size : Nat) : ∀ fuel b need acc,
    s.sampleLoop rng size fuel b need acc = loopG (fun b w => s.sampleBatch w (rng b w)) s.batchWidth size fuel b need acc
  | 0, b, need, acc => rfl
  | fuel + 1, b, need, acc => by simp only [Space.sampleLoop, loopG, exactLoop_eq s rng size fuel]

noncomputable section
/-- The entry that is drawn for a configuration with the vector `v`. -/
def drawnFor (lg : Scales) (s : Space) (v : RVec) (x : Node) : ℝ := (v.at (s.idx x.name)).getD (defVec lg x.hp)

/-- Always draw the same numbers. -/
def sameDraws (lg : Scales) (s : Space) (v : RVec) : Nat → Nat → RMat := fun _ w =>
  s.com.map (fun x => List.replicate w (some (drawnFor lg s v x)))
end

theorem sameDraws_row (hr : Reach calls s) {lg : Scales} {v : RVec} {b w : Nat} {h : HP} (hh : h ∈ allHps calls) :
    (sameDraws lg s v b w)[s.idx h.name]? = some (List.replicate w (some ((v.at (s.idx h.name)).getD (defVec lg h)))) := by
  obtain ⟨x, hx, e, en⟩ := com_at hr hh
  unfold sameDraws drawnFor
  rw [List.getElem?_map, hx]
  simp only [Option.map_some, e, en]

theorem stands_default (hr : Reach calls s) {lg : Scales} {h : HP} (hh : h ∈ allHps calls) :
    ∃ q : Rat, numberOf h.kind h.default = some q ∧ Stands (lg h) h.kind (defVec lg h) (q : ℝ) ∧ h.defVec = encQ h.kind q := by
  have hwf := (reach_wf hr).1 h hh
  obtain ⟨q, hq⟩ := numberOf_legal (HP.wf_legal hwf)
  obtain ⟨q', e1, e2, e3⟩ := stands_of_legal (lg := lg h) hwf (HP.wf_legal hwf) (default_whole hwf)
  have : q = q' := by
    rw [kvec_eq, hq] at e2
    exact (encQ_eq hwf).1 (Option.some.inj e2)
  subst this
  refine ⟨q, hq, ?_, ?_⟩
  · unfold defVec; rw [e1]; exact e3
  · unfold HP.defVec; rw [e2]; rfl

theorem sameDraws_numbers (hr : Reach calls s) {lg : Scales} {v : RVec} {a : NumAssign} (hv : Encodes lg calls s v a) :
    NumberDraws lg calls s (sameDraws lg s v) := by
  refine fun b w => ⟨by rw [(sinv_of_reach hr).len]; simp [sameDraws], fun h hh row hrow => ?_⟩
  rw [sameDraws_row hr hh] at hrow
  cases hrow
  refine ⟨by simp, fun e he => ?_⟩
  rw [List.mem_replicate] at he
  obtain ⟨-, rfl⟩ := he
  rcases hv.2 h hh with ⟨e1, -⟩ | ⟨x, y, e1, -, e3⟩
  · obtain ⟨q, -, q2, -⟩ := stands_default (lg := lg) hr hh
    exact ⟨_, q, rfl, by rw [e1]; exact q2⟩
  · exact ⟨_, y, rfl, by rw [e1]; exact e3⟩

theorem sameDraws_same (hr : Reach calls s) {lg lg' : Scales} {v v' : RVec} (hv : SameNumbers lg lg' calls s v v') :
    SameDraws lg lg' calls s (sameDraws lg s v) (sameDraws lg' s v') := by
  obtain ⟨a, h1, h2⟩ := hv
  intro b w h hh
  rw [List.getD_eq_getElem?_getD, List.getD_eq_getElem?_getD, sameDraws_row hr hh, sameDraws_row hr hh, Option.getD_some, Option.getD_some]
  have he : SameNumber h.kind (lg h) (lg' h) (some ((v.at (s.idx h.name)).getD (defVec lg h))) (some ((v'.at (s.idx h.name)).getD (defVec lg' h))) := by
    obtain ⟨q, q1, q2, -⟩ := stands_default (lg := lg) hr hh
    obtain ⟨q', q1', q2', -⟩ := stands_default (lg := lg') hr hh
    rw [q1] at q1'
    cases q1'
    rcases h1.2 h hh with ⟨e1, e2⟩ | ⟨x, y, e1, e2, e3⟩ <;> rcases h2.2 h hh with ⟨f1, f2⟩ | ⟨x', y', f1, f2, f3⟩
    · rw [e1, f1]; exact .inr ⟨_, _, q, rfl, rfl, q2, q2'⟩
    · rw [e2] at f2; cases f2
    · rw [e2] at f2; cases f2
    · rw [e2] at f2
      cases f2
      rw [e1, f1]
      exact .inr ⟨_, _, y, rfl, rfl, e3, f3⟩
  generalize some ((v.at (s.idx h.name)).getD (defVec lg h)) = e at he
  generalize some ((v'.at (s.idx h.name)).getD (defVec lg' h)) = e' at he
  induction w with
  | zero => exact .nil
  | succ w ih => exact .cons he ih

/-- **C94** (partial: exact arithmetic; the guards are those of C55).  On every scale, every valid configuration is returned for some
outcome of the random generator. -/
theorem C94_every_valid_can_be_sampled_partial (hr : Reach calls s) (hsep : Separable calls) (hlay : WeaklyLayered calls)
    (hown : OwnClauses calls) (hoc : OwnConds calls) {lg : Scales} (hpos : PositiveLogs lg calls) (h0 : s.len ≠ 0) {v : RVec}
    {a : NumAssign} (hv : Encodes lg calls s v a) (hval : ValidN calls a) :
    ∃ rng, NumberDraws lg calls s rng ∧ sample lg s rng 1 1 = some [v] := by
  let L : List ℝ := spaceNums calls ++ numsOf calls a ++ (allHps calls).flatMap (fun h => posNum h.kind h.default)
  obtain ⟨φ, hφ⟩ := keeps_exists L
  have hc := cover_of (R := (· ∈ L)) hpos hoc hown (fun x hx => List.mem_append_left _ (List.mem_append_left _ hx))
  obtain ⟨h1, h2, h3⟩ := twin_exists (φ := φ) hr hv (R := (· ∈ L)) (fun y hy => List.mem_append_left _ (List.mem_append_right _ hy))
  have ha := represents_asg hr h2
  have hexact := sample_preimage hr hsep hlay ha ((valid_twin hφ hr hc (h3 _ ha)).1 hval)
  generalize twinVec s φ a = t at h1 h2 h3 ha hexact
  have hlen : ∀ b w, (sameDraws lg s v b w).length = s.len := fun b w => by
    rw [(sinv_of_reach hr).len]; simp [sameDraws]
  have hm : ∀ b w, MTwin lg calls s (· ∈ L) φ (sameDraws lg s v b w) (constDraws s (preimage s t) b w) := by
    intro b w
    refine ⟨hlen b w, by simp [constDraws, ofCols], fun h hh => ?_⟩
    have hlt : s.idx h.name < s.len := idx_lt hr ((reach_isNode hr h.name).2 ⟨h, hh, rfl⟩)
    have hrow : (constDraws s (preimage s t) b w).getD (s.idx h.name) [] = List.replicate w (some ((t.at (s.idx h.name)).getD h.defVec)) := by
      unfold constDraws ofCols
      rw [List.getD_eq_getElem?_getD, List.getElem?_map, List.getElem?_range hlt]
      simp only [Option.map_some, Option.getD_some, List.map_replicate, preimage_at hr t hh]
    have he : Ent (lg h) h.kind (· ∈ L) φ (some ((v.at (s.idx h.name)).getD (defVec lg h))) (some ((t.at (s.idx h.name)).getD h.defVec)) := by
      rcases h1 h hh with ⟨e1, e2⟩ | ⟨x, y, e1, hs, hy, e2⟩
      · obtain ⟨q, q1, q2, q3⟩ := stands_default (lg := lg) hr hh
        have hq : (q : ℝ) ∈ L := List.mem_append_right _ (List.mem_flatMap.2 ⟨h, hh, by simp [posNum, q1]⟩)
        rw [e1, e2]
        exact .inr ⟨_, q, rfl, q2, hq, by rw [hφ.fix q hq, ← q3]; rfl⟩
      · rw [e1, e2]
        exact .inr ⟨x, y, rfl, hs, hy, rfl⟩
    rw [hrow, List.getD_eq_getElem?_getD, sameDraws_row hr hh, Option.getD_some]
    generalize some ((v.at (s.idx h.name)).getD (defVec lg h)) = e at he
    generalize some ((t.at (s.idx h.name)).getD h.defVec) = e' at he
    clear hrow
    induction w with
    | zero => exact .nil
    | succ w ih => exact .cons he ih
  refine ⟨sameDraws lg s v, sameDraws_numbers hr hv, ?_⟩
  · have hrel := loopG_rel (fun b w => sampleBatch_twin hr hφ hc (hm b w) w) s.batchWidth 1 1 0 1 [] [] .nil
    unfold Space.sampleConfiguration at hexact
    rw [if_neg h0] at hexact
    simp only [Option.getD_none, show ¬ ((1 : Int) < 1) by decide, if_false, show (1 : Int).toNat = 1 from rfl, le_refl, if_true,
      exactLoop_eq] at hexact
    unfold sample
    rw [sampleLoop_eq]
    generalize loopG _ s.batchWidth 1 1 0 1 [] = r at hrel ⊢
    generalize loopG _ s.batchWidth 1 1 0 1 [] = r' at hrel hexact
    cases hrel with
    | none => cases hexact
    | @some l l' h =>
      cases h with
      | nil => cases hexact
      | @cons v1 t1 l l' hh htail =>
        simp only [List.head?_cons, Option.map_some, Option.some.injEq, Sampled.one.injEq, Config.mk.injEq, and_true] at hexact
        subst hexact
        obtain ⟨b, e1, e2, -⟩ := common_numbers hr hφ hh.2 hv.1 hh.1 h1
        rw [encodes_unique hr e1 e2]
        rfl

/-! ## Sessions -/

theorem spaceNums_rat : ∀ x ∈ spaceNums calls, IsRat x := by
  have hv : ∀ (w : Val) (x : ℝ), x ∈ valNum w → IsRat x := by
    intro w x hx
    simp only [valNum, Option.mem_toList, Option.map_eq_some_iff] at hx
    obtain ⟨q, -, rfl⟩ := hx
    exact ⟨q, rfl⟩
  have hp : ∀ (k : Kind) (w : Val) (x : ℝ), x ∈ posNum k w → IsRat x := by
    intro k w x hx
    simp only [posNum, Option.mem_toList, Option.map_eq_some_iff] at hx
    obtain ⟨q, -, rfl⟩ := hx
    exact ⟨q, rfl⟩
  intro x hx
  simp only [spaceNums, List.mem_append, List.mem_flatMap] at hx
  rcases hx with (⟨h, -, hx⟩ | ⟨c, -, l, -, w, -, hx⟩) | ⟨f, -, p, -, hx⟩
  · cases hk : h.kind with
    | int l u =>
      rw [hk] at hx
      simp only [kindNums, List.mem_cons, List.not_mem_nil, or_false] at hx
      rcases hx with rfl | rfl
      · exact ⟨l, by simp⟩
      · exact ⟨u, by simp⟩
    | flt l u =>
      rw [hk] at hx
      simp only [kindNums, List.mem_cons, List.not_mem_nil, or_false] at hx
      rcases hx with rfl | rfl
      · exact ⟨l, rfl⟩
      · exact ⟨u, rfl⟩
    | cat cs =>
      rw [hk] at hx
      simp only [kindNums, List.mem_flatMap] at hx
      obtain ⟨w, -, hx⟩ := hx
      exact hv w x hx
    | ord cs =>
      rw [hk] at hx
      simp only [kindNums, List.mem_flatMap] at hx
      obtain ⟨w, -, hx⟩ := hx
      exact hv w x hx
    | const c =>
      rw [hk] at hx
      exact hv c x hx
  · exact hp _ _ x hx
  · exact hp _ _ x hx

/-- **C94** (partial: exact arithmetic; values for integer ranges must be whole numbers).  Create a configuration from values, then read
and assign in any order: on every scale the user sees the same values and the same errors as on linear scales. -/
theorem C94_sessions_same_partial (hr : Reach calls s) (hown : OwnClauses calls) (hoc : OwnConds calls) {lg : Scales}
    (hpos : PositiveLogs lg calls) {d : Dict} (hd : WholeDict calls d) {steps : List Step} (hst : WholeSteps calls steps) (allow : Bool) :
    scaledSession lg s d allow steps = exactSession s d allow steps := by
  obtain ⟨φ, hφ⟩ := keeps_rat
  have hc := cover_of (R := IsRat) hpos hoc hown spaceNums_rat
  obtain ⟨h1, h2⟩ := ofValues_twin hr hφ hc hd allow
  unfold scaledSession exactSession
  cases hv : Config.ofValues s d allow with
  | error e => rw [h1 e hv]; rfl
  | ok c' =>
    obtain ⟨c, e, ht⟩ := h2 c' hv
    rw [e]
    simp only [Except.map, session_twin hr hφ hc ht hst]

/-- **C94.**  On every scale the default configuration exists, is accepted and has the values that it has on linear scales. -/
theorem C94_default_partial (hr : Reach calls s) (hown : OwnClauses calls) (hoc : OwnConds calls) {lg : Scales}
    (hpos : PositiveLogs lg calls) : ∃ c c', defaultConfig lg s = .ok c ∧ s.defaultConfig = .ok c' ∧ c.vals = c'.vals ∧
      check lg s c.vec = none ∧ ∀ n, (getItem lg s c n).1 = (c'.getItem s n).1 := by
  obtain ⟨φ, hφ⟩ := keeps_rat
  have hc := cover_of (R := IsRat) hpos hoc hown spaceNums_rat
  obtain ⟨c', hc', hchk, -⟩ := C20_default_configuration hr
  unfold Space.defaultConfig at hc'
  cases hdv : defaultValues s.dag.nodes [] with
  | error e => rw [hdv] at hc'; cases hc'
  | ok d =>
    rw [hdv] at hc'
    have hd : WholeDict calls d := by
      intro h hh w hw
      rcases defaultValues_mem hdv _ _ hw with h1 | ⟨y, hy, e2, he⟩
      · simp at h1
      · rw [(sinv_of_reach hr).com] at hy
        obtain ⟨k1, k2, -⟩ := F64.node_hp hr hy
        have : y.hp = h := reach_hp_inj hr _ k1 _ hh (k2.trans e2)
        rw [he, this]
        exact default_whole ((reach_wf hr).1 h hh)
    obtain ⟨c, e, ht⟩ := (ofValues_twin hr hφ hc hd false).2 c' hc'
    refine ⟨c, c', ?_, ?_, ht.vals, ?_, fun n => (getItem_twin hr hφ hc ht n).1⟩
    · unfold defaultConfig; rw [hdv]; exact e
    · unfold Space.defaultConfig; rw [hdv]; exact hc'
    · rw [check_twin hr hφ hc ht.vec]; exact hchk

/-! ## Examples -/

namespace ExL

/-- An optimiser with a learning rate between `0.001` and `1` and, if the rate is above `0.01`, a number of layers between `1` and `64`;
both numbers have a logarithmic scale. -/
def hpOpt : HP := ⟨"opt", .cat [.str "adam", .str "sgd"], .str "adam"⟩
def hpLr : HP := ⟨"lr", .flt (1 / 1000) 1, .flt (1 / 10)⟩
def hpN : HP := ⟨"n", .int 1 64, .int 8⟩
def litN : Lit := ⟨hpN, hpLr, .bin .gt (.flt (1 / 100)) (1 / 111)⟩
def forbS : Forb := .and [.eq hpOpt (.str "sgd") 1, .eq hpN (.int 4) (1 / 21)]
def forbL : Forb := .rel .eq hpLr hpN
def call : Call := ⟨[hpOpt, hpLr, hpN], [.lit litN], [forbS, forbL]⟩
def sp : Space := Ex.committed {} call

theorem reach : Reach [call] sp :=
  Reach.snoc (calls := []) .nil (by decide +kernel)
    (Ex.add_of_stages [("lr", some (.flt (1 / 10))), ("opt", some (.str "adam")), ("n", some (.int 8))] [some (11 / 111), some 0, some (1 / 9)]
      [("lr", .flt (1 / 10)), ("opt", .str "adam"), ("n", .int 8)] (by decide +kernel) (by decide +kernel) (by decide +kernel)
      (by decide +kernel) (by decide +kernel) (by decide +kernel))

def lg : Scales := fun h => decide (h.name = "lr" ∨ h.name = "n")

theorem pos : PositiveLogs lg [call] := by
  intro h hh
  simp only [allHps, call, List.flatMap_cons, List.flatMap_nil, List.append_nil, List.mem_cons, List.not_mem_nil, or_false] at hh
  rcases hh with rfl | rfl | rfl
  · intro _; trivial
  · intro _; show (0 : Rat) < 1 / 1000; norm_num
  · intro _; show (0 : Int) < 1; norm_num

theorem linear : PositiveLogs (fun _ => false) [call] := fun _ _ h => by cases h

theorem own : OwnClauses [call] := by
  intro f hf h hh
  simp only [allForbs, List.flatMap_cons, List.flatMap_nil, List.append_nil, call, List.mem_cons, List.not_mem_nil, or_false] at hf
  rcases hf with rfl | rfl <;> revert h <;> decide +kernel

theorem ownC : OwnConds [call] := by
  intro c hc l hl
  simp only [allConds, List.flatMap_cons, List.flatMap_nil, List.append_nil, call, List.mem_cons, List.not_mem_nil, or_false] at hc
  subst hc
  simp only [Cond.dlcs, List.mem_singleton] at hl
  subst hl
  decide +kernel

theorem sep : Separable [call] := by
  intro c hc d hd _ a
  simp only [allConds, List.flatMap_cons, List.flatMap_nil, List.append_nil, call, List.mem_cons, List.not_mem_nil, or_false] at hc hd
  subst hc; subst hd
  exact Iff.rfl

theorem weakly : WeaklyLayered [call] := weaklyLayered_of_check reach (by decide +kernel)

/-- The numbers `lr = sqrt 2 / 2`, `opt = "sgd"`, `n = 16`. -/
noncomputable def nums : NumAssign := fun m =>
  if m = "lr" then some (Real.sqrt 2 / 2) else if m = "opt" then some 1 else if m = "n" then some 16 else none

/-- Their vector on given scales. -/
noncomputable def vecOf (lg : Scales) : RVec :=
  [some (onScale (lg hpLr) (1 / 1000 : Rat) (1 : Rat) (Real.sqrt 2 / 2)), some 1, some (onScale (lg hpN) (1 : Int) (64 : Int) 16)]

theorem encodes (lg : Scales) : Encodes lg [call] sp (vecOf lg) nums := by
  have hi : sp.idx "lr" = 0 ∧ sp.idx "opt" = 1 ∧ sp.idx "n" = 2 ∧ sp.len = 3 := by decide +kernel
  obtain ⟨i1, i2, i3, i4⟩ := hi
  refine ⟨by rw [i4]; rfl, fun h hh => .inr ?_⟩
  simp only [allHps, call, List.flatMap_cons, List.flatMap_nil, List.append_nil, List.mem_cons, List.not_mem_nil, or_false] at hh
  rcases hh with rfl | rfl | rfl
  · refine ⟨1, 1, ?_, rfl, ⟨1, by decide, by norm_num⟩, rfl⟩
    show (vecOf lg).at (sp.idx "opt") = _
    rw [i2]; rfl
  · refine ⟨_, _, ?_, rfl, ⟨?_, ?_⟩, rfl⟩
    · show (vecOf lg).at (sp.idx "lr") = _
      rw [i1]; rfl
    · have : (0 : ℝ) ≤ Real.sqrt 2 := Real.sqrt_nonneg 2
      have h1 : (1 : ℝ) ≤ Real.sqrt 2 := Real.one_le_sqrt.2 (by norm_num)
      push_cast
      linarith
    · have h1 : Real.sqrt 2 ≤ 2 := by
        rw [Real.sqrt_le_left (by norm_num)]; norm_num
      push_cast
      linarith
  · refine ⟨_, _, ?_, rfl, ⟨16, by norm_num, by norm_num, by norm_num⟩, rfl⟩
    show (vecOf lg).at (sp.idx "n") = _
    rw [i3]; rfl

theorem holds : HoldsN nums (.lit litN) := by
  refine .lit ⟨1 / 100, Real.sqrt 2 / 2, rfl, rfl, ?_⟩
  have h1 : (1 : ℝ) ≤ Real.sqrt 2 := Real.one_le_sqrt.2 (by norm_num)
  push_cast
  linarith

theorem valid : ValidN [call] nums where
  roots := by
    rintro n ⟨h, hh, rfl⟩ hc
    simp only [allHps, call, List.flatMap_cons, List.flatMap_nil, List.append_nil, List.mem_cons, List.not_mem_nil, or_false] at hh
    rcases hh with rfl | rfl | rfl
    · exact ⟨1, rfl⟩
    · exact ⟨_, rfl⟩
    · exact ⟨16, rfl⟩
  active := by
    intro c hc n hn
    simp only [allConds, List.flatMap_cons, List.flatMap_nil, List.append_nil, call, List.mem_cons, List.not_mem_nil, or_false] at hc
    subst hc
    have : some "n" = some n := hn
    cases this
    exact iff_of_true ⟨16, rfl⟩ holds
  allowed := by
    intro f hf
    simp only [allForbs, List.flatMap_cons, List.flatMap_nil, List.append_nil, call, List.mem_cons, List.not_mem_nil, or_false] at hf
    rcases hf with rfl | rfl
    · intro h
      cases h with
      | and h =>
        have h1 := h (.eq hpN (.int 4) (1 / 21)) (by simp)
        cases h1 with
        | eq h2 h3 =>
          have e : (4 : Rat) = _ := Option.some.inj h2
          subst e
          have : (16 : ℝ) = ((4 : Rat) : ℝ) := Option.some.inj h3
          norm_num at this
    · intro h
      cases h with
      | rel h1 h2 h3 h4 h5 =>
        cases h1; cases h2
        have e3 : _ = Shown.num _ := h3
        have e4 : _ = Shown.num _ := h4
        subst e3; subst e4
        have h6 : Real.sqrt 2 / 2 = 16 := h5
        have h7 : Real.sqrt 2 ≤ 2 := by rw [Real.sqrt_le_left (by norm_num)]; norm_num
        linarith

end ExL

/-- The example meets the hypotheses of `C94_accepted_iff_valid_partial`, on logarithmic and on linear scales. -/
example : check ExL.lg ExL.sp (ExL.vecOf ExL.lg) = none ∧ check (fun _ => false) ExL.sp (ExL.vecOf (fun _ => false)) = none :=
  ⟨(C94_accepted_iff_valid_partial ExL.reach ExL.sep ExL.own ExL.ownC ExL.pos (ExL.encodes _)).2 ExL.valid,
    (C94_accepted_iff_valid_partial ExL.reach ExL.sep ExL.own ExL.ownC ExL.linear (ExL.encodes _)).2 ExL.valid⟩

/-- The two vectors are different. -/
example : ExL.vecOf ExL.lg ≠ ExL.vecOf (fun _ => false) := by
  intro h
  simp only [ExL.vecOf, List.cons.injEq, Option.some.injEq] at h
  obtain ⟨-, -, h, -⟩ := h
  simp only [ExL.lg, ExL.hpN, onScale] at h
  norm_num at h
  have e1 : Real.log 16 = 4 * Real.log 2 := by
    rw [show (16 : ℝ) = 2 ^ 4 by norm_num, Real.log_pow]; norm_num
  have e2 : Real.log 64 = 6 * Real.log 2 := by
    rw [show (64 : ℝ) = 2 ^ 6 by norm_num, Real.log_pow]; norm_num
  have h2 : Real.log 2 ≠ 0 := (Real.log_pos (by norm_num)).ne'
  rw [e1, e2] at h
  field_simp at h
  norm_num at h

/-- The example meets the hypotheses of `C94_scales_agree_partial`. -/
example (al : Bool) : checkRigorous ExL.lg ExL.sp (ExL.vecOf ExL.lg) al = checkRigorous (fun _ => false) ExL.sp (ExL.vecOf (fun _ => false)) al :=
  (C94_scales_agree_partial ExL.reach ExL.own ExL.ownC ExL.pos ExL.linear ⟨_, ExL.encodes _, ExL.encodes _⟩ al).2.1

/-- The example meets the hypotheses of `C94_every_valid_can_be_sampled_partial` and of `C94_samples_valid_partial`. -/
example : ∃ rng, NumberDraws ExL.lg [ExL.call] ExL.sp rng ∧ sample ExL.lg ExL.sp rng 1 1 = some [ExL.vecOf ExL.lg] ∧
    check ExL.lg ExL.sp (ExL.vecOf ExL.lg) = none := by
  obtain ⟨rng, h1, h2⟩ := C94_every_valid_can_be_sampled_partial ExL.reach ExL.sep ExL.weakly ExL.own ExL.ownC ExL.pos (by decide +kernel)
    (ExL.encodes _) ExL.valid
  exact ⟨rng, h1, h2, ((C94_samples_valid_partial ExL.reach ExL.sep ExL.weakly ExL.own ExL.ownC ExL.pos h1 h2).2 _ (by simp)).1⟩

/-- The example meets the hypotheses of `C94_samples_same_partial`. -/
example (fuel size : Nat) : Option.Rel (List.Forall₂ (SameNumbers ExL.lg (fun _ => false) [ExL.call] ExL.sp))
    (sample ExL.lg ExL.sp (sameDraws ExL.lg ExL.sp (ExL.vecOf ExL.lg)) fuel size)
    (sample (fun _ => false) ExL.sp (sameDraws (fun _ => false) ExL.sp (ExL.vecOf (fun _ => false))) fuel size) :=
  C94_samples_same_partial ExL.reach ExL.own ExL.ownC ExL.pos ExL.linear (sameDraws_numbers ExL.reach (ExL.encodes _))
    (sameDraws_numbers ExL.reach (ExL.encodes _)) (sameDraws_same ExL.reach ⟨_, ExL.encodes _, ExL.encodes _⟩) fuel size

/-- The example meets the hypotheses of `C94_default_partial`. -/
example : ∃ c, defaultConfig ExL.lg ExL.sp = .ok c ∧ check ExL.lg ExL.sp c.vec = none := by
  obtain ⟨c, -, h1, -, -, h2, -⟩ := C94_default_partial ExL.reach ExL.own ExL.ownC ExL.pos
  exact ⟨c, h1, h2⟩

/-- The example meets the hypotheses of `C94_sessions_same_partial`: assigning `n = 4` for `opt = "sgd"` is forbidden, and
`lr = 0.005` unsets `n`. -/
example : scaledSession ExL.lg ExL.sp [("opt", some (.str "sgd")), ("lr", some (.flt (1 / 2))), ("n", some (.int 3))] false
    [.set "n" (.int 4), .get "n", .set "lr" (.flt (1 / 200)), .get "n", .get "lr"] =
    .ok [.done (some .forbidden), .read "n" (.ok (.int 3)), .done none, .read "n" (.error .keyError), .read "lr" (.ok (.flt (1 / 200)))] := by
  rw [C94_sessions_same_partial ExL.reach ExL.own ExL.ownC ExL.pos ?_ ?_]
  · with_unfolding_all rfl
  · intro h hh w hw
    simp only [allHps, ExL.call, List.flatMap_cons, List.flatMap_nil, List.append_nil, List.mem_cons, List.not_mem_nil, or_false] at hh
    rcases hh with rfl | rfl | rfl
    · trivial
    · trivial
    · cases hw
      intro q hq
      cases hq
      exact ⟨3, rfl⟩
  · intro n w hw h hh hn
    simp only [allHps, ExL.call, List.flatMap_cons, List.flatMap_nil, List.append_nil, List.mem_cons, List.not_mem_nil, or_false] at hh
    rcases hh with rfl | rfl | rfl
    · trivial
    · trivial
    · simp only [List.mem_cons, Step.set.injEq, reduceCtorEq, List.not_mem_nil, or_false, false_or] at hw
      rcases hw with ⟨-, rfl⟩ | ⟨rfl, rfl⟩
      · intro q hq
        cases hq
        exact ⟨4, rfl⟩
      · exact absurd hn (by decide)

/-! ## Integers that are not quite whole -/

namespace ExL

def hpM : HP := ⟨"m", .int 49 60, .int 50⟩
def callM : Call := ⟨[hpOpt, hpM], [.lit ⟨hpM, hpOpt, .bin .eq (.str "adam") 0⟩], []⟩
def spM : Space := Ex.committed {} callM

theorem reachM : Reach [callM] spM :=
  Reach.snoc (calls := []) .nil (by decide +kernel)
    (Ex.add_of_stages [("opt", some (.str "adam")), ("m", some (.int 50))] [some 0, some (1 / 11)]
      [("opt", .str "adam"), ("m", .int 50)] (by decide +kernel) (by decide +kernel) (by decide +kernel)
      (by decide +kernel) (by decide +kernel) (by decide +kernel))

/-- `m = 50.0004` is a legal value. -/
def valsM : Dict := [("opt", some (.str "adam")), ("m", some (.flt (500004 / 10000)))]

end ExL

/-- **C94 is false of the code for integers that are not quite whole.**  `50.0004` is close enough to an integer to be a legal value of an
integer range.  With a logarithmic scale the configuration is created; with a linear scale it is rejected, since there the distance is
measured from the lower bound. -/
theorem C94_almost_whole : ∃ (calls : List Call) (s : Space) (lg : Scales) (d : Dict), Reach calls s ∧ PositiveLogs lg calls ∧
    OwnClauses calls ∧ OwnConds calls ∧ (∀ h ∈ allHps calls, ∀ w, d.lookup h.name = some (some w) → h.kind.legalValue w = true) ∧
    exactSession s d false [.get "m"] = .error (.illegalVector "m") ∧
    scaledSession lg s d false [.get "m"] = .ok [.read "m" (.ok (.flt (500004 / 10000)))] := by
  refine ⟨[ExL.callM], ExL.spM, fun h => decide (h.name = "m"), ExL.valsM, ExL.reachM, ?_, ?_, ?_, ?_, ?_, ?_⟩
  · intro h hh
    simp only [allHps, ExL.callM, List.flatMap_cons, List.flatMap_nil, List.append_nil, List.mem_cons, List.not_mem_nil, or_false] at hh
    rcases hh with rfl | rfl
    · intro _; trivial
    · intro _; show (0 : Int) < 49; norm_num
  · intro f hf; simp [allForbs, ExL.callM] at hf
  · intro c hc l hl
    simp only [allConds, List.flatMap_cons, List.flatMap_nil, List.append_nil, ExL.callM, List.mem_cons, List.not_mem_nil, or_false] at hc
    subst hc
    simp only [Cond.dlcs, List.mem_singleton] at hl
    subst hl
    decide +kernel
  · intro h hh
    simp only [allHps, ExL.callM, List.flatMap_cons, List.flatMap_nil, List.append_nil, List.mem_cons, List.not_mem_nil, or_false] at hh
    rcases hh with rfl | rfl <;> intro w hw <;> cases hw <;> decide +kernel
  · with_unfolding_all rfl
  · have hfill : fillValues (fun h => decide (h.name = "m")) ExL.spM ExL.valsM ExL.spM.dag.nodes (List.replicate ExL.spM.len none) [] =
        .ok ([some ((0 : Rat) : ℝ), some (toVecLog (49 : Int) (60 : Int) ((500004 / 10000 : Rat) : ℝ))],
          [("opt", .str "adam"), ("m", .flt (500004 / 10000))]) := by with_unfolding_all rfl
    have hroots : ExL.spM.dag.roots = ["opt"] := by decide +kernel
    have hmin : ExL.spM.minConds.map (fun c => (c.cond, c.kids)) = [(.lit ⟨ExL.hpM, ExL.hpOpt, .bin .eq (.str "adam") 0⟩, ["m"])] := by
      with_unfolding_all rfl
    have hidx : ExL.spM.idx "opt" = 0 ∧ ExL.spM.idx "m" = 1 := by decide +kernel
    have hhp : ExL.spM.hp? "m" = some ExL.hpM := by decide +kernel
    have hfast : fast (fun h => decide (h.name = "m")) ExL.spM = [] := by with_unfolding_all rfl
    have hany : ExL.valsM.any (fun kv => decide (kv.1 ∉ ExL.spM.dag.nodes.map Node.name) && kv.1 != "") = false := by decide +kernel
    obtain ⟨c, hc, e⟩ : ∃ c, ExL.spM.minConds = [c] ∧ c.cond = .lit ⟨ExL.hpM, ExL.hpOpt, .bin .eq (.str "adam") 0⟩ ∧ c.kids = ["m"] := by
      cases hm : ExL.spM.minConds with
      | nil => rw [hm] at hmin; cases hmin
      | cons c cs =>
        rw [hm] at hmin
        simp only [List.map_cons, List.cons.injEq, List.map_eq_nil_iff, Prod.mk.injEq] at hmin
        exact ⟨c, by rw [hmin.2], hmin.1⟩
    have hlegal : legalVec true ExL.hpM.kind (toVecLog (49 : Int) (60 : Int) ((500004 / 10000 : Rat) : ℝ)) := by
      show legalIntK 49 60 (unsafeLog _ _ (toVecLog _ _ _))
      rw [(C31_log (by norm_num) (by norm_num)).1 _ (by norm_num)]
      unfold legalIntK closeToIntK
      rw [rintK_cast, show rintK (500004 / 10000 : Rat) = 50 by decide +kernel]
      refine ⟨by norm_num, by norm_num, ?_⟩
      push_cast
      rw [abs_of_pos (by norm_num), abs_of_pos (by norm_num)]
      norm_num
    have hcheck : check (fun h => decide (h.name = "m")) ExL.spM [some ((0 : Rat) : ℝ), some (toVecLog (49 : Int) (60 : Int) ((500004 / 10000 : Rat) : ℝ))] = none := by
      unfold check
      rw [hroots, hc, hfast]
      have hsat : satVec (fun h => decide (h.name = "m")) ExL.spM.idx [some ((0 : Rat) : ℝ), some (toVecLog (49 : Int) (60 : Int) ((500004 / 10000 : Rat) : ℝ))] c.cond = true := by
        rw [e.1]
        simp only [satVec, onEntryB, onEntry, ExL.hpOpt, hidx.1, RVec.at]
        exact @decide_eq_true _ (_) ⟨rfl, rfl⟩
      have hat : legalAt (fun h => decide (h.name = "m")) ExL.spM [some ((0 : Rat) : ℝ), some (toVecLog (49 : Int) (60 : Int) ((500004 / 10000 : Rat) : ℝ))] "m" = true := by
        unfold legalAt
        rw [hhp, hidx.2]
        exact @decide_eq_true _ (_) hlegal
      generalize ((0 : Rat) : ℝ) = x at hsat hat ⊢
      generalize toVecLog (49 : Int) (60 : Int) ((500004 / 10000 : Rat) : ℝ) = y at hsat hat ⊢
      simp [firstWith, checkConds, hsat, e.2, hidx.1, hidx.2, hat, RVec.at]
    unfold scaledSession ofValues
    rw [hany, hfill]
    simp only [hcheck]
    with_unfolding_all rfl

/-- **C94, reading numbers.**  Whatever number stands in a vector at the place of a float range, and whatever the scale of that range, the value
that is read from it is a number between the bounds; bounds included, an entry beyond an end is read as that end. -/
theorem C94_value_in_bounds (lg : Bool) {l u : Rat} (hlu : l ≤ u) (x : ℝ) : ∃ r : ℝ, toVal lg (.flt l u) x = some (.num r) ∧
    (l : ℝ) ≤ r ∧ r ≤ (u : ℝ) ∧ (unsafeVal lg (.flt l u) x < l → r = l) ∧ ((u : ℝ) < unsafeVal lg (.flt l u) x → r = u) := by
  have hlu' : (l : ℝ) ≤ (u : ℝ) := by exact_mod_cast hlu
  refine ⟨_, rfl, (clip_mem hlu').1, (clip_mem hlu').2, ?_, ?_⟩
  · intro h
    unfold clip
    rw [if_pos h]
  · intro h
    unfold clip
    rw [if_neg (not_lt.2 (hlu'.trans h.le)), if_pos h]

/-- Non-vacuity: on a linear scale from 1 to 3 the entry 1.5 stands for 4, which is beyond the upper bound; it is read as 3. -/
example : toVal false (.flt 1 3) (3 / 2) = some (.num ((3 : Rat) : ℝ)) := by
  obtain ⟨r, hr, -, -, -, hu⟩ := C94_value_in_bounds false (l := 1) (u := 3) (by norm_num) (3 / 2)
  rw [hr, hu (by simp only [unsafeVal, scale]; norm_num)]

end Verif.Scaled
