import Verif.Spec.Fair
import Verif.Lemmas.Draws
import Verif.Lemmas.ScaledSample
import Verif.Lemmas.Select

/-!
# Lemmas: the sampler with random draws
-/

set_option autoImplicit false

namespace Verif.Fair
open Verif Verif.Spec Verif.Scaled MeasureTheory ProbabilityTheory

variable {calls : List Call} {s : Space}

/-! ## One draw -/

/-- A draw passes both filters of the sampler. -/
def okCol (s : Space) (u : Vec) : Bool :=
  !(s.dag.uncond.any (fun f => f.onVec s.idx u)) && !(s.dag.condF.any (fun f => f.onVec s.idx (maskCol s u)))

theorem okCol_iff {u : Vec} : okCol s u = true ↔ (∀ f ∈ s.dag.uncond, ¬ Forbids (asg s.idx u) f) ∧
    ∀ f ∈ s.dag.condF, ¬ Forbids (asg s.idx (maskCol s u)) f := by
  unfold okCol
  rw [Bool.and_eq_true, Bool.not_eq_true', Bool.not_eq_true', ← Bool.not_eq_true, ← Bool.not_eq_true, forb_any_iff, forb_any_iff]
  push Not
  rfl

theorem legalDraw_at (h : Reach calls s) {u : Vec} (hu : LegalDraw calls s u) :
    ∀ x ∈ allHps calls, ∃ q, u.at (s.idx x.name) = some q ∧ x.kind.legalVec q = true := fun x hx =>
  hu.2 x hx _ ((C02_names_index_bijection h).2.2.2.2.1 _ ((reach_isNode h x.name).2 ⟨x, hx, rfl⟩))

/-- What an accepted draw is turned into: the one valid configuration that it shows. -/
theorem made_iff (h : Reach calls s) (hsep : Separable calls) (hw : WeaklyLayered calls) {u : Vec} (hu : LegalDraw calls s u) {v : Vec} :
    (okCol s u = true ∧ maskCol s u = v) ↔ IsValidVec calls s v ∧ Shows u v := by
  have hi := sinv_of_reach h
  constructor
  · rintro ⟨h1, rfl⟩
    obtain ⟨k1, k2⟩ := okCol_iff.1 h1
    have hd := constDraws_legal h (legalDraw_at h hu)
    have hrect : Rect (constDraws s u 0 1) 1 := fun row hr => (hd.1 0 1).2 row hr
    refine ⟨batch_valid h hsep hw hd (b := 0) (w := 1) ((batch_mem h hrect (hd.1 0 1).1).2 ⟨u, ?_, rfl, k1, k2⟩), ?_⟩
    · have := cols_ofCols (n := s.len) (vs := List.replicate 1 u) (by simpa using hu.1)
      show u ∈ Mat.cols 1 (ofCols s.len (List.replicate 1 u))
      rw [List.length_replicate] at this
      rw [this]
      simp
    · refine ⟨by rw [maskCol_length], fun i q hq => ?_⟩
      rcases maskFold_unsets h s.minConds u (fun _ hc => hc) i with k | ⟨k, -⟩
      · rw [← k]; exact hq
      · rw [show (maskCol s u).at i = none from k] at hq
        cases hq
  · rintro ⟨⟨a, hv, hval⟩, hl, hs⟩
    have hmask : maskCol s u = v := by
      refine groups_unique h (u := u) (by rw [maskCol_length, hu.1]) hv.1 ?_ (fun c hc m hm => maskCol_group h hw _ hc hm) ?_
      · rintro n ⟨x, hx, rfl⟩ hc
        have hxn := (reach_isNode h x.name).2 ⟨x, hx, rfl⟩
        obtain ⟨q, hq⟩ := hval.roots _ ⟨x, hx, rfl⟩ hc
        rw [maskCol_root h hxn hc, at_idx hv hxn, hq]
        exact hs _ _ (by rw [at_idx hv hxn, hq])
      · intro c hc m hm
        obtain ⟨i, hci⟩ := List.getElem?_of_mem hc
        have := (activity_iff h hsep hv).1 hval.active i c hci m hm
        cases hsat : c.cond.satVec s.idx v with
        | false =>
          rw [hsat] at this
          rw [if_neg (by simp)]
          simpa using this
        | true =>
          rw [hsat, Option.isSome_iff_exists] at this
          obtain ⟨q, hq⟩ := this
          rw [if_pos rfl, hq, hs _ _ hq]
    refine ⟨okCol_iff.2 ⟨fun f hf => ?_, fun f hf => ?_⟩, hmask⟩
    · rw [← uncond_mask h hf, hmask, forbids_represents h hv (hi.hist.forbs.mem_iff.1 (List.mem_append.2 (.inl hf)))]
      exact hval.allowed f (hi.hist.forbs.mem_iff.1 (List.mem_append.2 (.inl hf)))
    · rw [hmask, forbids_represents h hv (hi.hist.forbs.mem_iff.1 (List.mem_append.2 (.inr hf)))]
      exact hval.allowed f (hi.hist.forbs.mem_iff.1 (List.mem_append.2 (.inr hf)))

/-! ## The positions of the accepted draws -/

/-- The accepted draws of a batch. -/
def posBatch (π : Nat × Nat → Bool) (b w : Nat) : List (Nat × Nat) := ((List.range w).map (fun j => (b, j))).filter π

theorem matrixOf_draws {t : Nat × Nat → Vec} : Draws s (matrixOf s t) := by
  refine fun b w => ⟨by simp [matrixOf], fun row hr => ?_⟩
  simp only [matrixOf, List.mem_map] at hr
  obtain ⟨i, -, rfl⟩ := hr
  simp

theorem drawAt_matrixOf {t : Nat × Nat → Vec} (ht : ∀ p, (t p).length = s.len) {b w j : Nat} (hj : j < w) :
    drawAt (matrixOf s t) b w j = t (b, j) := by
  refine vec_ext (n := s.len) (by simp [drawAt, matrixOf]) (ht _) (fun i hi => ?_)
  simp [drawAt, matrixOf, Vec.at, hi, hj]

theorem sampleBatch_matrixOf (h : Reach calls s) {t : Nat × Nat → Vec} (ht : ∀ p, (t p).length = s.len) (b w : Nat) :
    s.sampleBatch w (matrixOf s t b w) = (posBatch (fun p => okCol s (t p)) b w).map (fun p => maskCol s (t p)) := by
  rw [batch_draws h matrixOf_draws, posBatch, List.filter_map, List.map_map]
  have e : ∀ j ∈ List.range w, drawAt (matrixOf s t) b w j = t (b, j) := fun j hj => drawAt_matrixOf ht (List.mem_range.1 hj)
  rw [List.filter_congr (q := (fun p => okCol s (t p)) ∘ fun j => (b, j)) (fun j hj => by
    simp only [drawOk, Function.comp_apply, okCol, e j hj])]
  exact List.map_congr_left (fun j hj => by simp only [Function.comp_apply, e j (List.mem_filter.1 hj).1])

theorem loopG_map {α β : Type} (f : α → β) (B : Nat → Nat → List α) (width : Nat → Nat) (size : Nat) : ∀ fuel b need acc,
    loopG (fun b w => (B b w).map f) width size fuel b need (acc.map f) = (loopG B width size fuel b need acc).map (List.map f)
  | 0, b, need, acc => by
    simp only [loopG, List.length_map]
    split <;> rfl
  | fuel + 1, b, need, acc => by
    simp only [loopG, List.length_map]
    split
    · rfl
    · rw [← List.map_append, loopG_map f B width size fuel, List.length_map]

/-- The positions of the draws that the loop collects. -/
def positions (s : Space) (n fuel : Nat) (π : Nat × Nat → Bool) : Option (List (Nat × Nat)) :=
  loopG (posBatch π) s.batchWidth n fuel 0 n []

theorem loop_eq_loopG (s : Space) (rng : Nat → Nat → Mat) (size : Nat) : ∀ fuel b need acc,
    s.sampleLoop rng size fuel b need acc = loopG (fun b w => s.sampleBatch w (rng b w)) s.batchWidth size fuel b need acc
  | 0, b, need, acc => rfl
  | fuel + 1, b, need, acc => by simp only [Space.sampleLoop, loopG, loop_eq_loopG s rng size fuel]

theorem sampleLoop_positions (h : Reach calls s) {t : Nat × Nat → Vec} (ht : ∀ p, (t p).length = s.len) (n fuel : Nat) :
    s.sampleLoop (matrixOf s t) n fuel 0 n [] =
      (positions s n fuel (fun p => okCol s (t p))).map (List.map (fun p => maskCol s (t p))) := by
  rw [loop_eq_loopG, positions, ← loopG_map]
  simp only [sampleBatch_matrixOf h ht, List.map_nil]

/-- A bound for the widths of all batches. -/
def maxWidth (s : Space) (n : Nat) : Nat := (Finset.range (n + 1)).sup s.batchWidth

theorem width_le {n need : Nat} (h : need ≤ n) : s.batchWidth need ≤ maxWidth s n :=
  Finset.le_sup (f := s.batchWidth) (Finset.mem_range.2 (by omega))

theorem loop_congr {π π' : Nat × Nat → Bool} {width : Nat → Nat} {size W : Nat} (hW : ∀ need ≤ size, width need ≤ W) : ∀ fuel b need acc,
    need ≤ size → (∀ p : Nat × Nat, p.1 < b + fuel → p.2 < W → π p = π' p) →
    loopG (posBatch π) width size fuel b need acc = loopG (posBatch π') width size fuel b need acc
  | 0, b, need, acc, _, _ => rfl
  | fuel + 1, b, need, acc, hn, hp => by
    have e : posBatch π b (width need) = posBatch π' b (width need) := by
      refine List.filter_congr (fun p hm => ?_)
      obtain ⟨j, hj, rfl⟩ := List.mem_map.1 hm
      have := hW need hn
      have hj := List.mem_range.1 hj
      exact hp _ (by simp) (by simp; omega)
    simp only [loopG, e]
    split
    · rfl
    · exact loop_congr hW fuel _ _ _ (by omega) (fun p h1 h2 => hp p (by omega) h2)

theorem loop_members {π : Nat × Nat → Bool} {width : Nat → Nat} {size W : Nat} (hW : ∀ need ≤ size, width need ≤ W) : ∀ fuel b need acc r,
    need ≤ size → acc.Nodup → (∀ p ∈ acc, p.1 < b) → loopG (posBatch π) width size fuel b need acc = some r →
    size ≤ r.length ∧ r.Nodup ∧ ∀ p ∈ r, p ∈ acc ∨ (p.1 < b + fuel ∧ p.2 < W ∧ π p = true)
  | 0, b, need, acc, r, _, hd, _, hr => by
    simp only [loopG] at hr
    split at hr
    · cases hr; exact ⟨by assumption, hd, fun p hp => .inl hp⟩
    · cases hr
  | fuel + 1, b, need, acc, r, hn, hd, hb, hr => by
    simp only [loopG] at hr
    split at hr
    · cases hr; exact ⟨by assumption, hd, fun p hp => .inl hp⟩
    · have hmem : ∀ p ∈ posBatch π b (width need), p.1 = b ∧ p.2 < width need ∧ π p = true := by
        intro p hp
        obtain ⟨h1, h2⟩ := List.mem_filter.1 hp
        obtain ⟨j, hj, rfl⟩ := List.mem_map.1 h1
        exact ⟨rfl, List.mem_range.1 hj, h2⟩
      have hnd : (acc ++ posBatch π b (width need)).Nodup := by
        refine List.nodup_append'.2 ⟨hd, ?_, ?_⟩
        · exact (List.Nodup.map (fun a c hac => (Prod.mk.inj hac).2) List.nodup_range).filter _
        · intro p h1 h2
          have := hb p h1
          have := (hmem p h2).1
          omega
      obtain ⟨k1, k2, k3⟩ := loop_members hW fuel _ _ _ r (by omega) hnd (by
        intro p hp
        rcases List.mem_append.1 hp with hp | hp
        · have := hb p hp; omega
        · have := (hmem p hp).1; omega) hr
      refine ⟨k1, k2, fun p hp => ?_⟩
      rcases k3 p hp with hp | ⟨h1, h2, h3⟩
      · rcases List.mem_append.1 hp with hp | hp
        · exact .inl hp
        · obtain ⟨e1, e2, e3⟩ := hmem p hp
          have := hW need hn
          exact .inr ⟨by omega, by omega, e3⟩
      · exact .inr ⟨by omega, h2, h3⟩

/-- The positions of the draws that are returned. -/
def chosen (s : Space) (n fuel : Nat) (π : Nat × Nat → Bool) : Option (Fin n → Nat × Nat) :=
  (positions s n fuel π).map (fun r k => r.getD k (0, 0))

/-- The draws that matter. -/
def window (s : Space) (n fuel : Nat) : Finset (Nat × Nat) := (Finset.range fuel) ×ˢ (Finset.range (maxWidth s n))

theorem chosen_congr {n fuel : Nat} {π π' : Nat × Nat → Bool} (h : ∀ p ∈ window s n fuel, π p = π' p) :
    chosen s n fuel π = chosen s n fuel π' := by
  unfold chosen positions
  rw [loop_congr (π' := π') (fun need hn => width_le hn) fuel 0 n [] (le_refl n) (fun p h1 h2 => h p (by
    simp only [window, Finset.mem_product, Finset.mem_range]
    omega))]

theorem chosen_mem {n fuel : Nat} {π : Nat × Nat → Bool} {p : Fin n → Nat × Nat} (h : chosen s n fuel π = some p) :
    Function.Injective p ∧ ∀ k, p k ∈ window s n fuel ∧ π (p k) = true := by
  obtain ⟨r, hr, rfl⟩ := Option.map_eq_some_iff.1 h
  obtain ⟨h1, h2, h3⟩ := loop_members (fun need hn => width_le hn) fuel 0 n [] r (le_refl n) List.nodup_nil (by simp) hr
  have hlt : ∀ k : Fin n, k.1 < r.length := fun k => by omega
  refine ⟨fun a c hac => ?_, fun k => ?_⟩
  · simp only [List.getD_eq_getElem?_getD, List.getElem?_eq_getElem (hlt a), List.getElem?_eq_getElem (hlt c), Option.getD_some] at hac
    exact Fin.ext ((List.Nodup.getElem_inj_iff h2).1 hac)
  · simp only [List.getD_eq_getElem?_getD, List.getElem?_eq_getElem (hlt k), Option.getD_some]
    rcases h3 _ (List.getElem_mem (hlt k)) with hm | ⟨k1, k2, k3⟩
    · cases hm
    · exact ⟨by simp only [window, Finset.mem_product, Finset.mem_range]; omega, k3⟩

/-! ## What is returned -/

theorem vectors_eq {rng : Nat → Nat → Mat} {fuel : Nat} {size : Option Int} (h0 : s.len ≠ 0) :
    (s.sampleConfiguration rng fuel size).map vectors =
      if size.getD 1 < 1 then some [] else (s.sampleLoop rng (size.getD 1).toNat fuel 0 (size.getD 1).toNat []).map
        (List.take (size.getD 1).toNat) := by
  unfold Space.sampleConfiguration
  rw [if_neg h0]
  simp only
  generalize size.getD 1 = n
  split
  · rfl
  · cases hl : s.sampleLoop rng n.toNat fuel 0 n.toNat [] with
    | none => rfl
    | some acc =>
      simp only [Option.map_some]
      split
      · have h1 : n.toNat = 1 := by omega
        have := (sampleLoop_ok (P := fun _ => True) (fun _ _ _ _ => trivial) _ _ _ _ _ (by simp) hl).2
        cases acc with
        | nil => simp [h1] at this
        | cons v acc => simp [h1, vectors, Sampled.all]
      · simp [vectors, Sampled.all, Function.comp_def]

/-- What is returned, in terms of the positions. -/
theorem vectors_chosen (h : Reach calls s) (h0 : s.len ≠ 0) {t : Nat × Nat → Vec} (ht : ∀ p, (t p).length = s.len) {fuel : Nat}
    {size : Option Int} (hn : ¬ size.getD 1 < 1) :
    (s.sampleConfiguration (matrixOf s t) fuel size).map vectors =
      (chosen s (size.getD 1).toNat fuel (fun p => okCol s (t p))).map (fun p => List.ofFn (fun k => maskCol s (t (p k)))) := by
  rw [vectors_eq h0, if_neg hn, sampleLoop_positions h ht]
  unfold chosen
  generalize (size.getD 1).toNat = n
  cases hp : positions s n fuel (fun p => okCol s (t p)) with
  | none => rfl
  | some r =>
    have hlen := (loop_members (fun need hn => width_le hn) fuel 0 n [] r (le_refl n) List.nodup_nil (by simp) hp).1
    simp only [Option.map_some, Option.some.injEq]
    refine List.ext_getElem (by simp; omega) (fun i h1 h2 => ?_)
    have hi : i < r.length := by simp at h1; omega
    simp [List.getElem_take, hi]

end Verif.Fair
