import Verif.Spec.Draws
import Verif.Props.Sample

/-!
# Lemmas: the draws behind a sampled configuration
-/

set_option autoImplicit false

namespace Verif
open Spec

variable {calls : List Call} {s : Space}

/-- Draw `j` of batch `b` passes both filters of the sampler. -/
def drawOk (s : Space) (rng : Nat → Nat → Mat) (b w j : Nat) : Bool :=
  !(s.dag.uncond.any (fun f => f.onVec s.idx (drawAt rng b w j))) &&
    !(s.dag.condF.any (fun f => f.onVec s.idx (maskCol s (drawAt rng b w j))))

theorem batch_draws (h : Reach calls s) {rng : Nat → Nat → Mat} (hd : Draws s rng) (b w : Nat) :
    s.sampleBatch w (rng b w) =
      ((List.range w).filter (drawOk s rng b w)).map (fun j => maskCol s (drawAt rng b w j)) := by
  rw [sampleBatch_eq h (fun row hr => (hd b w).2 row hr) (hd b w).1]
  unfold Mat.cols
  rw [List.filter_map, List.filter_filter, List.filter_map, List.map_map]
  simp only [Function.comp_def, drawAt]
  congr 1
  refine List.filter_congr (fun j _ => ?_)
  rw [Bool.and_comm]
  rfl

/-- The accepted draws of the first `n` batches. -/
def usedDraws (s : Space) (rng : Nat → Nat → Mat) (ws : Nat → Nat) (n : Nat) : List (Nat × Nat) :=
  (List.range n).flatMap (fun b => ((List.range (ws b)).filter (drawOk s rng b (ws b))).map (fun j => (b, j)))

theorem mem_usedDraws {rng : Nat → Nat → Mat} {ws : Nat → Nat} {n b j : Nat} :
    (b, j) ∈ usedDraws s rng ws n ↔ b < n ∧ j < ws b ∧ drawOk s rng b (ws b) j = true := by
  simp only [usedDraws, List.mem_flatMap, List.mem_map, List.mem_filter, List.mem_range, Prod.mk.injEq]
  constructor
  · rintro ⟨c, hc, k, ⟨hk, ho⟩, rfl, rfl⟩
    exact ⟨hc, hk, ho⟩
  · rintro ⟨hb, hj, ho⟩
    exact ⟨b, hb, j, ⟨hj, ho⟩, rfl, rfl⟩

theorem usedDraws_sorted {rng : Nat → Nat → Mat} {ws : Nat → Nat} {n : Nat} :
    (usedDraws s rng ws n).Pairwise Earlier := by
  unfold usedDraws
  rw [List.pairwise_flatMap]
  refine ⟨fun b _ => ?_, ?_⟩
  · rw [List.pairwise_map]
    exact (List.pairwise_lt_range.filter _).imp (fun h => Or.inr ⟨rfl, h⟩)
  · refine List.pairwise_lt_range.imp ?_
    intro b c hbc p hp q hq
    obtain ⟨j, _, rfl⟩ := List.mem_map.1 hp
    obtain ⟨k, _, rfl⟩ := List.mem_map.1 hq
    exact Or.inl hbc

theorem usedDraws_congr {rng : Nat → Nat → Mat} {ws ws' : Nat → Nat} {n : Nat} (h : ∀ b < n, ws b = ws' b) :
    usedDraws s rng ws n = usedDraws s rng ws' n := by
  unfold usedDraws
  refine List.flatMap_congr (fun b hb => ?_)
  rw [h b (List.mem_range.1 hb)]

theorem usedDraws_succ {rng : Nat → Nat → Mat} {ws : Nat → Nat} {n : Nat} :
    usedDraws s rng ws (n + 1) = usedDraws s rng ws n ++
      ((List.range (ws n)).filter (drawOk s rng n (ws n))).map (fun j => (n, j)) := by
  unfold usedDraws
  rw [List.range_succ, List.flatMap_append]
  simp

/-- The configuration made of a draw. -/
def made (s : Space) (rng : Nat → Nat → Mat) (ws : Nat → Nat) (p : Nat × Nat) : Vec :=
  maskCol s (drawAt rng p.1 (ws p.1) p.2)

theorem sampleLoop_draws (h : Reach calls s) {rng : Nat → Nat → Mat} (hd : Draws s rng) {size : Nat} :
    ∀ (fuel b need : Nat) (acc r : List Vec) (ws : Nat → Nat),
    acc = (usedDraws s rng ws b).map (made s rng ws) → s.sampleLoop rng size fuel b need acc = some r →
    ∃ n ws', r = (usedDraws s rng ws' n).map (made s rng ws') := by
  intro fuel
  induction fuel with
  | zero =>
    intro b need acc r ws ha he
    unfold Space.sampleLoop at he
    split at he
    · cases he; exact ⟨b, ws, ha⟩
    · cases he
  | succ k ih =>
    intro b need acc r ws ha he
    unfold Space.sampleLoop at he
    split at he
    · cases he; exact ⟨b, ws, ha⟩
    · refine ih _ _ _ _ (fun c => if c = b then s.batchWidth need else ws c) ?_ he
      rw [batch_draws h hd, usedDraws_succ, List.map_append, ha]
      congr 1
      · rw [usedDraws_congr (ws' := ws) (fun c hc => if_neg (by omega))]
        refine List.map_congr_left ?_
        rintro ⟨c, j⟩ hm
        have := (mem_usedDraws.1 hm).1
        simp only [made, if_neg (show ¬ c = b by omega)]
      · simp only [List.map_map, if_true, Function.comp_def, made]

theorem maskFold_unsets (h : Reach calls s) : ∀ (cs : List CNode) (u : Vec), (∀ c ∈ cs, c ∈ s.minConds) → ∀ i,
    (cs.foldl (maskOne s) u).at i = u.at i ∨
      (cs.foldl (maskOne s) u).at i = none ∧ ∃ n, At s.names i n ∧ Conditional calls n := by
  intro cs
  induction cs with
  | nil => intro u _ i; exact Or.inl rfl
  | cons c cs ih =>
    intro u hc i
    rw [List.foldl_cons]
    have hcm := hc c (by simp)
    have h1 : (maskOne s u c).at i = u.at i ∨
        (maskOne s u c).at i = none ∧ ∃ n, At s.names i n ∧ Conditional calls n := by
      rw [maskOne_at_idx]
      split
      · rename_i hi
        split
        · exact Or.inl rfl
        · obtain ⟨n, hn, rfl⟩ := List.mem_map.1 hi
          exact Or.inr ⟨rfl, n, (C02_names_index_bijection h).2.2.2.2.1 n (kids_known h hcm n hn), kid_conditional h hcm hn⟩
      · exact Or.inl rfl
    rcases ih (maskOne s u c) (fun d hd => hc d (by simp [hd])) i with h2 | h2
    · rw [h2]; exact h1
    · exact Or.inr h2

theorem maskCol_unsets (h : Reach calls s) (u : Vec) : Unsets calls s u (maskCol s u) :=
  ⟨maskCol_length, maskFold_unsets h _ u (fun _ hc => hc)⟩

theorem not_drawOk (h : Reach calls s) {rng : Nat → Nat → Mat} {b w j : Nat} (ho : drawOk s rng b w j ≠ true) :
    ∃ v, Unsets calls s (drawAt rng b w j) v ∧ ∃ f ∈ allForbs calls, Forbids (asg s.idx v) f := by
  have hi := sinv_of_reach h
  have hmem : ∀ f, f ∈ s.dag.uncond ++ s.dag.condF → f ∈ allForbs calls := fun f hf => hi.hist.forbs.mem_iff.1 hf
  unfold drawOk at ho
  rw [ne_eq, Bool.and_eq_true, not_and_or] at ho
  simp only [Bool.not_eq_true', Bool.not_eq_false, List.any_eq_true] at ho
  rcases ho with ⟨f, hf, hv⟩ | ⟨f, hf, hv⟩
  · exact ⟨_, ⟨rfl, fun _ => Or.inl rfl⟩, f, hmem f (by simp [hf]), (onVec_iff f s.idx _).1 hv⟩
  · exact ⟨_, maskCol_unsets h _, f, hmem f (by simp [hf]), (onVec_iff f s.idx _).1 hv⟩

theorem Earlier.asymm' {p q : Nat × Nat} (h1 : Earlier p q) (h2 : Earlier q p) : False := by
  unfold Earlier at h1 h2
  omega

/-- What `sample_configuration` returns, as draws. -/
theorem sample_draws (h : Reach calls s) {rng : Nat → Nat → Mat} (hd : Draws s rng) {fuel : Nat} {size : Option Int}
    {r : Sampled} (h0 : s.len ≠ 0) (hr : s.sampleConfiguration rng fuel size = some r) :
    ∃ n ws k, r.all.map Config.vec = ((usedDraws s rng ws n).map (made s rng ws)).take k := by
  unfold Space.sampleConfiguration at hr
  rw [if_neg h0] at hr
  simp only at hr
  split at hr
  · cases hr
    exact ⟨0, fun _ => 0, 0, rfl⟩
  · split at hr
    · cases hr
    · rename_i acc hl
      obtain ⟨n, ws, rfl⟩ := sampleLoop_draws h hd _ _ _ _ _ (fun _ => 0) rfl hl
      split at hr
      · refine ⟨n, ws, 1, ?_⟩
        generalize (usedDraws s rng ws n).map (made s rng ws) = l at hr
        cases l with
        | nil => cases hr
        | cons v l => cases hr; rfl
      · cases hr
        refine ⟨n, ws, (size.getD 1).toNat, ?_⟩
        simp [Sampled.all, List.map_map, Function.comp_def]

end Verif
