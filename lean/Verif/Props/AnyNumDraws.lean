import Verif.Props.AnyNumInst
import Verif.Spec.Draws

/-!
# C105, continued: every configuration has its own draw, whatever the arithmetic
-/

set_option autoImplicit false

namespace Verif.AnyNum
open Verif.Spec (At Conditional Earlier)
open Verif.Spec.Any

variable {α β : Type} [DecidableEq α] {A : Arith α β} {calls : List Call} {s : Space}

/-- The `j`-th draw of batch `b`, when that batch has `w` draws: one entry per hyperparameter. -/
def Spec.drawAt (rng : Nat → Nat → AMat α) (b w j : Nat) : AVec α := (rng b w).map (fun row => row.getD j none)

/-- `v` is `u` with the entries of some hyperparameters that have a condition removed. -/
def Spec.Unsets (calls : List Call) (s : Space) (u v : AVec α) : Prop :=
  v.length = u.length ∧ ∀ n ∈ s.names, v.at (s.idx n) = u.at (s.idx n) ∨ v.at (s.idx n) = none ∧ Conditional calls n

open Spec

/-- Draw `j` of batch `b` passes both filters of the sampler. -/
def drawOk (A : Arith α β) (s : Space) (rng : Nat → Nat → AMat α) (b w j : Nat) : Bool :=
  !(s.dag.uncond.any (fun f => onVec A s.idx (drawAt rng b w j) f)) &&
    !(s.dag.condF.any (fun f => onVec A s.idx (maskCol A s (drawAt rng b w j)) f))

theorem batch_draws (h : Reach calls s) {rng : Nat → Nat → AMat α} (hd : Draws s rng) (b w : Nat) :
    sampleBatch A s w (rng b w) =
      ((List.range w).filter (drawOk A s rng b w)).map (fun j => maskCol A s (drawAt rng b w j)) := by
  rw [sampleBatch_eq h (fun row hr => (hd b w).2 row hr) (hd b w).1]
  unfold cols
  rw [List.filter_map, List.filter_filter, List.filter_map, List.map_map]
  simp only [Function.comp_def, drawAt]
  congr 1
  refine List.filter_congr (fun j _ => ?_)
  rw [Bool.and_comm]
  rfl

/-- The accepted draws of the first `n` batches. -/
def usedDraws (A : Arith α β) (s : Space) (rng : Nat → Nat → AMat α) (ws : Nat → Nat) (n : Nat) : List (Nat × Nat) :=
  (List.range n).flatMap (fun b => ((List.range (ws b)).filter (drawOk A s rng b (ws b))).map (fun j => (b, j)))

theorem mem_usedDraws {rng : Nat → Nat → AMat α} {ws : Nat → Nat} {n b j : Nat} :
    (b, j) ∈ usedDraws A s rng ws n ↔ b < n ∧ j < ws b ∧ drawOk A s rng b (ws b) j = true := by
  simp only [usedDraws, List.mem_flatMap, List.mem_map, List.mem_filter, List.mem_range, Prod.mk.injEq]
  constructor
  · rintro ⟨c, hc, k, ⟨hk, ho⟩, rfl, rfl⟩
    exact ⟨hc, hk, ho⟩
  · rintro ⟨hb, hj, ho⟩
    exact ⟨b, hb, j, ⟨hj, ho⟩, rfl, rfl⟩

theorem usedDraws_sorted {rng : Nat → Nat → AMat α} {ws : Nat → Nat} {n : Nat} :
    (usedDraws A s rng ws n).Pairwise Earlier := by
  unfold usedDraws
  rw [List.pairwise_flatMap]
  refine ⟨fun b _ => ?_, ?_⟩
  · rw [List.pairwise_map]
    exact (List.pairwise_lt_range.filter _).imp (fun h => Or.inr ⟨rfl, h⟩)
  · refine List.pairwise_lt_range.imp ?_
    intro b c hbc p hp q hq
    obtain ⟨j, _, rfl⟩ := List.mem_map.1 hp
    obtain ⟨k, _, rfl⟩ := List.mem_map.1 hq
    exact Or.inl hbc

theorem usedDraws_congr {rng : Nat → Nat → AMat α} {ws ws' : Nat → Nat} {n : Nat} (h : ∀ b < n, ws b = ws' b) :
    usedDraws A s rng ws n = usedDraws A s rng ws' n := by
  unfold usedDraws
  refine List.flatMap_congr (fun b hb => ?_)
  rw [h b (List.mem_range.1 hb)]

theorem usedDraws_succ {rng : Nat → Nat → AMat α} {ws : Nat → Nat} {n : Nat} :
    usedDraws A s rng ws (n + 1) = usedDraws A s rng ws n ++
      ((List.range (ws n)).filter (drawOk A s rng n (ws n))).map (fun j => (n, j)) := by
  unfold usedDraws
  rw [List.range_succ, List.flatMap_append]
  simp

/-- The configuration made of a draw. -/
def made (A : Arith α β) (s : Space) (rng : Nat → Nat → AMat α) (ws : Nat → Nat) (p : Nat × Nat) : AVec α :=
  maskCol A s (drawAt rng p.1 (ws p.1) p.2)

theorem sampleLoop_draws (h : Reach calls s) {rng : Nat → Nat → AMat α} (hd : Draws s rng) {size : Nat} :
    ∀ (fuel b need : Nat) (acc r : List (AVec α)) (ws : Nat → Nat),
    acc = (usedDraws A s rng ws b).map (made A s rng ws) → sampleLoop A s rng size fuel b need acc = some r →
    ∃ n ws', r = (usedDraws A s rng ws' n).map (made A s rng ws') := by
  intro fuel
  induction fuel with
  | zero =>
    intro b need acc r ws ha he
    unfold sampleLoop at he
    split at he
    · cases he; exact ⟨b, ws, ha⟩
    · cases he
  | succ k ih =>
    intro b need acc r ws ha he
    unfold sampleLoop at he
    split at he
    · cases he; exact ⟨b, ws, ha⟩
    · refine ih _ _ _ _ (fun c => if c = b then A.width s need else ws c) ?_ he
      rw [batch_draws h hd, usedDraws_succ, List.map_append, ha]
      congr 1
      · rw [usedDraws_congr (ws' := ws) (fun c hc => if_neg (by omega))]
        refine List.map_congr_left ?_
        rintro ⟨c, j⟩ hm
        have := (mem_usedDraws.1 hm).1
        simp only [made, if_neg (show ¬ c = b by omega)]
      · simp only [List.map_map, if_true, Function.comp_def, made]


theorem maskCol_unsets (h : Reach calls s) (u : AVec α) : Unsets calls s u (maskCol A s u) := by
  refine ⟨maskCol_length, ?_⟩
  intro n hn
  by_cases hc : Conditional calls n
  · rcases maskFold_values (A := A) h hn s.minConds u (fun _ hd => hd) with k | k
    · exact .inr ⟨k, hc⟩
    · exact .inl k
  · exact .inl (maskCol_root h hn hc u)

theorem not_drawOk (h : Reach calls s) {rng : Nat → Nat → AMat α} {b w j : Nat} (ho : drawOk A s rng b w j ≠ true) :
    ∃ v, Unsets calls s (drawAt rng b w j) v ∧ ∃ f ∈ allForbs calls, Forbids A (asg s.idx v) f := by
  have hi := sinv_of_reach h
  have hmem : ∀ f, f ∈ s.dag.uncond ++ s.dag.condF → f ∈ allForbs calls := fun f hf => hi.hist.forbs.mem_iff.1 hf
  unfold drawOk at ho
  rw [ne_eq, Bool.and_eq_true, not_and_or] at ho
  simp only [Bool.not_eq_true', Bool.not_eq_false] at ho
  rw [forb_any_iff, forb_any_iff] at ho
  rcases ho with ⟨f, hf, hv⟩ | ⟨f, hf, hv⟩
  · exact ⟨_, ⟨rfl, fun _ _ => .inl rfl⟩, f, hmem f (by simp [hf]), hv⟩
  · exact ⟨_, maskCol_unsets h _, f, hmem f (by simp [hf]), hv⟩

/-- **C105, sampling**: whatever the arithmetic, the configurations that are returned come from different draws of the generator, in
the order of the draws; each is its draw without the entries of some conditional hyperparameters, and a draw that is passed over is
one that a clause forbids. -/
theorem C105_every_draw_used_once (h : Reach calls s) {rng : Nat → Nat → AMat α} (hd : Draws s rng) {fuel size : Nat}
    {vs : List (AVec α)} (hs : sample A s rng fuel size = some vs) :
    ∃ (ws : Nat → Nat) (pos : List (Nat × Nat)),
      List.Forall₂ (fun v p => p.2 < ws p.1 ∧ Unsets calls s (drawAt rng p.1 (ws p.1) p.2) v) vs pos ∧
      pos.Pairwise Earlier ∧
      ∀ p ∈ pos, ∀ q, Earlier q p → q.2 < ws q.1 → q ∉ pos →
        ∃ v, Unsets calls s (drawAt rng q.1 (ws q.1) q.2) v ∧ ∃ f ∈ allForbs calls, Forbids A (asg s.idx v) f := by
  unfold sample at hs
  cases hl : sampleLoop A s rng size fuel 0 size [] with
  | none => rw [hl] at hs; cases hs
  | some acc =>
    rw [hl] at hs
    cases hs
    obtain ⟨n, ws, rfl⟩ := sampleLoop_draws h hd _ _ _ _ _ (fun _ => 0) rfl hl
    refine ⟨ws, (usedDraws A s rng ws n).take size, ?_, usedDraws_sorted.sublist (List.take_sublist _ _), ?_⟩
    · dsimp only
      rw [← List.map_take, List.forall₂_map_left_iff, List.forall₂_same]
      rintro ⟨b, j⟩ hp
      exact ⟨(mem_usedDraws.1 (List.mem_of_mem_take hp)).2.1, maskCol_unsets h _⟩
    · rintro ⟨b, j⟩ hp ⟨c, k⟩ he hk hq
      refine not_drawOk h (fun ho => hq ?_)
      have hb := (mem_usedDraws.1 (List.mem_of_mem_take hp)).1
      have hm : (c, k) ∈ usedDraws A s rng ws n := by
        refine mem_usedDraws.2 ⟨?_, hk, ho⟩
        unfold Earlier at he
        simp only at he
        omega
      rw [← List.take_append_drop size (usedDraws A s rng ws n)] at hm
      rcases List.mem_append.1 hm with hm | hm
      · exact hm
      · exfalso
        have hsort : (usedDraws A s rng ws n).Pairwise Earlier := usedDraws_sorted
        rw [← List.take_append_drop size (usedDraws A s rng ws n), List.pairwise_append] at hsort
        have := hsort.2.2 _ hp _ hm
        unfold Earlier at he this
        simp only at he this
        omega

/-- The two-hyperparameter example on a logarithmic scale, in doubles. -/
example : ∃ rng, sample ExAn.D Scaled.ExL.spM rng 1 1 = some [ExAn.vM] ∧ ∃ (ws : Nat → Nat) (p : Nat × Nat), p.2 < ws p.1 ∧
    Unsets [Scaled.ExL.callM] Scaled.ExL.spM (drawAt rng p.1 (ws p.1) p.2) ExAn.vM := by
  obtain ⟨rng, hd, hs⟩ := C105_double_every_valid_sampled_partial F64.accurate_rd Scaled.ExL.reachM ExAn.ownM ExAn.litsM ExAn.weaklyM ExAn.rangesM
    ExAn.plainM ExAn.repM ExAn.validM
  obtain ⟨ws, pos, h1, _⟩ := C105_every_draw_used_once Scaled.ExL.reachM hd.1 hs
  refine ⟨rng, hs, ?_⟩
  generalize ExAn.vM = v at h1
  cases h1 with
  | cons h _ => exact ⟨ws, _, h⟩

end Verif.AnyNum
