import Verif.Lemmas.Draws

/-!
# C70: sampled configurations and the draws of the random generator
-/

set_option autoImplicit false

namespace Verif
open Spec

variable {calls : List Call} {s : Space}

/-- **C70.**  The configurations `sample_configuration` returns come from different draws of the generator, one after
the other.  There are as many positions of draws as configurations, and each is later than the one before.  A
configuration is its draw, with some hyperparameters that have a condition left out.  A draw that comes before one
that is used is passed over only if a forbidden clause forbids it, as drawn or with some hyperparameters that have a
condition left out.  (`ws b` is the number of draws in batch `b`.) -/
theorem C70_every_draw_used_once (h : Reach calls s) {rng : Nat → Nat → Mat} (hd : Draws s rng) {fuel : Nat}
    {size : Option Int} {r : Sampled} (h0 : s.len ≠ 0) (hr : s.sampleConfiguration rng fuel size = some r) :
    ∃ (ws : Nat → Nat) (pos : List (Nat × Nat)),
      List.Forall₂ (fun c p => p.2 < ws p.1 ∧ Unsets calls s (drawAt rng p.1 (ws p.1) p.2) c.vec) r.all pos ∧
      pos.Pairwise Earlier ∧
      ∀ p ∈ pos, ∀ q, Earlier q p → q.2 < ws q.1 → q ∉ pos →
        ∃ v a, Unsets calls s (drawAt rng q.1 (ws q.1) q.2) v ∧ Represents s v a ∧
          ∃ f ∈ allForbs calls, Forbids a f := by
  obtain ⟨n, ws, k, hk⟩ := sample_draws h hd h0 hr
  refine ⟨ws, (usedDraws s rng ws n).take k, ?_, usedDraws_sorted.sublist (List.take_sublist _ _), ?_⟩
  · rw [← List.map_take] at hk
    have hm : ∀ p ∈ (usedDraws s rng ws n).take k, p.2 < ws p.1 := by
      rintro ⟨b, j⟩ hp
      exact (mem_usedDraws.1 (List.mem_of_mem_take hp)).2.1
    generalize (usedDraws s rng ws n).take k = l at hk hm
    generalize r.all = cs at hk
    induction l generalizing cs with
    | nil =>
      cases cs with
      | nil => exact .nil
      | cons c cs => simp at hk
    | cons p l ih =>
      cases cs with
      | nil => simp at hk
      | cons c cs =>
        simp only [List.map_cons, List.cons.injEq] at hk
        refine .cons ⟨hm p (by simp), ?_⟩ (ih (fun q hq => hm q (by simp [hq])) cs hk.2)
        rw [hk.1]
        exact maskCol_unsets h _
  · rintro p hp ⟨b, j⟩ he hj hq
    suffices hs : drawOk s rng b (ws b) j ≠ true by
      obtain ⟨v, hu, hf⟩ := not_drawOk h hs
      refine ⟨v, _, hu, represents_asg h ?_, hf⟩
      rw [hu.1, drawAt, List.length_map, (hd _ _).1]
    refine fun ho => hq ?_
    have hpl := mem_usedDraws.1 (List.mem_of_mem_take hp)
    have hb : b < n := by
      rcases he with he | he
      · simp only at he; omega
      · simp only at he; omega
    have hmem : (b, j) ∈ usedDraws s rng ws n := mem_usedDraws.2 ⟨hb, hj, ho⟩
    have hs := usedDraws_sorted (s := s) (rng := rng) (ws := ws) (n := n)
    rw [← List.take_append_drop k (usedDraws s rng ws n)] at hmem hs
    rcases List.mem_append.1 hmem with h1 | h1
    · exact h1
    · exact (Earlier.asymm' he ((List.pairwise_append.1 hs).2.2 p hp _ h1)).elim

/-- **C70, without clauses.**  If the space has no forbidden clause, no draw is passed over. -/
theorem C70_no_clause_no_draw_lost (h : Reach calls s) (hf : allForbs calls = []) {rng : Nat → Nat → Mat}
    (hd : Draws s rng) {fuel : Nat} {size : Option Int} {r : Sampled} (h0 : s.len ≠ 0)
    (hr : s.sampleConfiguration rng fuel size = some r) :
    ∃ (ws : Nat → Nat) (pos : List (Nat × Nat)),
      List.Forall₂ (fun c p => p.2 < ws p.1 ∧ Unsets calls s (drawAt rng p.1 (ws p.1) p.2) c.vec) r.all pos ∧
      pos.Pairwise Earlier ∧ ∀ p ∈ pos, ∀ q, Earlier q p → q.2 < ws q.1 → q ∈ pos := by
  obtain ⟨ws, pos, h1, h2, h3⟩ := C70_every_draw_used_once h hd h0 hr
  refine ⟨ws, pos, h1, h2, fun p hp q he hq => ?_⟩
  by_contra hn
  obtain ⟨_, _, _, _, f, hm, _⟩ := h3 p hp q he hq hn
  rw [hf] at hm
  cases hm

/-- The two-call example, with a condition that is false and a clause. -/
example : ∃ (ws : Nat → Nat) (p : Nat × Nat), p.2 < ws p.1 ∧
    Unsets [Ex.call1, Ex.call2] Ex.sp2 (drawAt (constDraws Ex.sp2 Ex.col2) p.1 (ws p.1) p.2)
      (maskCol Ex.sp2 Ex.col2) := by
  obtain ⟨ws, pos, h1, _⟩ := C70_every_draw_used_once Ex.reach2 Ex.draws2.1 (by decide +kernel)
    (Ex.sample2 (size := none) rfl)
  generalize maskCol Ex.sp2 Ex.col2 = v at h1
  cases h1 with
  | cons h _ => exact ⟨ws, _, h⟩

/-- The chain has no clauses: every draw before the last one that is used is used, too. -/
example {r : Sampled} {size : Option Int} {fuel : Nat} (hr : Ex.spL.sampleConfiguration (constDraws Ex.spL [some 0, some 1, some 0]) fuel size = some r) :
    ∃ (ws : Nat → Nat) (pos : List (Nat × Nat)), pos.length = r.all.length ∧
      ∀ p ∈ pos, ∀ q, Earlier q p → q.2 < ws q.1 → q ∈ pos := by
  obtain ⟨ws, pos, h1, _, h3⟩ := C70_no_clause_no_draw_lost Ex.reachL rfl
    (constDraws_legal Ex.reachL (legal_of_check (by decide +kernel))).1 (by decide +kernel) hr
  exact ⟨ws, pos, h1.length_eq.symm, h3⟩

end Verif
