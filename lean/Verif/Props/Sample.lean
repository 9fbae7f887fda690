import Verif.Lemmas.Sample
import Verif.Spec.Sample
import Verif.Props.Change

/-!
# C25, C26, C27, C55: sampling

The generator is arbitrary: the theorems hold for every outcome of it.
-/

set_option autoImplicit false

namespace Verif
open Verif.Spec

variable {calls : List Call} {s : Space}

/-! ## What a batch contributes -/

theorem batch_mem (h : Reach calls s) {w : Nat} {m : Mat} (hr : Rect m w) (hm : m.length = s.len) {v : Vec} :
    v ∈ s.sampleBatch w m ↔ ∃ u ∈ m.cols w, v = maskCol s u ∧ (∀ f ∈ s.dag.uncond, ¬ Forbids (asg s.idx u) f) ∧
      ∀ f ∈ s.dag.condF, ¬ Forbids (asg s.idx v) f := by
  have key : ∀ (fs : List Forb) (x : Vec), (!(fs.any (fun f => f.onVec s.idx x))) = true ↔
      ∀ f ∈ fs, ¬ Forbids (asg s.idx x) f := by
    intro fs x
    rw [Bool.not_eq_true', ← Bool.not_eq_true, forb_any_iff]
    push Not
    rfl
  rw [sampleBatch_eq h hr hm, List.mem_filter, key]
  constructor
  · rintro ⟨h1, h2⟩
    obtain ⟨u, hu, rfl⟩ := List.mem_map.1 h1
    obtain ⟨h3, h4⟩ := List.mem_filter.1 hu
    exact ⟨u, h3, rfl, (key _ _).1 h4, h2⟩
  · rintro ⟨u, hu, rfl, h1, h2⟩
    exact ⟨List.mem_map.2 ⟨u, List.mem_filter.2 ⟨hu, (key _ _).2 h1⟩, rfl⟩, h2⟩

/-- Members of groups have a condition. -/
theorem kid_conditional (h : Reach calls s) {c : CNode} (hc : c ∈ s.minConds) {n : Name} (hn : n ∈ c.kids) :
    Conditional calls n := by
  have hi := sinv_of_reach h
  have hg := groupsOk_sorted s.com
  rw [← hi.mins] at hg
  obtain ⟨x, hx, rfl, d, hd, _⟩ := hg.members c hc n hn
  obtain ⟨m1, m2, _⟩ := node_cond h hx hd
  exact ⟨d, m1, m2⟩

theorem maskCol_root (h : Reach calls s) {n : Name} (hn : n ∈ s.names) (hc : ¬ Conditional calls n) (u : Vec) :
    (maskCol s u).at (s.idx n) = u.at (s.idx n) :=
  maskFold_other h hn _ _ (fun _ hd => hd) (fun _ hd hk => hc (kid_conditional h hd hk))

theorem forb_known (h : Reach calls s) {f : Forb} (hf : f ∈ allForbs calls) {x : HP} (hx : x ∈ clauseHps f) :
    x.name ∈ s.names := by
  have hi := sinv_of_reach h
  have := hi.hist.forbNames f hf x.name (by rw [names_eq]; exact List.mem_map.2 ⟨x, hx, rfl⟩)
  rw [hi.com] at this
  exact this

/-- Masking does not change what clauses on unconditional hyperparameters say. -/
theorem uncond_mask (h : Reach calls s) {f : Forb} (hf : f ∈ s.dag.uncond) (u : Vec) :
    Forbids (asg s.idx (maskCol s u)) f ↔ Forbids (asg s.idx u) f := by
  obtain ⟨hp, he, hu, _⟩ := C09_clauses_kept_and_classified h
  have hfa : f ∈ allForbs calls := hp.mem_iff.1 (by rw [he]; exact List.mem_append.2 (.inl hf))
  exact forbids_congr f (fun x hx => maskCol_root h (forb_known h hfa hx) (hu f hf x hx) u)

theorem batch_allowed (h : Reach calls s) {w : Nat} {m : Mat} (hr : Rect m w) (hm : m.length = s.len) {v : Vec}
    (hv : v ∈ s.sampleBatch w m) : v.length = s.len ∧ NotForbidden calls (asg s.idx v) := by
  obtain ⟨u, hu, rfl, h1, h2⟩ := (batch_mem h hr hm).1 hv
  obtain ⟨hp, he, _, _⟩ := C09_clauses_kept_and_classified h
  refine ⟨by rw [maskCol_length, cols_length_mem u hu, hm], ?_⟩
  intro f hf
  have hf' := hp.mem_iff.2 hf
  rw [he] at hf'
  rcases List.mem_append.1 hf' with k | k
  · rw [uncond_mask h k]; exact h1 f k
  · exact h2 f k

/-- What is returned comes from the batches (or the space is empty). -/
theorem sampled_mem {rng : Nat → Nat → Mat} {fuel : Nat} {size : Option Int} {r : Sampled}
    (hr : s.sampleConfiguration rng fuel size = some r) {c : Config} (hc : c ∈ r.all) :
    (s.len = 0 ∧ c.vec = []) ∨ ∃ b w, c.vec ∈ s.sampleBatch w (rng b w) := by
  unfold Space.sampleConfiguration at hr
  split at hr
  · left
    refine ⟨by assumption, ?_⟩
    cases size with
    | none =>
      simp only [Option.some.injEq] at hr
      subst hr
      simp only [Sampled.all, List.mem_singleton] at hc
      rw [hc]
    | some n =>
      simp only [Option.some.injEq] at hr
      subst hr
      simp only [Sampled.all, List.mem_replicate] at hc
      rw [hc.2]
  · right
    simp only at hr
    split at hr
    · simp only [Option.some.injEq] at hr
      subst hr
      cases hc
    · split at hr
      · cases hr
      · rename_i acc hl
        obtain ⟨h1, _⟩ := sampleLoop_ok (P := fun v => ∃ b w, v ∈ s.sampleBatch w (rng b w))
          (fun b w v hv => ⟨b, w, hv⟩) _ _ _ _ _ (by simp) hl
        split at hr
        · cases hh : acc.head? with
          | none => rw [hh] at hr; cases hr
          | some v =>
            rw [hh] at hr
            simp only [Option.map_some, Option.some.injEq] at hr
            subst hr
            simp only [Sampled.all, List.mem_singleton] at hc
            rw [hc]
            exact h1 v (List.mem_of_mem_head? (by rw [hh]; rfl))
        · simp only [Option.some.injEq] at hr
          subst hr
          simp only [Sampled.all, List.mem_map] at hc
          obtain ⟨v, hv, rfl⟩ := hc
          exact h1 v (List.mem_of_mem_take hv)

/-- **C25.** No configuration that `sample_configuration` returns is forbidden by a clause of the space, whatever the
random generator does. -/
theorem C25_samples_not_forbidden (h : Reach calls s) {rng : Nat → Nat → Mat} (hd : Draws s rng) {fuel : Nat}
    {size : Option Int} {r : Sampled} (hr : s.sampleConfiguration rng fuel size = some r) :
    ∀ c ∈ r.all, ∃ a, Represents s c.vec a ∧ NotForbidden calls a := by
  intro c hc
  rcases sampled_mem hr hc with ⟨h0, hcv⟩ | ⟨b, w, hm⟩
  · have hlen : c.vec.length = s.len := by rw [hcv, h0]; rfl
    have hv := represents_asg h hlen
    refine ⟨_, hv, ?_⟩
    have hnone : ∀ n, n ∉ s.names := fun n hn => by have := idx_lt h hn; omega
    have hown : OwnClauses calls := fun f hf x hx => absurd (forb_known h hf hx) (hnone _)
    obtain ⟨e, he, hchk, _⟩ := C20_default_configuration h
    have hel : e.vec = c.vec := by
      obtain ⟨d, hd, _⟩ := filled_default h he
      have := (ofValues_ok h hd).2.1
      rw [hcv]
      exact List.length_eq_zero_iff.1 (by omega)
    rw [hel] at hchk
    have hfast : (s.fast.any (fun f => f.onVec s.idx c.vec)) = false := by
      unfold Space.check at hchk
      split at hchk
      · cases hchk
      · split at hchk
        · cases hchk
        · cases hb : s.fast.any (fun f => f.onVec s.idx c.vec) with
          | false => rfl
          | true => rw [hb] at hchk; simp at hchk
    intro f hf hff
    rw [(C10_merged_clauses_equivalent h hown hv).2 ⟨f, hf, hff⟩] at hfast
    cases hfast
  · obtain ⟨h1, h2⟩ := batch_allowed h (hd b w).2 (hd b w).1 hm
    exact ⟨_, represents_asg h h1, h2⟩

/-! ## C26 -/

/-- The columns of a legal draw have a legal entry for every hyperparameter. -/
theorem legal_column (h : Reach calls s) {rng : Nat → Nat → Mat} (hd : LegalDraws calls s rng) {b w : Nat} {u : Vec}
    (hu : u ∈ (rng b w).cols w) {x : HP} (hx : x ∈ allHps calls) :
    ∃ q, u.at (s.idx x.name) = some q ∧ x.kind.legalVec q = true := by
  obtain ⟨hs, hl⟩ := hd
  obtain ⟨h1, h2⟩ := hs b w
  have hxn := (reach_isNode h x.name).2 ⟨x, hx, rfl⟩
  have hlt : s.idx x.name < (rng b w).length := by rw [h1]; exact idx_lt h hxn
  simp only [Mat.cols, List.mem_map, List.mem_range] at hu
  obtain ⟨j, hj, rfl⟩ := hu
  have hrow : (rng b w)[s.idx x.name].length = w := h2 _ (List.getElem_mem hlt)
  have hat : At s.names (s.idx x.name) x.name := by
    have hlt' : s.names.idxOf x.name < s.names.length := List.idxOf_lt_length_of_mem hxn
    unfold At
    change s.names[s.names.idxOf x.name]? = _
    rw [List.getElem?_eq_getElem hlt', List.getElem_idxOf hlt']
  obtain ⟨q, hq, hlq⟩ := hl b w x hx _ _ hat (List.getElem?_eq_getElem hlt) _
    (List.getElem_mem (by rw [hrow]; exact hj : j < _))
  refine ⟨q, ?_, hlq⟩
  simp only [Vec.at, List.getD_eq_getElem?_getD, List.getElem?_map, List.getElem?_eq_getElem hlt, Option.map_some,
    Option.getD_some]
  rw [List.getElem?_eq_getElem (by rw [hrow]; exact hj)]
  exact hq

theorem maskCol_group (h : Reach calls s) (hw : WeaklyLayered calls) (u : Vec) {c : CNode} (hc : c ∈ s.minConds)
    {m : Name} (hm : m ∈ c.kids) : (maskCol s u).at (s.idx m) =
      if c.cond.satVec s.idx (maskCol s u) then u.at (s.idx m) else none :=
  maskFold_groups h (topo_of_weakly h hw) s.minConds [] u rfl c hc m hm

/-- **C26** (partial: grouped conditions must have the same meaning and the conditions must be weakly layered; see
the counterexample).  If the generator only gives legal values, every returned configuration is valid: the
unconditional hyperparameters are set, the conditional ones exactly when their condition holds, all values are legal
and no clause forbids it. -/
theorem C26_samples_valid_partial (h : Reach calls s) (hsep : Separable calls) (hw : WeaklyLayered calls)
    {rng : Nat → Nat → Mat} (hd : LegalDraws calls s rng) {fuel : Nat} {size : Option Int} {r : Sampled}
    (hr : s.sampleConfiguration rng fuel size = some r) :
    ∀ c ∈ r.all, ∃ a, Represents s c.vec a ∧ Valid calls a := by
  intro c hc
  obtain ⟨a, ha, hnf⟩ := C25_samples_not_forbidden h hd.1 hr c hc
  refine ⟨a, ha, ?_⟩
  rcases sampled_mem hr hc with ⟨h0, hcv⟩ | ⟨b, w, hm⟩
  · have hnone : ∀ n, ¬ Known calls n := fun n hn => by
      have := idx_lt h ((reach_isNode h n).2 hn); omega
    refine ⟨fun n hn => absurd hn (hnone n), ?_, fun x hx => absurd ⟨x, hx, rfl⟩ (hnone x.name), hnf⟩
    intro d hd n hn
    obtain ⟨x, hx, rfl, _⟩ := node_of_child h hd hn
    exact absurd ((reach_isNode h x.name).1 (mem_names hx)) (hnone _)
  · obtain ⟨u, hu, he, _, _⟩ := (batch_mem h (hd.1 b w).2 (hd.1 b w).1).1 hm
    refine ⟨?_, ?_, ?_, hnf⟩
    · intro n hn hcn
      obtain ⟨x, hx, rfl⟩ := hn
      have hxn := (reach_isNode h x.name).2 ⟨x, hx, rfl⟩
      obtain ⟨q, hq, _⟩ := legal_column h hd hu hx
      refine ⟨q, ?_⟩
      rw [← at_idx ha hxn, he, maskCol_root h hxn hcn, hq]
    · rw [activity_iff h hsep ha]
      intro i g hg m hmk
      have hgm := List.mem_of_getElem? hg
      have hmn := kids_known h hgm m hmk
      obtain ⟨x, hx, rfl⟩ := (reach_isNode h m).1 hmn
      obtain ⟨q, hq, _⟩ := legal_column h hd hu hx
      rw [he, maskCol_group h hw u hgm hmk, hq]
      cases g.cond.satVec s.idx (maskCol s u) <;> rfl
    · intro x hx q hq
      have hxn := (reach_isNode h x.name).2 ⟨x, hx, rfl⟩
      obtain ⟨p, hp, hlp⟩ := legal_column h hd hu hx
      rw [← at_idx ha hxn, he] at hq
      rcases maskFold_values h hxn s.minConds u (fun _ hc => hc) with k | k
      · rw [show (maskCol s u).at (s.idx x.name) = none from k] at hq; cases hq
      · rw [show (maskCol s u).at (s.idx x.name) = _ from k, hp] at hq
        cases hq
        exact hlp

/-- **C26, the check** (partial: the conditions must be weakly layered): every returned configuration passes
`check_configuration`, whatever conditions the code groups together. -/
theorem C26_samples_pass_check_partial (h : Reach calls s) (hw : WeaklyLayered calls)
    (hown : OwnClauses calls) {rng : Nat → Nat → Mat} (hd : LegalDraws calls s rng) {fuel : Nat} {size : Option Int}
    {r : Sampled} (hr : s.sampleConfiguration rng fuel size = some r) :
    ∀ c ∈ r.all, s.check c.vec = none := by
  intro c hc
  obtain ⟨a, ha, hnf⟩ := C25_samples_not_forbidden h hd.1 hr c hc
  have hlegal : firstWith (fun e => !isSet e) s c.vec s.dag.roots = none ∧ checkConds s c.vec false s.minConds = none := by
    rw [firstWith_none, checkConds_none]
    rcases sampled_mem hr hc with ⟨h0, hcv⟩ | ⟨b, w, hm⟩
    · have hnone : ∀ n, ¬ Known calls n := fun n hn => by
        have := idx_lt h ((reach_isNode h n).2 hn); omega
      refine ⟨fun n hn => absurd ((C06_roots_no_condition h n).1 hn).1 (hnone n), fun g hg => ⟨fun _ n hn => ?_, fun _ n hn => ?_⟩⟩
      · exact absurd ((reach_isNode h n).1 (kids_known h hg n hn)) (hnone n)
      · exact absurd ((reach_isNode h n).1 (kids_known h hg n hn)) (hnone n)
    · obtain ⟨u, hu, he, _, _⟩ := (batch_mem h (hd.1 b w).2 (hd.1 b w).1).1 hm
      rw [he]
      refine ⟨fun n hn => ?_, fun g hg => ⟨fun hsat n hn => ?_, fun hsat n hn => ?_⟩⟩
      · obtain ⟨⟨x, hx, rfl⟩, hc⟩ := (C06_roots_no_condition h n).1 hn
        obtain ⟨q, hq, _⟩ := legal_column h hd hu hx
        rw [maskCol_root h ((reach_isNode h x.name).2 ⟨x, hx, rfl⟩) hc, hq]
        rfl
      · obtain ⟨x, hx, rfl⟩ := (reach_isNode h n).1 (kids_known h hg n hn)
        obtain ⟨q, hq, hlq⟩ := legal_column h hd hu hx
        have := maskCol_group h hw u hg hn
        rw [if_pos hsat, hq] at this
        unfold Space.legalAt
        rw [(hp_of h).2 ⟨hx, rfl⟩, this]
        exact hlq
      · rw [maskCol_group h hw u hg hn, if_neg (by rw [hsat]; simp)]
  unfold Space.check
  rw [hlegal.1]
  simp only
  rw [hlegal.2]
  simp only
  rw [if_neg]
  intro hf
  obtain ⟨f, hf, hff⟩ := (C10_merged_clauses_equivalent h hown ha).1 hf
  exact hnf f hf hff

/-! ## C27 -/

/-- **C27** (partial: a single configuration for `n = 1` only if the space has a hyperparameter).  If
`sample_configuration` returns: without a size it returns one configuration; for `n ≥ 2` a list of
`n`; for `n < 1` the empty list; for `n = 1` one configuration if the space has a hyperparameter, else a list with
one configuration. -/
theorem C27_sample_count_partial {rng : Nat → Nat → Mat} {fuel : Nat} {size : Option Int} {r : Sampled}
    (hr : s.sampleConfiguration rng fuel size = some r) :
    (size = none → ∃ c, r = .one c) ∧
    (∀ n, size = some n → 2 ≤ n → ∃ cs, r = .many cs ∧ (cs.length : Int) = n) ∧
    (∀ n, size = some n → n < 1 → r = .many []) ∧
    (size = some 1 → s.len ≠ 0 → ∃ c, r = .one c) ∧
    (size = some 1 → s.len = 0 → ∃ c, r = .many [c]) := by
  unfold Space.sampleConfiguration at hr
  split at hr
  · rename_i h0
    cases size with
    | none =>
      simp only [Option.some.injEq] at hr
      subst hr
      simp [h0]
    | some n =>
      simp only [Option.some.injEq] at hr
      subst hr
      simp only [reduceCtorEq, false_imp_iff, Option.some.injEq, forall_eq', true_and, h0, ne_eq, not_true,
        implies_true, forall_const, Sampled.many.injEq]
      refine ⟨fun hn => ⟨_, rfl, by simp; omega⟩, fun hn => ?_, fun hn => ?_⟩
      · have : n.toNat = 0 := by omega
        rw [this]; rfl
      · subst hn
        exact ⟨_, rfl⟩
  · rename_i h0
    simp only at hr
    split at hr
    · rename_i hn
      cases size with
      | none => simp at hn
      | some n =>
        simp only [Option.getD_some] at hn
        simp only [Option.some.injEq] at hr
        subst hr
        refine ⟨fun k => (by cases k), ?_, fun _ _ _ => rfl, ?_, fun _ h => absurd h h0⟩
        · intro m hm hm2
          cases hm
          omega
        · intro hm
          cases hm
          omega
    · rename_i hn
      split at hr
      · cases hr
      · rename_i acc hl
        obtain ⟨_, hlen⟩ := sampleLoop_ok (P := fun _ => True) (fun _ _ _ _ => trivial) _ _ _ _ _ (by simp) hl
        split at hr
        · rename_i hle
          have hone : ∃ c, r = .one c := by
            cases hh : acc.head? with
            | none => rw [hh] at hr; cases hr
            | some v =>
              rw [hh] at hr
              simp only [Option.map_some, Option.some.injEq] at hr
              exact ⟨_, hr.symm⟩
          refine ⟨fun _ => hone, ?_, ?_, fun _ _ => hone, fun _ h => absurd h h0⟩
          · intro m hm hm2
            subst hm
            simp only [Option.getD_some] at hle
            omega
          · intro m hm hm2
            subst hm
            simp only [Option.getD_some] at hn
            omega
        · rename_i hle
          cases size with
          | none => simp at hle
          | some n =>
            simp only [Option.getD_some] at hle hlen hr
            simp only [Option.some.injEq] at hr
            subst hr
            refine ⟨fun k => (by cases k), ?_, ?_, ?_, fun _ h => absurd h h0⟩
            · intro m hm hm2
              cases hm
              refine ⟨_, rfl, ?_⟩
              simp only [List.length_map, List.length_take]
              omega
            · intro m hm hm2
              cases hm
              omega
            · intro hm
              cases hm
              omega

/-- The loop ends after at most `size` batches if every batch contributes something. -/
theorem sampleLoop_ends {rng : Nat → Nat → Mat} {size : Nat}
    (hp : ∀ b w, 5 ≤ w → s.sampleBatch w (rng b w) ≠ []) : ∀ (fuel b need : Nat) (acc : List Vec),
    size ≤ acc.length + fuel → ∃ r, s.sampleLoop rng size fuel b need acc = some r := by
  intro fuel
  induction fuel with
  | zero =>
    intro b need acc hle
    unfold Space.sampleLoop
    rw [if_pos (by omega)]
    exact ⟨_, rfl⟩
  | succ k ih =>
    intro b need acc hle
    unfold Space.sampleLoop
    by_cases h : size ≤ acc.length
    · rw [if_pos h]; exact ⟨_, rfl⟩
    · rw [if_neg h]
      simp only
      refine ih _ _ _ ?_
      have := List.length_pos_of_ne_nil (hp b (s.batchWidth need) (by unfold Space.batchWidth; omega))
      simp only [List.length_append]
      omega

/-- **C27, termination.** If every batch contains at least one acceptable configuration, `sample_configuration(n)`
returns after at most `n` batches. -/
theorem C27_sampling_ends {rng : Nat → Nat → Mat} {size : Option Int}
    (hp : ∀ b w, 5 ≤ w → s.sampleBatch w (rng b w) ≠ []) {fuel : Nat} (hf : (size.getD 1).toNat ≤ fuel) :
    ∃ r, s.sampleConfiguration rng fuel size = some r := by
  unfold Space.sampleConfiguration
  by_cases h0 : s.len = 0
  · rw [if_pos h0]; cases size <;> exact ⟨_, rfl⟩
  · rw [if_neg h0]
    simp only
    by_cases hn : size.getD 1 < 1
    · rw [if_pos hn]; exact ⟨_, rfl⟩
    · rw [if_neg hn]
      obtain ⟨acc, ha⟩ := sampleLoop_ends (s := s) (rng := rng) (size := (size.getD 1).toNat) hp fuel 0
        (size.getD 1).toNat [] (by simpa using hf)
      rw [ha]
      obtain ⟨_, hlen⟩ := sampleLoop_ok (P := fun _ => True) (fun _ _ _ _ => trivial) _ _ _ _ _ (by simp) ha
      simp only
      split
      · cases hh : acc.head? with
        | none =>
          rw [List.head?_eq_none_iff] at hh
          subst hh
          simp at hlen
          omega
        | some v => exact ⟨_, rfl⟩
      · exact ⟨_, rfl⟩

/-! ## C55: every valid configuration can be sampled -/

/-- A generator that always gives the same column. -/
def constDraws (s : Space) (u : Vec) : Nat → Nat → Mat := fun _ w => ofCols s.len (List.replicate w u)

theorem constDraws_legal (h : Reach calls s) {u : Vec}
    (hu : ∀ x ∈ allHps calls, ∃ q, u.at (s.idx x.name) = some q ∧ x.kind.legalVec q = true) :
    LegalDraws calls s (constDraws s u) := by
  refine ⟨fun b w => ⟨ofCols_length, ?_⟩, ?_⟩
  · have := ofCols_rect (n := s.len) (vs := List.replicate w u)
    rwa [List.length_replicate] at this
  · intro b w x hx i row hin hrow e he
    have hidx : s.idx x.name = i := idx_unique (reach_ninv h).nodup hin
    unfold constDraws ofCols at hrow
    rw [List.getElem?_map] at hrow
    have hrow' : (List.replicate w u).map (fun v => v.at i) = row := by
      cases hr : (List.range s.len)[i]? with
      | none => rw [hr] at hrow; cases hrow
      | some j =>
        rw [hr] at hrow
        have : j = i := by
          obtain ⟨_, k⟩ := List.getElem?_eq_some_iff.1 hr
          simpa using k.symm
        subst this
        simpa using hrow
    subst hrow'
    simp only [List.map_replicate, List.mem_replicate] at he
    rw [he.2, ← hidx]
    exact hu x hx

/-- If the column is not rejected, the masked column is returned. -/
theorem constDraws_one (h : Reach calls s) (h0 : s.len ≠ 0) {u : Vec} (hu : u.length = s.len)
    (h1 : ∀ f ∈ s.dag.uncond, ¬ Forbids (asg s.idx u) f)
    (h2 : ∀ f ∈ s.dag.condF, ¬ Forbids (asg s.idx (maskCol s u)) f) {size : Option Int} (hs : size.getD 1 = 1) :
    s.sampleConfiguration (constDraws s u) 1 size = some (.one { vec := maskCol s u }) := by
  have hbatch : ∀ w, 0 < w → ∃ l, s.sampleBatch w (constDraws s u 0 w) = maskCol s u :: l := by
    intro w hw0
    unfold constDraws
    have hrect := ofCols_rect (n := s.len) (vs := List.replicate w u)
    rw [List.length_replicate] at hrect
    have hcols := cols_ofCols (n := s.len) (vs := List.replicate w u)
      (fun u' hu' => by rw [(List.mem_replicate.1 hu').2, hu])
    rw [List.length_replicate] at hcols
    have hmem : maskCol s u ∈ s.sampleBatch w (ofCols s.len (List.replicate w u)) := by
      rw [batch_mem h hrect ofCols_length, hcols]
      exact ⟨u, List.mem_replicate.2 ⟨by omega, rfl⟩, rfl, h1, h2⟩
    have hall : ∀ v ∈ s.sampleBatch w (ofCols s.len (List.replicate w u)), v = maskCol s u := by
      intro v hv
      rw [batch_mem h hrect ofCols_length, hcols] at hv
      obtain ⟨p, hp, rfl, _⟩ := hv
      rw [(List.mem_replicate.1 hp).2]
    cases hb : s.sampleBatch w (ofCols s.len (List.replicate w u)) with
    | nil => rw [hb] at hmem; cases hmem
    | cons v l => exact ⟨l, by rw [hall v (by rw [hb]; simp)]⟩
  unfold Space.sampleConfiguration
  rw [if_neg h0]
  simp only [hs]
  rw [if_neg (by omega)]
  obtain ⟨l, hl⟩ := hbatch (s.batchWidth 1) (by unfold Space.batchWidth; omega)
  have hloop : s.sampleLoop (constDraws s u) 1 1 0 1 [] = some (maskCol s u :: l) := by
    unfold Space.sampleLoop
    rw [if_neg (by simp)]
    simp only [List.nil_append, hl]
    unfold Space.sampleLoop
    rw [if_pos (by simp)]
  rw [show (1 : Int).toNat = 1 from rfl, hloop]
  simp

/-- The column that leads to the vector `v`: its values, and defaults for what is not set. -/
def preimage (s : Space) (v : Vec) : Vec :=
  s.com.map (fun x => some ((v.at (s.idx x.name)).getD x.hp.defVec))

theorem preimage_at (h : Reach calls s) (v : Vec) {x : HP} (hx : x ∈ allHps calls) :
    (preimage s v).at (s.idx x.name) = some ((v.at (s.idx x.name)).getD x.defVec) := by
  have hn := reach_ninv h
  obtain ⟨y, hy, e⟩ := node_of_hp h hx
  have hyn : y.name = x.name := by rw [← e]; rfl
  obtain ⟨i, hyi⟩ := List.getElem?_of_mem hy
  have hat : At s.names i y.name := by
    unfold At Space.names
    rw [List.getElem?_map, hyi]
    rfl
  have hidx : s.idx y.name = i := idx_unique hn.nodup hat
  unfold preimage Vec.at
  rw [← hyn, hidx, List.getD_eq_getElem?_getD, List.getElem?_map, hyi]
  simp [hidx, e]

/-- Two vectors that agree on the unconditional hyperparameters and follow the same rule on the conditional
ones are equal. -/
theorem groups_unique (h : Reach calls s) {u v w : Vec} (hv : v.length = s.len) (hw : w.length = s.len)
    (hroot : ∀ n, Known calls n → ¬ Conditional calls n → v.at (s.idx n) = w.at (s.idx n))
    (h1 : ∀ c ∈ s.minConds, ∀ m ∈ c.kids, v.at (s.idx m) = if c.cond.satVec s.idx v then u.at (s.idx m) else none)
    (h2 : ∀ c ∈ s.minConds, ∀ m ∈ c.kids, w.at (s.idx m) = if c.cond.satVec s.idx w then u.at (s.idx m) else none) :
    v = w := by
  have hi := sinv_of_reach h
  have hg := groupsOk_sorted s.com
  rw [← hi.mins] at hg
  have key : ∀ (k : Nat) (n : Name), n ∈ s.names → s.idx n < k → v.at (s.idx n) = w.at (s.idx n) := by
    intro k
    induction k with
    | zero => intro n _ hlt; omega
    | succ k ih =>
      intro n hn hlt
      by_cases hc : Conditional calls n
      · obtain ⟨d, hd, hdn⟩ := hc
        obtain ⟨x, hx, rfl, c, hcx⟩ := node_of_child h hd hdn
        obtain ⟨g, hgm, hk, _⟩ := hg.covers x hx c hcx
        obtain ⟨i, hgi⟩ := List.getElem?_of_mem hgm
        rw [h1 g hgm _ hk, h2 g hgm _ hk]
        have : g.cond.satVec s.idx v = g.cond.satVec s.idx w := by
          refine satVec_congr (fun p hp => ih p (parents_known h hgm p hp) ?_)
          have := idx_edge_lt h (group_edge h ⟨g, hgi, hp⟩ ⟨g, hgi, hk⟩)
          omega
        rw [this]
      · exact hroot n ((reach_isNode h n).1 hn) hc
  refine vec_ext hv hw ?_
  intro i hi'
  have hlt : i < s.names.length := by
    have : s.names.length = s.com.length := by simp [Space.names]
    rw [this, ← hi.len]; exact hi'
  have hidx : s.idx s.names[i] = i := idx_unique (reach_ninv h).nodup (List.getElem?_eq_getElem hlt)
  have := key (i + 1) s.names[i] (List.getElem_mem hlt) (by rw [hidx]; omega)
  rw [hidx] at this
  exact this

/-- Drawing a valid configuration, with defaults for what is not set in it, gives it. -/
theorem sample_preimage (h : Reach calls s) (hsep : Separable calls) (hw : WeaklyLayered calls) {v : Vec} {a : Assign}
    (hv : Represents s v a) (hval : Valid calls a) :
    s.sampleConfiguration (constDraws s (preimage s v)) 1 none = some (.one { vec := v }) := by
  have hi := sinv_of_reach h
  have hlenp : (preimage s v).length = s.len := by simp [preimage, hi.len]
  by_cases h0 : s.len = 0
  · have hnil : v = [] := List.length_eq_zero_iff.1 (by rw [hv.1, h0])
    unfold Space.sampleConfiguration
    rw [if_pos h0, hnil]
  · have hmask : maskCol s (preimage s v) = v := by
      refine groups_unique h (u := preimage s v) (by rw [maskCol_length, hlenp]) hv.1 ?_
        (fun c hc m hm => maskCol_group h hw _ hc hm) ?_
      · rintro n ⟨x, hx, rfl⟩ hc
        have hxn := (reach_isNode h x.name).2 ⟨x, hx, rfl⟩
        rw [maskCol_root h hxn hc, preimage_at h v hx]
        obtain ⟨q, hq⟩ := hval.roots _ ⟨x, hx, rfl⟩ hc
        rw [at_idx hv hxn, hq]
        rfl
      · intro c hc m hm
        obtain ⟨i, hci⟩ := List.getElem?_of_mem hc
        have := (activity_iff h hsep hv).1 hval.active i c hci m hm
        obtain ⟨x, hx, rfl⟩ := (reach_isNode h m).1 (kids_known h hc m hm)
        rw [preimage_at h v hx]
        cases hs : c.cond.satVec s.idx v with
        | false =>
          rw [hs] at this
          rw [if_neg (by simp)]
          simpa using this
        | true =>
          rw [hs, Option.isSome_iff_exists] at this
          obtain ⟨q, hq⟩ := this
          rw [if_pos rfl, hq]
          rfl
    have := constDraws_one h h0 hlenp (u := preimage s v) ?_ ?_ (size := none) rfl
    · rw [this, hmask]
    · intro f hf
      rw [← uncond_mask h hf, hmask,
        forbids_represents h hv (hi.hist.forbs.mem_iff.1 (List.mem_append.2 (.inl hf)))]
      exact hval.allowed f (hi.hist.forbs.mem_iff.1 (List.mem_append.2 (.inl hf)))
    · intro f hf
      rw [hmask, forbids_represents h hv (hi.hist.forbs.mem_iff.1 (List.mem_append.2 (.inr hf)))]
      exact hval.allowed f (hi.hist.forbs.mem_iff.1 (List.mem_append.2 (.inr hf)))

/-- **C55** (partial: the same guards as for C26).  Every valid configuration is returned for some outcome of the
random generator with legal values, in the first batch. -/
theorem C55_every_valid_can_be_sampled_partial (h : Reach calls s) (hsep : Separable calls)
    (hw : WeaklyLayered calls) {v : Vec} {a : Assign} (hv : Represents s v a) (hval : Valid calls a) :
    ∃ rng, LegalDraws calls s rng ∧ s.sampleConfiguration rng 1 none = some (.one { vec := v }) := by
  refine ⟨constDraws s (preimage s v), constDraws_legal h ?_, sample_preimage h hsep hw hv hval⟩
  · intro x hx
    have hxn := (reach_isNode h x.name).2 ⟨x, hx, rfl⟩
    rw [preimage_at h v hx, at_idx hv hxn]
    refine ⟨_, rfl, ?_⟩
    cases ha : a x.name with
    | none => exact defVec_legal ((reach_wf h).1 x hx)
    | some q => exact hval.legal x hx q ha

/-! ## Examples -/

/-- All hyperparameters of a concrete history are legal in a column: a check. -/
theorem legal_of_check {u : Vec} (hb : (allHps calls).all (fun x => match u.at (s.idx x.name) with
    | some q => x.kind.legalVec q
    | none => false) = true) :
    ∀ x ∈ allHps calls, ∃ q, u.at (s.idx x.name) = some q ∧ x.kind.legalVec q = true := by
  intro x hx
  have := List.all_eq_true.1 hb x hx
  cases hu : u.at (s.idx x.name) with
  | none => rw [hu] at this; cases this
  | some q => rw [hu] at this; exact ⟨q, rfl, this⟩

namespace Ex

theorem sepL : Separable [callL] := by
  refine separable_of_plain reachL ?_ (by decide +kernel)
  intro c hc d hd
  simp only [allConds, callL, List.flatMap_cons, List.flatMap_nil, List.append_nil, List.mem_cons,
    List.not_mem_nil, or_false] at hc hd
  rcases hc with rfl | rfl <;> rcases hd with rfl | rfl <;> intro he <;>
    first
    | exact trivial
    | exact absurd he (by decide +kernel)

/-- A column for the two-call example, in which `x` is inactive. -/
def col2 : Vec := [some 0, some 1, some 0, some 1, some (1/2)]

theorem draws2 : LegalDraws [call1, call2] sp2 (constDraws sp2 col2) :=
  constDraws_legal reach2 (legal_of_check (by decide +kernel))

theorem sample2 {size : Option Int} (hs : size.getD 1 = 1) :
    sp2.sampleConfiguration (constDraws sp2 col2) 1 size = some (.one { vec := maskCol sp2 col2 }) :=
  constDraws_one reach2 (by decide +kernel) (by decide +kernel)
    (fun f hf => by rw [← onVec_iff, Bool.not_eq_true]; revert f hf; decide +kernel)
    (fun f hf => by rw [← onVec_iff, Bool.not_eq_true]; revert f hf; decide +kernel) hs

end Ex

/-- The two-call example meets the hypotheses of C25 and C26: the sampled configuration is valid. -/
example : ∃ a, Represents Ex.sp2 (maskCol Ex.sp2 Ex.col2) a ∧ Valid [Ex.call1, Ex.call2] a := by
  have h := C26_samples_valid_partial Ex.reach2 Ex.sep2 Ex.weakly2 Ex.draws2 (Ex.sample2 (size := none) rfl)
  generalize maskCol Ex.sp2 Ex.col2 = v at h
  exact h { vec := v } (by simp [Sampled.all])

example : maskCol Ex.sp2 Ex.col2 ≠ Ex.col2 := by decide +kernel

/-- C55 on the chain: the configuration in which only `p` is set. -/
example : ∃ rng, LegalDraws [Ex.callL] Ex.spL rng ∧
    Ex.spL.sampleConfiguration rng 1 none = some (.one { vec := [some 1, none, none] }) := by
  have hv := represents_asg Ex.reachL (v := [some 1, none, none]) (by decide +kernel)
  refine C55_every_valid_can_be_sampled_partial Ex.reachL Ex.sepL Ex.layeredL.weakly hv ?_
  refine C16_accepted_legal_roots_partial Ex.reachL Ex.sepL (fun f hf => by simp [allForbs, Ex.callL] at hf) hv ?_
    (by decide +kernel)
  intro x hx hc q hq
  simp only [allHps, Ex.callL, List.flatMap_cons, List.flatMap_nil, List.append_nil, List.mem_cons,
    List.not_mem_nil, or_false] at hx
  rcases hx with rfl | rfl | rfl
  · have : asg Ex.spL.idx [some 1, none, none] (Ex.ab "p").name = some 1 := by decide +kernel
    rw [this] at hq
    cases hq
    decide +kernel
  · have : asg Ex.spL.idx [some 1, none, none] (Ex.ab "x").name = none := by decide +kernel
    rw [this] at hq
    cases hq
  · have : asg Ex.spL.idx [some 1, none, none] (Ex.ab "y").name = none := by decide +kernel
    rw [this] at hq
    cases hq

/-- **C26 fails without the guard:** the condition of `z` is evaluated before `y` is unset, so the sampled
configuration has a value for `z` although its condition does not hold.  The generator only gives legal values. -/
theorem C26_invalid_sample :
    ∃ calls s rng c, Reach calls s ∧ LegalDraws calls s rng ∧
      s.sampleConfiguration rng 1 none = some (.one c) ∧ s.names = ["p", "r", "x", "y", "z"] ∧
      c.vec = [some 1, some 0, none, none, some 0] ∧ s.check c.vec = some (.inactiveSet "z") :=
  ⟨[Ex.callI], Ex.spI, constDraws Ex.spI [some 1, some 0, some 0, some 0, some 0], _, Ex.reachI,
    constDraws_legal Ex.reachI (legal_of_check (by decide +kernel)),
    constDraws_one Ex.reachI (by decide +kernel) (by decide +kernel)
      (fun f hf => by rw [← onVec_iff, Bool.not_eq_true]; revert f hf; decide +kernel)
      (fun f hf => by rw [← onVec_iff, Bool.not_eq_true]; revert f hf; decide +kernel) rfl,
    by decide +kernel, by decide +kernel, by decide +kernel⟩

/-- **C27 on the empty space:** `size=1` gives a list there and a single configuration elsewhere. -/
theorem C27_size_one_on_empty_space (rng : Nat → Nat → Mat) (fuel : Nat) :
    (∃ c, ({} : Space).sampleConfiguration rng fuel (some 1) = some (.many [c])) ∧
    (∃ c, Ex.sp2.sampleConfiguration (constDraws Ex.sp2 Ex.col2) 1 (some 1) = some (.one c)) := by
  exact ⟨⟨{ vec := [] }, rfl⟩, ⟨{ vec := maskCol Ex.sp2 Ex.col2 }, Ex.sample2 rfl⟩⟩

/-- The same draws meet the hypotheses of the remaining theorems about samples. -/
example : Ex.sp2.check (maskCol Ex.sp2 Ex.col2) = none := by
  have h := C26_samples_pass_check_partial Ex.reach2 Ex.weakly2 Ex.own2 Ex.draws2 (Ex.sample2 (size := none) rfl)
  generalize maskCol Ex.sp2 Ex.col2 = v at h
  exact h { vec := v } (by simp [Sampled.all])

example : ∃ c, Ex.sp2.sampleConfiguration (constDraws Ex.sp2 Ex.col2) 1 (some 1) = some (.one c) := by
  have h := Ex.sample2 (size := some 1) rfl
  generalize maskCol Ex.sp2 Ex.col2 = v at h
  obtain ⟨c, hc⟩ := (C27_sample_count_partial h).2.2.2.1 rfl (by decide +kernel)
  exact ⟨c, by rw [h, hc]⟩

/-- A batch of these draws is never empty, so that sampling ends for every size. -/
example (size : Nat) : ∃ r, Ex.sp2.sampleConfiguration (constDraws Ex.sp2 Ex.col2) size (some size) = some r := by
  refine C27_sampling_ends (fun b w hw => ?_) (by simp)
  have hrect := ofCols_rect (n := Ex.sp2.len) (vs := List.replicate w Ex.col2)
  rw [List.length_replicate] at hrect
  have hcols := cols_ofCols (n := Ex.sp2.len) (vs := List.replicate w Ex.col2)
    (fun u' hu' => by rw [(List.mem_replicate.1 hu').2]; decide +kernel)
  rw [List.length_replicate] at hcols
  have hmem : maskCol Ex.sp2 Ex.col2 ∈ Ex.sp2.sampleBatch w (ofCols Ex.sp2.len (List.replicate w Ex.col2)) := by
    rw [batch_mem Ex.reach2 hrect ofCols_length, hcols]
    exact ⟨Ex.col2, List.mem_replicate.2 ⟨by omega, rfl⟩, rfl,
      fun f hf => by rw [← onVec_iff, Bool.not_eq_true]; revert f hf; decide +kernel,
      fun f hf => by rw [← onVec_iff, Bool.not_eq_true]; revert f hf; decide +kernel⟩
  exact List.ne_nil_of_mem hmem

end Verif
