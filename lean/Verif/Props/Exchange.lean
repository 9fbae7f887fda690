import Verif.Lemmas.Exchange
import Verif.Lemmas.OptName
import Verif.Props.Change
import Verif.Props.Neighbors

/-!
# C38, C56, C57: the one-exchange neighbourhood

`nb` stands for what the calls of `_neighborhood` return (C35, C36, C53 say what that can be), `choices` for the random
integers; both are arbitrary.
-/

set_option autoImplicit false

namespace Verif
open Verif.Spec

variable {calls : List Call} {s : Space} {nb : Nat → Name → List Rat}

theorem tasks_spec {c : Config} {num : Nat} : ∀ {xs : List Node} {ts : List Task},
    exchangeTasks s c num xs = .ok ts →
    (ts.map (fun t => t.hp.name)).Sublist (xs.map Node.name) ∧
    (∀ t ∈ ts, ∃ x ∈ xs, t.hp = x.hp ∧ t.idx = s.idx x.name ∧ x.hp.kind.size ≠ some 1 ∧
      isSet (c.vec.at (s.idx x.name)) = true ∧ planFor x.hp.kind num (c.getItem s x.name).1 = .ok t.plan ∧
      t.left = t.plan.toGen ∧ t.pending = [] ∧ t.generated = false) ∧
    (∀ x ∈ xs, x.hp.kind.size ≠ some 1 → isSet (c.vec.at (s.idx x.name)) = true → ∃ t ∈ ts, t.hp = x.hp)
  | [], ts, h => by
    simp only [exchangeTasks, Except.ok.injEq] at h
    subst h
    simp
  | x :: xs, ts, h => by
    simp only [exchangeTasks] at h
    split at h
    · rename_i hskip
      obtain ⟨h1, h2, h3⟩ := tasks_spec h
      refine ⟨h1.cons _, ?_, ?_⟩
      · intro t ht
        obtain ⟨y, hy, r⟩ := h2 t ht
        exact ⟨y, List.mem_cons_of_mem _ hy, r⟩
      · intro y hy hs hset
        rcases List.mem_cons.1 hy with rfl | hy
        · simp [hs, hset] at hskip
        · exact h3 y hy hs hset
    · rename_i hskip
      simp only [Bool.or_eq_true, decide_eq_true_eq, Bool.not_eq_true', not_or, Bool.not_eq_false] at hskip
      split at h
      · cases h
      · rename_i p hp
        split at h
        · cases h
        · rename_i ts' hts
          simp only [Except.ok.injEq] at h
          subst h
          obtain ⟨h1, h2, h3⟩ := tasks_spec hts
          refine ⟨?_, ?_, ?_⟩
          · simp only [List.map_cons]
            exact h1.cons_cons x.name
          · intro t ht
            rcases List.mem_cons.1 ht with rfl | ht
            · exact ⟨x, by simp, rfl, rfl, hskip.1, hskip.2, hp, rfl, rfl, rfl⟩
            · obtain ⟨y, hy, r⟩ := h2 t ht
              exact ⟨y, List.mem_cons_of_mem _ hy, r⟩
          · intro y hy hs hset
            rcases List.mem_cons.1 hy with rfl | hy
            · exact ⟨_, List.mem_cons_self, rfl⟩
            · obtain ⟨t, ht, e⟩ := h3 y hy hs hset
              exact ⟨t, List.mem_cons_of_mem _ ht, e⟩

/-- The state before the loop. -/
theorem init_spec (h : Reach calls s) {c : Config} {num : Nat} {st : ExState} (hi : exchangeInit s c num = .ok st)
    {v : Vec} :
    ExInv s v nb st.tasks st ∧ DistinctTasks st.tasks ∧ st.out = [] ∧
    (∀ t ∈ st.tasks, t.hp ∈ allHps calls ∧ t.idx = s.idx t.hp.name ∧ t.hp.name ∈ s.names ∧
      t.hp.kind.size ≠ some 1 ∧ isSet (c.vec.at (s.idx t.hp.name)) = true ∧
      planFor t.hp.kind num (c.getItem s t.hp.name).1 = .ok t.plan ∧
      t.left = t.plan.toGen ∧ t.left ≠ 0 ∧ t.pending = [] ∧ t.generated = false) ∧
    (∀ x ∈ allHps calls, x.kind.size ≠ some 1 → isSet (c.vec.at (s.idx x.name)) = true → ∃ t ∈ st.tasks, t.hp = x) := by
  unfold exchangeInit at hi
  split at hi
  · cases hi
  · rename_i ts hts
    split at hi
    · cases hi
    · rename_i hpos
      simp only [Except.ok.injEq] at hi
      subst hi
      obtain ⟨h1, h2, h3⟩ := tasks_spec hts
      have hpos' : ∀ t ∈ ts, t.left ≠ 0 := by
        intro t ht e
        exact hpos (List.any_eq_true.2 ⟨t, ht, by simp [e]⟩)
      have hcom := (sinv_of_reach h).com
      refine ⟨⟨rfl, fun i t ht => ⟨t, ht, rfl, rfl, rfl, Nat.le_refl _⟩, ?_, by simp, ?_⟩, ?_, rfl, ?_, ?_⟩
      · intro t ht y hy
        obtain ⟨x, _, _, _, _, _, _, _, hp, _⟩ := h2 t ht
        rw [hp] at hy; cases hy
      · have : ts.filter (fun t => decide (t.left ≠ 0)) = ts :=
          List.filter_eq_self.2 (fun t ht => by simp [hpos' t ht])
        simp only [this]
      · have hn := (reach_ninv h).nodup
        have : (s.dag.nodes.map Node.name).Nodup := by rw [hcom]; exact hn
        exact this.sublist h1
      · intro t ht
        obtain ⟨x, hx, e1, e2, e3, e4, e5, e6, e7, e8⟩ := h2 t ht
        rw [hcom] at hx
        have hname : t.hp.name = x.name := by rw [e1]; rfl
        rw [hname, e1]
        exact ⟨node_hp h hx, e2, mem_names hx, e3, e4, e5, e6, hpos' t ht, e7, e8⟩
      · intro x hx hs hset
        obtain ⟨y, hy, rfl⟩ := node_of_hp h hx
        exact h3 y (by rw [hcom]; exact hy) hs hset

theorem run_spec (h : Reach calls s) {c : Config} {num : Nat} {choices : List Nat} {st : ExState}
    (hr : oneExchange s c num nb choices = .ok st) :
    ∃ st0, exchangeInit s c num = .ok st0 ∧ exchangeRun s c.vec nb choices st0 = .ok st ∧
      ExInv s c.vec nb st0.tasks st := by
  unfold oneExchange at hr
  split at hr
  · cases hr
  · rename_i st0 h0
    refine ⟨st0, h0, hr, ?_⟩
    exact run_inv (P := ExInv s c.vec nb st0.tasks) (fun st i st' hp hs => exInv_step hp hs) (init_spec h h0).1 hr

/-! ## C38 -/

/-- **C38, what is exchanged.** Every generated neighbour is the result of setting one active hyperparameter of the
space to a proposed entry; what does not depend on it is as before, and no clause that mentions it is violated. -/
theorem C38_one_value_exchanged (h : Reach calls s) (hown : OwnClauses calls) {c : Config} {a : Assign}
    (hv : Represents s c.vec a) {num : Nat} {choices : List Nat} {st : ExState}
    (hr : oneExchange s c num nb choices = .ok st) {n : Name} {w : Vec} (hw : (n, w) ∈ st.out) :
    ∃ y ∈ allHps calls, y.name = n ∧ (∃ q, a n = some q) ∧ ∃ k x b, x ∈ nb k n ∧
      w = s.changeHp c.vec n x (s.idx n) ∧ Represents s w b ∧ b n = some x ∧
      (∀ m, Known calls m → m ≠ n → ¬ Path (ParentOf calls) n m → b m = a m) ∧
      (∀ f ∈ allForbs calls, ClauseOn f n → ¬ Forbids b f) := by
  obtain ⟨st0, h0, _, hi⟩ := run_spec h hr
  obtain ⟨_, _, _, hts, _⟩ := init_spec (nb := nb) (v := c.vec) h h0
  obtain ⟨t, ht, e1, k, x, hx, e2, e3⟩ := hi.out (n, w) hw
  obtain ⟨t1, t2, t3, _, t5, _⟩ := hts t ht
  simp only at e1 e2
  subst e1
  have hlen : w.length = s.len := by rw [e2, changeHp_length]; exact hv.1
  have hb := represents_asg h hlen
  rw [t2] at e2 e3
  refine ⟨t.hp, t1, rfl, ?_, k, x, asg s.idx w, hx, e2, hb, ?_, ?_, ?_⟩
  · rw [at_idx hv t3] at t5
    cases ha : a t.hp.name with
    | none => rw [ha] at t5; cases t5
    | some q => exact ⟨q, rfl⟩
  · rw [e2]; exact changeHp_at h hv.1 t3
  · intro m hm hne hp
    have hmn := (reach_isNode h m).2 hm
    rw [← at_idx hv hmn, e2]
    exact changeHp_other h hv.1 t3 hmn hne hp
  · intro f hf hon hforb
    have := (lookup_forbids h hown hb t.hp.name).2 ⟨f, hf, hon, hforb⟩
    unfold exBad at e3
    rw [← e2, this] at e3
    cases e3

/-- **C38** (partial: layered conditions, and every clause about something that depends on the exchanged hyperparameter
mentions it; see the counterexample). Every generated neighbour of a valid configuration is valid, and is accepted by
the validator. -/
theorem C38_neighbours_valid_partial (h : Reach calls s) (hsep : Separable calls) (hown : OwnClauses calls)
    (hl : WeaklyLayered calls) {c : Config} {a : Assign}
    (hv : Represents s c.vec a) (ha : Valid calls a) (hnb : LegalProposals calls nb) {num : Nat} {choices : List Nat}
    {st : ExState} (hr : oneExchange s c num nb choices = .ok st) {n : Name} {w : Vec} (hw : (n, w) ∈ st.out)
    (hcov : Covered calls n) : ∃ b, Represents s w b ∧ Valid calls b ∧ s.check w = none := by
  obtain ⟨y, hy, rfl, hset, k, x, b, hx, rfl, hb, hbn, hoth, hcl⟩ := C38_one_value_exchanged h hown hv hr hw
  obtain ⟨b', k1, k2, k3, k4, k5, k6⟩ := C23_change_reestablishes_activity_partial h hsep hl hv ha.active
    (n := y.name) ⟨y, hy, rfl⟩ hset x
  have hbb : ∀ m, Known calls m → b m = b' m := by
    intro m hm
    have hmn := (reach_isNode h m).2 hm
    rw [← at_idx hb hmn, at_idx k1 hmn]
  have hval : Valid calls b := by
    refine ⟨?_, ?_, ?_, ?_⟩
    · intro m hm hc
      rw [hbb m hm]
      exact k4 ha.roots m hm hc
    · have := k3
      rw [activity_iff h hsep k1] at this
      exact (activity_iff h hsep hb).2 this
    · intro z hz q hq
      by_cases e : z.name = y.name
      · rw [e, hbn] at hq
        cases hq
        rw [reach_hp_inj h z hz y hy e]
        exact hnb k y hy x hx
      · rw [hbb _ ⟨z, hz, rfl⟩] at hq
        rcases k6 z hz e q hq with hz' | rfl
        · exact ha.legal z hz q hz'
        · exact defVec_legal ((reach_wf h).1 z hz)
    · intro f hf hforb
      by_cases hon : ClauseOn f y.name
      · exact hcl f hf hon hforb
      · rcases hcov f hf with hc | hc
        · exact hon hc
        · refine ha.allowed f hf ((forbids_congr f ?_).1 hforb)
          intro z hz
          exact hoth z.name ⟨z, hown f hf z hz, rfl⟩ (fun e => hon ⟨z, hz, e⟩) (hc z hz)
  exact ⟨b, hb, hval, C17_valid_is_accepted_partial h hsep hown hb hval⟩

/-- **C38, difference.** If the current entry is never proposed, no neighbour is the original. -/
theorem C38_neighbours_differ (h : Reach calls s) (hown : OwnClauses calls) {c : Config} {a : Assign}
    (hv : Represents s c.vec a) (hnb : FreshProposals calls a nb) {num : Nat} {choices : List Nat}
    {st : ExState} (hr : oneExchange s c num nb choices = .ok st) {n : Name} {w : Vec} (hw : (n, w) ∈ st.out) :
    w ≠ c.vec := by
  obtain ⟨y, hy, rfl, _, k, x, b, hx, rfl, hb, hbn, _, _⟩ := C38_one_value_exchanged h hown hv hr hw
  intro e
  have hn := (reach_isNode h y.name).2 ⟨y, hy, rfl⟩
  apply hnb k y hy x hx
  rw [← at_idx hv hn, ← hbn, ← at_idx hb hn, e]

/-! ## C56 -/

/-- **C56, numbers.** Exchanging an inactive hyperparameter or one with a single value gives nothing;
exchanging a categorical with `k` choices gives at most `k - 1` neighbours, an ordinal at most two, a number at most
`num_neighbors`. -/
theorem C56_number_of_neighbours (h : Reach calls s) {c : Config} {num : Nat} {choices : List Nat} {st : ExState}
    (hr : oneExchange s c num nb choices = .ok st) {y : HP} (hy : y ∈ allHps calls) :
    (c.vec.at (s.idx y.name) = none ∨ y.kind.size = some 1 → yieldedFor st y.name = []) ∧
    (yieldedFor st y.name).length ≤ (match y.kind with
      | .cat cs => cs.length - 1
      | .ord _ => 2
      | .const _ => 0
      | .int _ _ => num
      | .flt _ _ => num) := by
  obtain ⟨st0, h0, hrun, hi⟩ := run_spec h hr
  obtain ⟨i1, i2, i3, i4, i5⟩ := init_spec (nb := nb) (v := c.vec) h h0
  have hb := (run_inv (P := fun st => ExInv s c.vec nb st0.tasks st ∧ ∀ (j : Nat) (t : Task), st.tasks[j]? = some t →
      (yieldedFor st t.hp.name).length + t.left ≤ t.plan.toGen)
    (fun st i st' hp hs => ⟨exInv_step hp.1 hs, yielded_bound i2 hp.1 hp.2 hs⟩) ⟨i1, ?_⟩ hrun).2
  swap
  · intro j t ht
    have := (i4 t (List.mem_of_getElem? ht)).2.2.2.2.2.2.1
    simp [yieldedFor, i3, this]
  by_cases hex : ∃ t ∈ st0.tasks, t.hp = y
  · obtain ⟨t0, ht0, rfl⟩ := hex
    obtain ⟨_, _, _, t4, t5, t6, _⟩ := i4 t0 ht0
    constructor
    · rintro (h1 | h1)
      · rw [h1] at t5; cases t5
      · exact absurd h1 t4
    · obtain ⟨j, hj⟩ := List.getElem?_of_mem ht0
      have hlt : j < st.tasks.length := by rw [hi.len]; exact (List.getElem?_eq_some_iff.1 hj).1
      obtain ⟨t, ht⟩ : ∃ t, st.tasks[j]? = some t := ⟨_, List.getElem?_eq_getElem hlt⟩
      obtain ⟨t0', e0, e1, _, e3, _⟩ := hi.same j t ht
      rw [hj] at e0; cases e0
      have hle := hb j t ht
      rw [e1, e3] at hle
      have hle' : (yieldedFor st t0.hp.name).length ≤ t0.plan.toGen := by omega
      refine Nat.le_trans hle' ?_
      generalize t0.hp.kind = kd at *
      cases kd with
      | cat cs => simp only [planFor, Except.ok.injEq] at t6; rw [← t6]
      | ord cs =>
        simp only [planFor] at t6
        split at t6
        · cases t6
        · split at t6
          · cases t6
          · rename_i m hm
            simp only [Except.ok.injEq] at t6
            rw [← t6]
            simp only
            unfold Num.ordNumNeighbors at hm
            simp only at hm
            split at hm
            · cases hm; omega
            · simp only [Option.map_eq_some_iff] at hm
              obtain ⟨i, _, rfl⟩ := hm
              split <;> omega
      | const q => simp [Kind.size] at t4
      | int l u => simp only [planFor, Except.ok.injEq] at t6; rw [← t6]
      | flt l u => simp only [planFor, Except.ok.injEq] at t6; rw [← t6]
  · have hnil : yieldedFor st y.name = [] := by
      unfold yieldedFor
      rw [List.map_eq_nil_iff, List.filter_eq_nil_iff]
      intro p hp hpn
      obtain ⟨t, ht, e, _⟩ := hi.out p hp
      refine hex ⟨t, ht, reach_hp_inj h _ (i4 t ht).1 _ hy ?_⟩
      rw [← e]
      exact of_decide_eq_true hpn
    exact ⟨fun _ => hnil, by rw [hnil]; exact Nat.zero_le _⟩

/-- **C56, end.** However the neighbours are proposed, the generator ends as soon as each of its entries has been selected
often enough: for every sequence of choices in which every index of an entry occurs at least as often as the largest number of
neighbours of one hyperparameter, the loop has ended; it does not fail if every call of `_neighborhood` proposes something. -/
theorem C56_generator_ends (h : Reach calls s) {c : Config} {num : Nat} {choices : List Nat} {st : ExState}
    (hr : oneExchange s c num nb choices = .ok st)
    (hch : ∀ i, i < st.tasks.length → ∀ t, st.tasks[i]? = some t → t.plan.toGen ≤ choices.count i) : st.alive = 0 := by
  obtain ⟨st0, h0, hrun, hi⟩ := run_spec h hr
  obtain ⟨i1, i2, i3, i4, i5⟩ := init_spec (nb := nb) (v := c.vec) h h0
  rw [hi.alive]
  apply List.length_eq_zero_iff.2
  rw [List.filter_eq_nil_iff]
  intro t ht
  obtain ⟨i, hti⟩ := List.getElem?_of_mem ht
  obtain ⟨t0, e1, e2⟩ := run_left i1 hrun i t hti
  obtain ⟨t0', e3, e4, e5, e6, e7⟩ := hi.same i t hti
  rw [e1] at e3; cases e3
  have hle := hch i (List.getElem?_eq_some_iff.1 hti).1 t hti
  have := (i4 t0 (List.mem_of_getElem? e1)).2.2.2.2.2.2.1
  rw [← e6] at this
  simp only [ne_eq, decide_not, Bool.not_eq_true', decide_eq_false_iff_not, Decidable.not_not]
  omega

/-- **C56, no failure.** If the configuration was built from values, at least one neighbour is asked for and every call of
`_neighborhood` proposes something, the generator does not raise. -/
theorem C56_no_failure (h : Reach calls s) {d : Dict} {al : Bool} {c : Config} (hc : Config.ofValues s d al = .ok c)
    {num : Nat} (hnum : num ≠ 0) (hne : ∀ k, ∀ y ∈ allHps calls, y.kind.size ≠ some 1 → nb k y.name ≠ [])
    (choices : List Nat) :
    ∃ st, oneExchange s c num nb choices = .ok st := by
  have hplan : ∀ x ∈ s.dag.nodes, x.hp.kind.size ≠ some 1 → isSet (c.vec.at (s.idx x.name)) = true →
      ∃ p, planFor x.hp.kind num (c.getItem s x.name).1 = .ok p ∧ p.toGen ≠ 0 := by
    intro x hx hs hset
    rw [(sinv_of_reach h).com] at hx
    have hwf := node_wf h hx
    cases hk : x.hp.kind with
    | cat cs =>
      refine ⟨_, rfl, ?_⟩
      rw [hk] at hs
      simp only [Kind.size, ne_eq, Option.some.injEq] at hs
      have : cs ≠ [] := by
        intro e
        have hleg := HP.wf_legal hwf
        rw [hk, e] at hleg
        simp [Kind.legalValue, Val.pyIn] at hleg
      have : 0 < cs.length := List.length_pos_iff.2 this
      simp only; omega
    | ord cs =>
      rcases (C21_values_kept h hc).2.2 x.hp (node_hp h hx) with ⟨w, _, hw2, hw3, hw4⟩ | ⟨_, hn, _⟩
      · have hround : roundVal x.hp.kind w = w := by rw [hk]; simp [roundVal, Kind.isFloat]
        have e : (c.getItem s x.name).1 = .ok w := by rw [← hround]; exact hw4
        have hvec : (seqIndex cs w).isSome := by
          obtain ⟨q, hq⟩ := legal_toVec hw2
          rw [hk] at hq
          cases hsi : seqIndex cs w with
          | none => simp [Kind.toVec, hsi] at hq
          | some i => rfl
        obtain ⟨i, hsi⟩ := Option.isSome_iff_exists.1 hvec
        rw [hk] at hs
        simp only [Kind.size, ne_eq, Option.some.injEq] at hs
        have hnum : Num.ordNumNeighbors cs (some w) = some (if i = 0 ∨ i = cs.length - 1 then 1 else 2) := by
          simp only [Num.ordNumNeighbors, if_neg hs, hsi, Option.map_some]
        rw [e]
        simp only [planFor, hnum]
        refine ⟨_, rfl, ?_⟩
        simp only
        split <;> omega
      · have hn' : c.vec.at (s.idx x.name) = none := hn
        rw [hn'] at hset; cases hset
    | const q => rw [hk] at hs; simp [Kind.size] at hs
    | int l u => exact ⟨_, rfl, hnum⟩
    | flt l u => exact ⟨_, rfl, hnum⟩
  have htasks : ∀ xs : List Node, (∀ x ∈ xs, x ∈ s.dag.nodes) →
      ∃ ts, exchangeTasks s c num xs = .ok ts ∧ ∀ t ∈ ts, t.left ≠ 0 := by
    intro xs
    induction xs with
    | nil => intro _; exact ⟨[], rfl, by simp⟩
    | cons x xs ih =>
      intro hx
      obtain ⟨ts, h1, h2⟩ := ih (fun y hy => hx y (List.mem_cons_of_mem _ hy))
      simp only [exchangeTasks]
      split
      · exact ⟨ts, h1, h2⟩
      · rename_i hskip
        simp only [Bool.or_eq_true, decide_eq_true_eq, Bool.not_eq_true', not_or, Bool.not_eq_false] at hskip
        obtain ⟨p, hp, hp0⟩ := hplan x (hx x (by simp)) hskip.1 hskip.2
        simp only [hp, h1]
        refine ⟨_, rfl, ?_⟩
        intro t ht
        rcases List.mem_cons.1 ht with rfl | ht
        · exact hp0
        · exact h2 t ht
  obtain ⟨ts, h1, h2⟩ := htasks s.dag.nodes (fun x hx => hx)
  have h0 : exchangeInit s c num = .ok { tasks := ts, alive := ts.length } := by
    unfold exchangeInit
    rw [h1]
    simp only
    rw [if_neg]
    simp only [List.any_eq_true, not_exists, not_and, beq_iff_eq]
    exact h2
  unfold oneExchange
  rw [h0]
  obtain ⟨_, _, _, i4, _⟩ := init_spec (nb := nb) (v := c.vec) h h0
  exact run_total choices _ (fun t ht k => hne k t.hp (i4 t ht).1 (i4 t ht).2.2.2.1)

/-! ## C57 -/

/-- **C57.** When the generator has ended, an active categorical or ordinal hyperparameter has been exchanged exactly once
with each proposed value that violates no clause about the hyperparameter (`l` is the list of these values, in the order in
which they were proposed), provided that `_neighborhood` proposes as many values as it was asked for (C35). -/
theorem C57_choices_exhausted (h : Reach calls s) (hown : OwnClauses calls) {c : Config} {a : Assign}
    (hv : Represents s c.vec a) {num : Nat} {choices : List Nat} {st : ExState}
    (hr : oneExchange s c num nb choices = .ok st) (hend : st.alive = 0) {y : HP} (hy : y ∈ allHps calls)
    (hch : IsChoice y) (hset : ∃ q, a y.name = some q) (hsize : y.kind.size ≠ some 1)
    (hlen : ∀ k, some (nb k y.name).length = (match y.kind with
      | .cat cs => some (cs.length - 1)
      | .ord cs => (c.getItem s y.name).1.toOption.bind (fun w => Num.ordNumNeighbors cs (some w))
      | _ => none)) :
    ∃ (k : Nat) (l : List Rat), l.Sublist (nb k y.name) ∧ yieldedFor st y.name = l.map (fun x => s.changeHp c.vec y.name x (s.idx y.name)) ∧
      ∀ x ∈ nb k y.name, x ∈ l ↔ ∀ b, Represents s (s.changeHp c.vec y.name x (s.idx y.name)) b →
        ∀ f ∈ allForbs calls, ClauseOn f y.name → ¬ Forbids b f := by
  obtain ⟨st0, h0, hrun, hi⟩ := run_spec h hr
  obtain ⟨i1, i2, i3, i4, i5⟩ := init_spec (nb := nb) (v := c.vec) h h0
  have hyn := (reach_isNode h y.name).2 ⟨y, hy, rfl⟩
  obtain ⟨t0, ht0, rfl⟩ := i5 y hy hsize (by
    rw [at_idx hv hyn]; obtain ⟨q, hq⟩ := hset; rw [hq]; rfl)
  obtain ⟨_, t2, t3, t4, t5, t6, t7, t8, t9, t10⟩ := i4 t0 ht0
  obtain ⟨j, hj⟩ := List.getElem?_of_mem ht0
  have hplan : t0.plan.regen = false ∧ (∀ k, (nb k t0.hp.name).length = t0.plan.toGen) ∧
      t0.plan.maxIter = t0.plan.toGen := by
    rcases hch with ⟨cs, hk⟩ | ⟨cs, hk⟩
    · rw [hk] at t6 hlen
      simp only [planFor, Except.ok.injEq] at t6
      rw [← t6]
      exact ⟨rfl, fun k => Option.some.inj (hlen k), rfl⟩
    · rw [hk] at t6 hlen
      simp only [planFor] at t6
      split at t6
      · cases t6
      · rename_i w hw
        split at t6
        · cases t6
        · rename_i m hm
          simp only [Except.ok.injEq] at t6
          rw [← t6]
          refine ⟨rfl, fun k => ?_, rfl⟩
          have := hlen k
          rw [hw] at this
          simp only [Except.toOption, Option.bind_some, hm, Option.some.injEq] at this
          exact this
  have honce := (run_inv (P := fun st => ExInv s c.vec nb st0.tasks st ∧ ∀ t : Task, st.tasks[j]? = some t →
      OnceInv s c.vec nb t (yieldedFor st t.hp.name))
    (fun st i st' hp hs => ⟨exInv_step hp.1 hs,
      once_step_all i2 hp.1 (fun t ht => by rw [hj] at ht; cases ht; exact hplan) hp.2 hs⟩) ⟨i1, ?_⟩ hrun).2
  swap
  · intro t ht
    rw [hj] at ht; cases ht
    exact .inl ⟨t10, t9, t7, by simp [yieldedFor, i3]⟩
  have hlt : j < st.tasks.length := by rw [hi.len]; exact (List.getElem?_eq_some_iff.1 hj).1
  obtain ⟨t, ht⟩ : ∃ t, st.tasks[j]? = some t := ⟨_, List.getElem?_eq_getElem hlt⟩
  obtain ⟨t0', e0, e1, e2, e3, _⟩ := hi.same j t ht
  rw [hj] at e0; cases e0
  have hzero : t.left = 0 := by
    have ha := hi.alive
    rw [hend] at ha
    have := List.filter_eq_nil_iff.1 (List.eq_nil_of_length_eq_zero ha.symm) t (List.mem_of_getElem? ht)
    simpa using this
  obtain ⟨k, hk⟩ := once_done (honce t ht) (by rw [e1, e3]; exact hplan.2.1) (by rw [e3, ← t7]; exact t8) hzero
  rw [e1, e2, t2] at hk
  refine ⟨k, _, List.filter_sublist, hk, ?_⟩
  intro x hx
  have hlen' : (s.changeHp c.vec t0.hp.name x (s.idx t0.hp.name)).length = s.len := by
    rw [changeHp_length]; exact hv.1
  rw [List.mem_filter, Bool.not_eq_true']
  constructor
  · rintro ⟨_, hb⟩ b hrep f hf hon hforb
    have := (lookup_forbids h hown hrep t0.hp.name).2 ⟨f, hf, hon, hforb⟩
    unfold exBad at hb
    rw [this] at hb; cases hb
  · intro hall
    refine ⟨hx, ?_⟩
    cases hb : exBad s c.vec t0.hp.name (s.idx t0.hp.name) x with
    | false => rfl
    | true =>
      exfalso
      have hrep := represents_asg h hlen'
      obtain ⟨f, hf, hon, hforb⟩ := (lookup_forbids h hown hrep t0.hp.name).1 hb
      exact hall _ hrep f hf hon hforb

/-- **C57, categorical.** With the proposals of `NeighborhoodCat` (C35): when the generator has ended, every other choice
of an active categorical hyperparameter, unless it violates a clause about the hyperparameter, has been used for
exactly one neighbour. -/
theorem C57_categorical (h : Reach calls s) (hown : OwnClauses calls) {c : Config} {a : Assign}
    (hv : Represents s c.vec a) {num : Nat} {choices : List Nat} {st : ExState}
    (hr : oneExchange s c num nb choices = .ok st) (hend : st.alive = 0) {y : HP} (hy : y ∈ allHps calls)
    {cs : List Val} (hk : y.kind = .cat cs) {i : Nat} (hi : i < cs.length) (hcur : a y.name = some (i : Rat))
    (h2 : 2 ≤ cs.length)
    (hprop : ∀ k, ∃ shuffle r, (∀ l, (shuffle l).Perm l) ∧ Num.catNeighbors cs.length i (cs.length - 1) shuffle = some r ∧
      nb k y.name = r.map (fun j : Nat => (j : Rat))) :
    (yieldedFor st y.name).Nodup ∧ ∀ j : Nat, j < cs.length → j ≠ i →
      (s.changeHp c.vec y.name j (s.idx y.name) ∈ yieldedFor st y.name ↔
        ∀ b, Represents s (s.changeHp c.vec y.name j (s.idx y.name)) b →
          ∀ f ∈ allForbs calls, ClauseOn f y.name → ¬ Forbids b f) := by
  have hyn := (reach_isNode h y.name).2 ⟨y, hy, rfl⟩
  have hnb : ∀ k, (nb k y.name).length = cs.length - 1 ∧ (nb k y.name).Nodup ∧
      ∀ j : Nat, j < cs.length → j ≠ i → (j : Rat) ∈ nb k y.name := by
    intro k
    obtain ⟨sh, r, hp, hr1, hr2⟩ := hprop k
    obtain ⟨r', q1, q2, q3, q4, q5⟩ := Num.C35_categorical_partial (n := cs.length - 1) hi hp
    rw [hr1] at q1
    cases q1
    rw [hr2]
    refine ⟨?_, ?_, ?_⟩
    · rw [List.length_map, q4]; split <;> omega
    · exact q2.map (fun x y e => by exact_mod_cast e)
    · intro j hj hne
      exact List.mem_map.2 ⟨j, (q5 (Nat.le_refl _) j).2 ⟨hj, hne⟩, rfl⟩
  obtain ⟨k, l, l1, l2, l3⟩ := C57_choices_exhausted h hown hv hr hend hy (.inl ⟨cs, hk⟩) ⟨_, hcur⟩
    (by rw [hk]; simp only [Kind.size, ne_eq, Option.some.injEq]; omega)
    (by intro k; rw [hk]; simp only [(hnb k).1])
  have hinj : ∀ x z : Rat, s.changeHp c.vec y.name x (s.idx y.name) = s.changeHp c.vec y.name z (s.idx y.name) → x = z := by
    intro x z e
    have h1 := changeHp_at h hv.1 hyn (x := x)
    rw [e, changeHp_at h hv.1 hyn] at h1
    exact (Option.some.inj h1).symm
  constructor
  · rw [l2]
    exact ((hnb k).2.1.sublist l1).map (fun x z e => hinj x z e)
  · intro j hj hne
    have hm := (hnb k).2.2 j hj hne
    rw [← l3 j hm, l2, List.mem_map]
    constructor
    · rintro ⟨x, hx, e⟩
      rw [← hinj _ _ e]; exact hx
    · intro hx; exact ⟨_, hx, rfl⟩

/-! ## Examples -/

/-- The guard of C38 as a check on the depths of the space. -/
theorem covered_of_check (h : Reach calls s) {n : Name}
    (hb : ((allForbs calls).all (fun f => decide (n ∈ f.names) ||
      f.names.all (fun m => decide (depthOf s.com m ≤ depthOf s.com n)))) = true) : Covered calls n := by
  have hpath : ∀ {a b : Name}, Path (ParentOf calls) a b → depthOf s.com a < depthOf s.com b := by
    intro a b hp
    induction hp with
    | edge e => exact (reach_ninv h).good _ _ ((reach_edge h _ _).2 e)
    | cons e _ ih => exact Nat.lt_trans ((reach_ninv h).good _ _ ((reach_edge h _ _).2 e)) ih
  intro f hf
  have := List.all_eq_true.1 hb f hf
  rw [Bool.or_eq_true] at this
  rcases this with k | k
  · rw [decide_eq_true_eq, names_eq, List.mem_map] at k
    exact .inl k
  · refine .inr ?_
    intro x hx hp
    have := List.all_eq_true.1 k x.name (by rw [names_eq]; exact List.mem_map.2 ⟨x, hx, rfl⟩)
    rw [decide_eq_true_eq] at this
    exact absurd (hpath hp) (Nat.not_lt.2 this)

namespace Ex

/-- Proposals for the hyperparameters of the two-call example. -/
def nb2 : Nat → Name → List Rat := fun _ n =>
  if n = "alg" then [1] else if n = "k" then [0, 1] else if n = "o" then [2, 0] else if n = "x" then [0, 1] else []

/-- The default configuration of the two-call example. -/
def cfg2 : Config := ⟨vv1, some ww1, false⟩

theorem reached2 : ∃ st, oneExchange sp2 cfg2 2 nb2 [0, 1, 2, 3, 7, 2, 1, 3, 0] = .ok st ∧ st.alive = 0 ∧
    st.out = [("k", [some 0, some 1, some 0, some 1, none]), ("o", [some 0, some 1, some (2/9), some 2, some (1/2)]),
      ("x", [some 0, some 1, some (2/9), some 1, some 0]), ("o", [some 0, some 1, some (2/9), some 0, some (1/2)]),
      ("k", [some 0, some 1, some 1, some 1, some (1/2)]), ("x", [some 0, some 1, some (2/9), some 1, some 1])] := by
  have hk : (oneExchange sp2 cfg2 2 nb2 [0, 1, 2, 3, 7, 2, 1, 3, 0]).toOption.map (fun st => (st.alive, st.out)) =
      some (0, [("k", [some 0, some 1, some 0, some 1, none]), ("o", [some 0, some 1, some (2/9), some 2, some (1/2)]),
        ("x", [some 0, some 1, some (2/9), some 1, some 0]), ("o", [some 0, some 1, some (2/9), some 0, some (1/2)]),
        ("k", [some 0, some 1, some 1, some 1, some (1/2)]), ("x", [some 0, some 1, some (2/9), some 1, some 1])]) := by
    decide +kernel
  generalize oneExchange sp2 cfg2 2 nb2 [0, 1, 2, 3, 7, 2, 1, 3, 0] = r at *
  cases r with
  | error e => simp [Except.toOption] at hk
  | ok st =>
    simp only [Except.toOption, Option.map_some, Option.some.injEq, Prod.mk.injEq] at hk
    exact ⟨st, rfl, hk.1, hk.2⟩

theorem legalNb2 : LegalProposals [call1, call2] nb2 := by
  intro k
  have : ∀ h ∈ allHps [call1, call2], ∀ x ∈ nb2 0 h.name, h.kind.legalVec x = true := by decide +kernel
  exact this

theorem covered2 : ∀ n ∈ ["alg", "k", "o", "x"], Covered [call1, call2] n := by
  intro n hn
  refine covered_of_check reach2 ?_
  revert n
  decide +kernel

/-- `p` and `r` with choices `"a"`, `"b"`; `x | p == "b"`; not (`x == "a"` and `r == "a"`). -/
def callFN : Call := ⟨[ab "p", ab "r", ab "x"], [.lit (isB "x" "p")], [.and [.eq (ab "x") (.str "a") 0, .eq (ab "r") (.str "a") 0]]⟩
def spFN : Space := committed {} callFN
theorem reachFN : Reach [callFN] spFN := Reach.snoc (calls := []) .nil (by decide +kernel)
  (add_of_stages [("p", some (.str "a")), ("r", some (.str "a")), ("x", none)]
    [some 0, some 0, none] [("p", .str "a"), ("r", .str "a")]
    (by decide +kernel) (by decide +kernel) (by decide +kernel) (by decide +kernel) (by decide +kernel)
    (by decide +kernel))

end Ex

/-- The two-call example meets the hypotheses of C38: all six neighbours are valid and differ from the original. -/
example : ∃ st, oneExchange Ex.sp2 Ex.cfg2 2 Ex.nb2 [0, 1, 2, 3, 7, 2, 1, 3, 0] = .ok st ∧ st.out.length = 6 ∧
    ∀ n w, (n, w) ∈ st.out → w ≠ Ex.cfg2.vec ∧ ∃ b, Represents Ex.sp2 w b ∧ Valid [Ex.call1, Ex.call2] b := by
  obtain ⟨st, h1, h2, h3⟩ := Ex.reached2
  have hv := represents_asg Ex.reach2 (v := Ex.cfg2.vec) (by decide +kernel)
  have hval : Valid [Ex.call1, Ex.call2] (asg Ex.sp2.idx Ex.cfg2.vec) := by
    refine C16_accepted_legal_roots_partial Ex.reach2 Ex.sep2 Ex.own2 hv ?_ (by decide +kernel)
    have : ∀ h ∈ allHps [Ex.call1, Ex.call2], (asg Ex.sp2.idx Ex.cfg2.vec h.name).all h.kind.legalVec = true := by
      decide +kernel
    intro h hh _ q hq
    have := this h hh
    rw [hq] at this
    exact this
  have hnames : ∀ p ∈ st.out, p.1 ∈ ["alg", "k", "o", "x"] := by rw [h3]; decide +kernel
  have hfresh : FreshProposals [Ex.call1, Ex.call2] (asg Ex.sp2.idx Ex.cfg2.vec) Ex.nb2 := by
    intro k
    have : ∀ h ∈ allHps [Ex.call1, Ex.call2], ∀ x ∈ Ex.nb2 0 h.name, asg Ex.sp2.idx Ex.cfg2.vec h.name ≠ some x := by
      decide +kernel
    exact this
  refine ⟨st, h1, by rw [h3]; rfl, ?_⟩
  intro n w hw
  obtain ⟨b, k1, k2, _⟩ := C38_neighbours_valid_partial Ex.reach2 Ex.sep2 Ex.own2 Ex.weakly2 hv hval Ex.legalNb2 h1 hw
    (Ex.covered2 n (hnames _ hw))
  exact ⟨C38_neighbours_differ Ex.reach2 Ex.own2 hv hfresh h1 hw, b, k1, k2⟩

/-- The example meets the hypotheses of C57 for the categorical `alg`: its only other value is excluded by a clause, so
nothing is generated for it. -/
example : ∃ st, oneExchange Ex.sp2 Ex.cfg2 2 Ex.nb2 [0, 1, 2, 3, 7, 2, 1, 3, 0] = .ok st ∧
    Ex.sp2.changeHp Ex.cfg2.vec "alg" 1 (Ex.sp2.idx "alg") ∉ yieldedFor st "alg" ∧
    ∃ b f, Represents Ex.sp2 (Ex.sp2.changeHp Ex.cfg2.vec "alg" 1 (Ex.sp2.idx "alg")) b ∧
      f ∈ allForbs [Ex.call1, Ex.call2] ∧ ClauseOn f "alg" ∧ Forbids b f := by
  obtain ⟨st, h1, h2, h3⟩ := Ex.reached2
  have hv := represents_asg Ex.reach2 (v := Ex.cfg2.vec) (by decide +kernel)
  have hno : Ex.sp2.changeHp Ex.cfg2.vec "alg" 1 (Ex.sp2.idx "alg") ∉ yieldedFor st "alg" := by
    have : yieldedFor st "alg" = [] := by unfold yieldedFor; rw [h3]; decide +kernel
    rw [this]; simp
  refine ⟨st, h1, hno, ?_⟩
  have := (C57_categorical Ex.reach2 Ex.own2 hv h1 h2 (y := Ex.hpAlg) (by simp [allHps, Ex.call1])
    (cs := [.str "a", .str "b"]) rfl (i := 0) (by decide) (by decide +kernel) (by decide)
    (fun k => ⟨id, [1], fun l => List.Perm.refl _, by decide +kernel, by simp [Ex.nb2, Ex.hpAlg]⟩)).2 1 (by decide) (by decide)
  simp only [Nat.cast_one] at this
  have hn := (not_congr this).1 hno
  simp only [not_forall] at hn
  obtain ⟨b, hb, f, hf, hon, hforb⟩ := hn
  exact ⟨b, f, hb, hf, hon, Classical.not_not.1 hforb⟩

/-- **C38 fails without the guard:** exchanging `p` activates `x` with its default `"a"`, which is not allowed together with
`r = "a"`. Only the clauses that mention `p` are looked at, so a forbidden configuration is generated. -/
theorem C38_forbidden_neighbour :
    ∃ calls s c nb st w, Reach calls s ∧ CfgReach s c ∧ s.check c.vec = none ∧ LegalProposals calls nb ∧
      WeaklyLayered calls ∧ oneExchange s c 1 nb [0] = .ok st ∧ ("p", w) ∈ st.out ∧
      s.check w = some .forbidden := by
  have hk : (oneExchange Ex.spFN ⟨[some 0, some 0, none], none, false⟩ 1 (fun _ _ => [1]) [0]).toOption.map
      (fun st => st.out) = some [("p", [some 1, some 0, some 0])] := by decide +kernel
  have hw : Ex.spFN.check [some 1, some 0, some 0] = some .forbidden := by decide +kernel
  have hc : Ex.spFN.check [some 0, some 0, none] = none := by decide +kernel
  have hl : WeaklyLayered [Ex.callFN] := weaklyLayered_of_check Ex.reachFN (by decide +kernel)
  have hcfg : CfgReach Ex.spFN ⟨[some 0, some 0, none], none, false⟩ :=
    .vector (v := [some 0, some 0, none]) (al := false) (by
      unfold Config.ofVector
      rw [if_neg (by decide +kernel)])
  cases hr : oneExchange Ex.spFN ⟨[some 0, some 0, none], none, false⟩ 1 (fun _ _ => [1]) [0] with
  | error e => rw [hr] at hk; simp [Except.toOption] at hk
  | ok st =>
    rw [hr] at hk
    simp only [Except.toOption, Option.map_some, Option.some.injEq] at hk
    refine ⟨_, Ex.spFN, _, fun _ _ => [1], st, [some 1, some 0, some 0], Ex.reachFN, hcfg, hc, ?_, hl, hr, ?_, hw⟩
    · intro k
      have : ∀ h ∈ allHps [Ex.callFN], ∀ x ∈ [(1 : Rat)], h.kind.legalVec x = true := by decide +kernel
      exact this
    · rw [hk]; simp

/-- The number of neighbours of `k` is at most two, as asked for, and the constant has none. -/
example : ∃ st, oneExchange Ex.sp2 Ex.cfg2 2 Ex.nb2 [0, 1, 2, 3, 7, 2, 1, 3, 0] = .ok st ∧ (yieldedFor st "k").length ≤ 2 ∧
    yieldedFor st "c" = [] := by
  obtain ⟨st, h1, _, _⟩ := Ex.reached2
  exact ⟨st, h1, (C56_number_of_neighbours Ex.reach2 h1 (y := Ex.hpK) (by simp [allHps, Ex.call1])).2,
    (C56_number_of_neighbours Ex.reach2 h1 (y := Ex.hpC) (by simp [allHps, Ex.call1])).1 (.inr (by decide +kernel))⟩

/-- The first space with the configuration `k = 3.0` meets the hypotheses of `C56_no_failure`. -/
example (choices : List Nat) : ∃ st, oneExchange Ex.sp1 Ex.cfgA 2 Ex.nb2 choices = .ok st :=
  C56_no_failure Ex.reach1 Ex.cfgA_eq (by decide) (by
    intro k
    have : ∀ y ∈ allHps [Ex.call1], y.kind.size ≠ some 1 → Ex.nb2 0 y.name ≠ [] := by decide +kernel
    exact this) choices

end Verif
