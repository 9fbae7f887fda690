import Verif.Lemmas.AnyNumExchange
import Verif.Props.AnyNumInst
import Verif.Props.Exchange

/-!
# C107: the one-exchange neighbourhood over any arithmetic

`nb` stands for what the calls of `_neighborhood` return, `choices` for the random integers, `cur` for the values that are read for
ordinals; all are arbitrary.
-/

set_option autoImplicit false

namespace Verif.AnyNum
open Verif Verif.Spec.Any
open Verif.Spec (Known Conditional childName At clauseHps clauseHpsL OwnClauses OwnConds Tight WeaklyLayered Layered ParentOf Path ClauseOn Covered IsChoice)

variable {α β : Type} [DecidableEq α] {A : Arith α β}
variable {calls : List Call} {s : Space} {nb : Nat → Name → List α} {cur : Name → Except Err Val} {v : AVec α}

theorem tasks_spec {num : Nat} : ∀ {xs : List Node} {ts : List (Task α)},
    exchangeTasks s v cur num xs = .ok ts →
    (ts.map (fun t => t.hp.name)).Sublist (xs.map Node.name) ∧
    (∀ t ∈ ts, ∃ x ∈ xs, t.hp = x.hp ∧ t.idx = s.idx x.name ∧ x.hp.kind.size ≠ some 1 ∧
      (v.at (s.idx x.name)).isSome = true ∧ planFor x.hp.kind num (cur x.name) = .ok t.plan ∧
      t.left = t.plan.toGen ∧ t.pending = [] ∧ t.generated = false) ∧
    (∀ x ∈ xs, x.hp.kind.size ≠ some 1 → (v.at (s.idx x.name)).isSome = true → ∃ t ∈ ts, t.hp = x.hp)
  | [], ts, h => by
    simp only [exchangeTasks, Except.ok.injEq] at h
    subst h
    simp
  | x :: xs, ts, h => by
    simp only [exchangeTasks] at h
    split at h
    · rename_i hskip
      obtain ⟨h1, h2, h3⟩ := tasks_spec h
      refine ⟨h1.cons _, ?_, ?_⟩
      · intro t ht
        obtain ⟨y, hy, r⟩ := h2 t ht
        exact ⟨y, List.mem_cons_of_mem _ hy, r⟩
      · intro y hy hs hset
        rcases List.mem_cons.1 hy with rfl | hy
        · simp [hs, hset] at hskip
        · exact h3 y hy hs hset
    · rename_i hskip
      simp only [Bool.or_eq_true, decide_eq_true_eq, Bool.not_eq_true', not_or, Bool.not_eq_false] at hskip
      split at h
      · cases h
      · rename_i p hp
        split at h
        · cases h
        · rename_i ts' hts
          simp only [Except.ok.injEq] at h
          subst h
          obtain ⟨h1, h2, h3⟩ := tasks_spec hts
          refine ⟨?_, ?_, ?_⟩
          · simp only [List.map_cons]
            exact h1.cons_cons x.name
          · intro t ht
            rcases List.mem_cons.1 ht with rfl | ht
            · exact ⟨x, by simp, rfl, rfl, hskip.1, hskip.2, hp, rfl, rfl, rfl⟩
            · obtain ⟨y, hy, r⟩ := h2 t ht
              exact ⟨y, List.mem_cons_of_mem _ hy, r⟩
          · intro y hy hs hset
            rcases List.mem_cons.1 hy with rfl | hy
            · exact ⟨_, List.mem_cons_self, rfl⟩
            · obtain ⟨t, ht, e⟩ := h3 y hy hs hset
              exact ⟨t, List.mem_cons_of_mem _ ht, e⟩

/-- The state before the loop. -/
theorem init_spec (h : Reach calls s) {num : Nat} {st : (AnyNum.ExState α)} (hi : exchangeInit s v cur num = .ok st) :
    ExInv A s v nb st.tasks st ∧ DistinctTasks st.tasks ∧ st.out = [] ∧
    (∀ t ∈ st.tasks, t.hp ∈ allHps calls ∧ t.idx = s.idx t.hp.name ∧ t.hp.name ∈ s.names ∧
      t.hp.kind.size ≠ some 1 ∧ (v.at (s.idx t.hp.name)).isSome = true ∧
      planFor t.hp.kind num (cur t.hp.name) = .ok t.plan ∧
      t.left = t.plan.toGen ∧ t.left ≠ 0 ∧ t.pending = [] ∧ t.generated = false) ∧
    (∀ x ∈ allHps calls, x.kind.size ≠ some 1 → (v.at (s.idx x.name)).isSome = true → ∃ t ∈ st.tasks, t.hp = x) := by
  unfold exchangeInit at hi
  split at hi
  · cases hi
  · rename_i ts hts
    split at hi
    · cases hi
    · rename_i hpos
      simp only [Except.ok.injEq] at hi
      subst hi
      obtain ⟨h1, h2, h3⟩ := tasks_spec hts
      have hpos' : ∀ t ∈ ts, t.left ≠ 0 := by
        intro t ht e
        exact hpos (List.any_eq_true.2 ⟨t, ht, by simp [e]⟩)
      have hcom := (sinv_of_reach h).com
      refine ⟨⟨rfl, fun i t ht => ⟨t, ht, rfl, rfl, rfl, Nat.le_refl _⟩, ?_, by simp, ?_⟩, ?_, rfl, ?_, ?_⟩
      · intro t ht y hy
        obtain ⟨x, _, _, _, _, _, _, _, hp, _⟩ := h2 t ht
        rw [hp] at hy; cases hy
      · have : ts.filter (fun t => decide (t.left ≠ 0)) = ts :=
          List.filter_eq_self.2 (fun t ht => by simp [hpos' t ht])
        simp only [this]
      · have hn := (reach_ninv h).nodup
        have : (s.dag.nodes.map Node.name).Nodup := by rw [hcom]; exact hn
        exact this.sublist h1
      · intro t ht
        obtain ⟨x, hx, e1, e2, e3, e4, e5, e6, e7, e8⟩ := h2 t ht
        rw [hcom] at hx
        have hname : t.hp.name = x.name := by rw [e1]; rfl
        rw [hname, e1]
        exact ⟨node_hp h hx, e2, mem_names hx, e3, e4, e5, e6, hpos' t ht, e7, e8⟩
      · intro x hx hs hset
        obtain ⟨y, hy, rfl⟩ := node_of_hp h hx
        exact h3 y (by rw [hcom]; exact hy) hs hset

theorem run_spec (h : Reach calls s) {num : Nat} {choices : List Nat} {st : (AnyNum.ExState α)}
    (hr : oneExchange A s v cur num nb choices = .ok st) :
    ∃ st0, exchangeInit s v cur num = .ok st0 ∧ exchangeRun A s v nb choices st0 = .ok st ∧
      ExInv A s v nb st0.tasks st := by
  unfold oneExchange at hr
  split at hr
  · cases hr
  · rename_i st0 h0
    refine ⟨st0, h0, hr, ?_⟩
    exact run_inv (P := ExInv A s v nb st0.tasks) (fun st i st' hp hs => exInv_step hp hs) (init_spec h h0).1 hr

/-- **C107, what is exchanged.** Every generated neighbour is the result of setting one active hyperparameter of the
space to a proposed entry; what does not depend on it is as before, and no clause that mentions it is violated. -/
theorem C107_one_value_exchanged (h : Reach calls s) (hown : OwnClauses calls) (hl : LegalClauses A calls) {a : Entries α}
    (hv : Represents s v a) {num : Nat} {choices : List Nat} {st : (AnyNum.ExState α)}
    (hr : oneExchange A s v cur num nb choices = .ok st) {n : Name} {w : (AVec α)} (hw : (n, w) ∈ st.out) :
    ∃ y ∈ allHps calls, y.name = n ∧ (∃ q, a n = some q) ∧ ∃ k x b, x ∈ nb k n ∧
      w = changeHp A s v n x (s.idx n) ∧ Represents s w b ∧ b n = some x ∧
      (∀ m, Known calls m → m ≠ n → ¬ Path (ParentOf calls) n m → b m = a m) ∧
      (∀ f ∈ allForbs calls, ClauseOn f n → ¬ Forbids A b f) := by
  obtain ⟨st0, h0, _, hi⟩ := run_spec h hr
  obtain ⟨_, _, _, hts, _⟩ := init_spec (A := A) (nb := nb) h h0
  obtain ⟨t, ht, e1, k, x, hx, e2, e3⟩ := hi.out (n, w) hw
  obtain ⟨t1, t2, t3, _, t5, _⟩ := hts t ht
  simp only at e1 e2
  subst e1
  have hlen : w.length = s.len := by rw [e2, changeHp_length]; exact hv.1
  have hb := represents_asg h hlen
  rw [t2] at e2 e3
  refine ⟨t.hp, t1, rfl, ?_, k, x, asg s.idx w, hx, e2, hb, ?_, ?_, ?_⟩
  · rw [at_idx hv t3] at t5
    cases ha : a t.hp.name with
    | none => rw [ha] at t5; cases t5
    | some q => exact ⟨q, rfl⟩
  · rw [e2]; exact changeHp_at h hv.1 t3
  · intro m hm hne hp
    have hmn := (reach_isNode h m).2 hm
    rw [← at_idx hv hmn, e2]
    exact changeHp_other h hv.1 t3 hmn hne hp
  · intro f hf hon hforb
    have := (lookup_forbids h hown hl hb t.hp.name).2 ⟨f, hf, hon, hforb⟩
    unfold exBad at e3
    rw [← e2, this] at e3
    cases e3

/-- **C107** (partial: layered conditions, and every clause about something that depends on the exchanged hyperparameter
mentions it; see the counterexample). Every generated neighbour of a valid configuration is valid, and is accepted by
the validator. -/
theorem C107_neighbours_valid_partial (h : Reach calls s) (hsep : Separable A calls) (hown : OwnClauses calls) (hl : LegalClauses A calls)
    (hle : LegalDefaults A calls) (hwl : WeaklyLayered calls) {a : Entries α}
    (hv : Represents s v a) (ha : Valid A calls a) (hnb : LegalProposals A calls a nb) {num : Nat} {choices : List Nat}
    {st : (AnyNum.ExState α)} (hr : oneExchange A s v cur num nb choices = .ok st) {n : Name} {w : (AVec α)} (hw : (n, w) ∈ st.out)
    (hcov : Covered calls n) : ∃ b, Represents s w b ∧ Valid A calls b ∧ check A s w = none := by
  obtain ⟨y, hy, rfl, hset, k, x, b, hx, rfl, hb, hbn, hoth, hcl⟩ := C107_one_value_exchanged h hown hl hv hr hw
  obtain ⟨b', k1, k2, k3, k4, k5, k6⟩ := C105_change_partial h hsep hwl hv ha.active
    (n := y.name) ⟨y, hy, rfl⟩ hset x
  have hbb : ∀ m, Known calls m → b m = b' m := by
    intro m hm
    have hmn := (reach_isNode h m).2 hm
    rw [← at_idx hb hmn, at_idx k1 hmn]
  have hval : Valid A calls b := by
    refine ⟨?_, ?_, ?_, ?_⟩
    · intro m hm hc
      rw [hbb m hm]
      exact k4 ha.roots m hm hc
    · have := k3
      rw [activity_iff h hsep k1] at this
      exact (activity_iff h hsep hb).2 this
    · intro z hz q hq
      by_cases e : z.name = y.name
      · rw [e, hbn] at hq
        cases hq
        rw [reach_hp_inj h z hz y hy e]
        exact hnb k y hy hset x hx
      · rw [hbb _ ⟨z, hz, rfl⟩] at hq
        rcases k6 z hz e q hq with hz' | rfl
        · exact ha.legal z hz q hz'
        · exact hle z hz
    · intro f hf hforb
      by_cases hon : ClauseOn f y.name
      · exact hcl f hf hon hforb
      · rcases hcov f hf with hc | hc
        · exact hon hc
        · refine ha.allowed f hf ((forbids_congr f ?_).1 hforb)
          intro z hz
          exact hoth z.name ⟨z, hown f hf z hz, rfl⟩ (fun e => hon ⟨z, hz, e⟩) (hc z hz)
  exact ⟨b, hb, hval, (check_iff h hsep hown hl hb).2 ⟨hval.roots, hval.active, fun z hz _ q hq => hval.legal z hz q hq, hval.allowed⟩⟩

/-- **C107, difference.** If the current entry is never proposed, no neighbour is the original. -/
theorem C107_neighbours_differ (h : Reach calls s) (hown : OwnClauses calls) (hl : LegalClauses A calls) {a : Entries α}
    (hv : Represents s v a) (hnb : FreshProposals calls a nb) {num : Nat} {choices : List Nat}
    {st : (AnyNum.ExState α)} (hr : oneExchange A s v cur num nb choices = .ok st) {n : Name} {w : (AVec α)} (hw : (n, w) ∈ st.out) :
    w ≠ v := by
  obtain ⟨y, hy, rfl, _, k, x, b, hx, rfl, hb, hbn, _, _⟩ := C107_one_value_exchanged h hown hl hv hr hw
  intro e
  have hn := (reach_isNode h y.name).2 ⟨y, hy, rfl⟩
  apply hnb k y hy x hx
  rw [← at_idx hv hn, ← hbn, ← at_idx hb hn, e]

/-- **C107, numbers.** Exchanging an inactive hyperparameter or one with a single value gives nothing;
exchanging a categorical with `k` choices gives at most `k - 1` neighbours, an ordinal at most two, a number at most
`num_neighbors`. -/
theorem C107_number_of_neighbours (h : Reach calls s) {num : Nat} {choices : List Nat} {st : (AnyNum.ExState α)}
    (hr : oneExchange A s v cur num nb choices = .ok st) {y : HP} (hy : y ∈ allHps calls) :
    (v.at (s.idx y.name) = none ∨ y.kind.size = some 1 → yieldedFor st y.name = []) ∧
    (yieldedFor st y.name).length ≤ (match y.kind with
      | .cat cs => cs.length - 1
      | .ord _ => 2
      | .const _ => 0
      | .int _ _ => num
      | .flt _ _ => num) := by
  obtain ⟨st0, h0, hrun, hi⟩ := run_spec h hr
  obtain ⟨i1, i2, i3, i4, i5⟩ := init_spec (A := A) (nb := nb) h h0
  have hb := (run_inv (P := fun st => ExInv A s v nb st0.tasks st ∧ ∀ (j : Nat) (t : (Task α)), st.tasks[j]? = some t →
      (yieldedFor st t.hp.name).length + t.left ≤ t.plan.toGen)
    (fun st i st' hp hs => ⟨exInv_step hp.1 hs, yielded_bound i2 hp.1 hp.2 hs⟩) ⟨i1, ?_⟩ hrun).2
  swap
  · intro j t ht
    have := (i4 t (List.mem_of_getElem? ht)).2.2.2.2.2.2.1
    simp [yieldedFor, i3, this]
  by_cases hex : ∃ t ∈ st0.tasks, t.hp = y
  · obtain ⟨t0, ht0, rfl⟩ := hex
    obtain ⟨_, _, _, t4, t5, t6, _⟩ := i4 t0 ht0
    constructor
    · rintro (h1 | h1)
      · rw [h1] at t5; cases t5
      · exact absurd h1 t4
    · obtain ⟨j, hj⟩ := List.getElem?_of_mem ht0
      have hlt : j < st.tasks.length := by rw [hi.len]; exact (List.getElem?_eq_some_iff.1 hj).1
      obtain ⟨t, ht⟩ : ∃ t, st.tasks[j]? = some t := ⟨_, List.getElem?_eq_getElem hlt⟩
      obtain ⟨t0', e0, e1, _, e3, _⟩ := hi.same j t ht
      rw [hj] at e0; cases e0
      have hle := hb j t ht
      rw [e1, e3] at hle
      have hle' : (yieldedFor st t0.hp.name).length ≤ t0.plan.toGen := by omega
      refine Nat.le_trans hle' ?_
      generalize t0.hp.kind = kd at *
      cases kd with
      | cat cs => simp only [planFor, Except.ok.injEq] at t6; rw [← t6]
      | ord cs =>
        simp only [planFor] at t6
        split at t6
        · cases t6
        · split at t6
          · cases t6
          · rename_i m hm
            simp only [Except.ok.injEq] at t6
            rw [← t6]
            simp only
            unfold Num.ordNumNeighbors at hm
            simp only at hm
            split at hm
            · cases hm; omega
            · simp only [Option.map_eq_some_iff] at hm
              obtain ⟨i, _, rfl⟩ := hm
              split <;> omega
      | const q => simp [Kind.size] at t4
      | int l u => simp only [planFor, Except.ok.injEq] at t6; rw [← t6]
      | flt l u => simp only [planFor, Except.ok.injEq] at t6; rw [← t6]
  · have hnil : yieldedFor st y.name = [] := by
      unfold yieldedFor
      rw [List.map_eq_nil_iff, List.filter_eq_nil_iff]
      intro p hp hpn
      obtain ⟨t, ht, e, _⟩ := hi.out p hp
      refine hex ⟨t, ht, reach_hp_inj h _ (i4 t ht).1 _ hy ?_⟩
      rw [← e]
      exact of_decide_eq_true hpn
    exact ⟨fun _ => hnil, by rw [hnil]; exact Nat.zero_le _⟩

/-- **C107, end.** However the neighbours are proposed, the generator ends as soon as each of its entries has been selected
often enough: for every sequence of choices in which every index of an entry occurs at least as often as the largest number of
neighbours of one hyperparameter, the loop has ended; it does not fail if every call of `_neighborhood` proposes something. -/
theorem C107_generator_ends (h : Reach calls s) {num : Nat} {choices : List Nat} {st : (AnyNum.ExState α)}
    (hr : oneExchange A s v cur num nb choices = .ok st)
    (hch : ∀ i, i < st.tasks.length → ∀ t, st.tasks[i]? = some t → t.plan.toGen ≤ choices.count i) : st.alive = 0 := by
  obtain ⟨st0, h0, hrun, hi⟩ := run_spec h hr
  obtain ⟨i1, i2, i3, i4, i5⟩ := init_spec (A := A) (nb := nb) h h0
  rw [hi.alive]
  apply List.length_eq_zero_iff.2
  rw [List.filter_eq_nil_iff]
  intro t ht
  obtain ⟨i, hti⟩ := List.getElem?_of_mem ht
  obtain ⟨t0, e1, e2⟩ := run_left i1 hrun i t hti
  obtain ⟨t0', e3, e4, e5, e6, e7⟩ := hi.same i t hti
  rw [e1] at e3; cases e3
  have hle := hch i (List.getElem?_eq_some_iff.1 hti).1 t hti
  have := (i4 t0 (List.mem_of_getElem? e1)).2.2.2.2.2.2.1
  rw [← e6] at this
  simp only [ne_eq, decide_not, Bool.not_eq_true', decide_eq_false_iff_not, Decidable.not_not]
  omega

/-- **C107, no failure.** If the values that are read for ordinals are in their sequences, at least one neighbour is asked for and every
call of `_neighborhood` proposes something, the generator does not raise. -/
theorem C107_no_failure (h : Reach calls s)
    (hcur : ∀ y ∈ allHps calls, ∀ cs, y.kind = .ord cs → (v.at (s.idx y.name)).isSome = true → ∃ w, cur y.name = .ok w ∧ w.pyIn cs = true)
    {num : Nat} (hnum : num ≠ 0) (hne : ∀ k, ∀ y ∈ allHps calls, y.kind.size ≠ some 1 → nb k y.name ≠ [])
    (choices : List Nat) :
    ∃ st, oneExchange A s v cur num nb choices = .ok st := by
  have hplan : ∀ x ∈ s.dag.nodes, x.hp.kind.size ≠ some 1 → (v.at (s.idx x.name)).isSome = true →
      ∃ p, planFor x.hp.kind num (cur x.name) = .ok p ∧ p.toGen ≠ 0 := by
    intro x hx hs hset
    rw [(sinv_of_reach h).com] at hx
    have hwf := node_wf h hx
    cases hk : x.hp.kind with
    | cat cs =>
      refine ⟨_, rfl, ?_⟩
      rw [hk] at hs
      simp only [Kind.size, ne_eq, Option.some.injEq] at hs
      have : cs ≠ [] := by
        intro e
        have hleg := HP.wf_legal hwf
        rw [hk, e] at hleg
        simp [Kind.legalValue, Val.pyIn] at hleg
      have : 0 < cs.length := List.length_pos_iff.2 this
      simp only; omega
    | ord cs =>
      obtain ⟨w, e, hin⟩ := hcur x.hp (node_hp h hx) cs hk hset
      obtain ⟨i, hsi⟩ := seqIndex_isSome hin
      rw [hk] at hs
      simp only [Kind.size, ne_eq, Option.some.injEq] at hs
      have hnum : Num.ordNumNeighbors cs (some w) = some (if i = 0 ∨ i = cs.length - 1 then 1 else 2) := by
        simp only [Num.ordNumNeighbors, if_neg hs, hsi, Option.map_some]
      have e' : cur x.name = .ok w := e
      rw [e']
      simp only [planFor, hnum]
      refine ⟨_, rfl, ?_⟩
      simp only
      split <;> omega
    | const q => rw [hk] at hs; simp [Kind.size] at hs
    | int l u => exact ⟨_, rfl, hnum⟩
    | flt l u => exact ⟨_, rfl, hnum⟩
  have htasks : ∀ xs : List Node, (∀ x ∈ xs, x ∈ s.dag.nodes) →
      ∃ ts, exchangeTasks s v cur num xs = .ok ts ∧ ∀ t ∈ ts, t.left ≠ 0 := by
    intro xs
    induction xs with
    | nil => intro _; exact ⟨[], rfl, by simp⟩
    | cons x xs ih =>
      intro hx
      obtain ⟨ts, h1, h2⟩ := ih (fun y hy => hx y (List.mem_cons_of_mem _ hy))
      simp only [exchangeTasks]
      split
      · exact ⟨ts, h1, h2⟩
      · rename_i hskip
        simp only [Bool.or_eq_true, decide_eq_true_eq, Bool.not_eq_true', not_or, Bool.not_eq_false] at hskip
        obtain ⟨p, hp, hp0⟩ := hplan x (hx x (by simp)) hskip.1 hskip.2
        simp only [hp, h1]
        refine ⟨_, rfl, ?_⟩
        intro t ht
        rcases List.mem_cons.1 ht with rfl | ht
        · exact hp0
        · exact h2 t ht
  obtain ⟨ts, h1, h2⟩ := htasks s.dag.nodes (fun x hx => hx)
  have h0 : exchangeInit s v cur num = .ok { tasks := ts, alive := ts.length } := by
    unfold exchangeInit
    rw [h1]
    simp only
    rw [if_neg]
    simp only [List.any_eq_true, not_exists, not_and, beq_iff_eq]
    exact h2
  unfold oneExchange
  rw [h0]
  obtain ⟨_, _, _, i4, _⟩ := init_spec (A := A) (nb := nb) h h0
  exact run_total choices _ (fun t ht k => hne k t.hp (i4 t ht).1 (i4 t ht).2.2.2.1)

/-- **C107.** When the generator has ended, an active categorical or ordinal hyperparameter has been exchanged exactly once
with each proposed value that violates no clause about the hyperparameter (`l` is the list of these values, in the order in
which they were proposed), provided that `_neighborhood` proposes as many values as it was asked for (C35). -/
theorem C107_choices_exhausted (h : Reach calls s) (hown : OwnClauses calls) (hl : LegalClauses A calls) {a : Entries α}
    (hv : Represents s v a) {num : Nat} {choices : List Nat} {st : (AnyNum.ExState α)}
    (hr : oneExchange A s v cur num nb choices = .ok st) (hend : st.alive = 0) {y : HP} (hy : y ∈ allHps calls)
    (hch : IsChoice y) (hset : ∃ q, a y.name = some q) (hsize : y.kind.size ≠ some 1)
    (hlen : ∀ k, some (nb k y.name).length = (match y.kind with
      | .cat cs => some (cs.length - 1)
      | .ord cs => (cur y.name).toOption.bind (fun w => Num.ordNumNeighbors cs (some w))
      | _ => none)) :
    ∃ (k : Nat) (l : List α), l.Sublist (nb k y.name) ∧ yieldedFor st y.name = l.map (fun x => changeHp A s v y.name x (s.idx y.name)) ∧
      ∀ x ∈ nb k y.name, x ∈ l ↔ ∀ b, Represents s (changeHp A s v y.name x (s.idx y.name)) b →
        ∀ f ∈ allForbs calls, ClauseOn f y.name → ¬ Forbids A b f := by
  obtain ⟨st0, h0, hrun, hi⟩ := run_spec h hr
  obtain ⟨i1, i2, i3, i4, i5⟩ := init_spec (A := A) (nb := nb) h h0
  have hyn := (reach_isNode h y.name).2 ⟨y, hy, rfl⟩
  obtain ⟨t0, ht0, rfl⟩ := i5 y hy hsize (by
    rw [at_idx hv hyn]; obtain ⟨q, hq⟩ := hset; rw [hq]; rfl)
  obtain ⟨_, t2, t3, t4, t5, t6, t7, t8, t9, t10⟩ := i4 t0 ht0
  obtain ⟨j, hj⟩ := List.getElem?_of_mem ht0
  have hplan : t0.plan.regen = false ∧ (∀ k, (nb k t0.hp.name).length = t0.plan.toGen) ∧
      t0.plan.maxIter = t0.plan.toGen := by
    rcases hch with ⟨cs, hk⟩ | ⟨cs, hk⟩
    · rw [hk] at t6 hlen
      simp only [planFor, Except.ok.injEq] at t6
      rw [← t6]
      exact ⟨rfl, fun k => Option.some.inj (hlen k), rfl⟩
    · rw [hk] at t6 hlen
      simp only [planFor] at t6
      split at t6
      · cases t6
      · rename_i w hw
        split at t6
        · cases t6
        · rename_i m hm
          simp only [Except.ok.injEq] at t6
          rw [← t6]
          refine ⟨rfl, fun k => ?_, rfl⟩
          have := hlen k
          rw [hw] at this
          simp only [Except.toOption, Option.bind_some, hm, Option.some.injEq] at this
          exact this
  have honce := (run_inv (P := fun st => ExInv A s v nb st0.tasks st ∧ ∀ t : (Task α), st.tasks[j]? = some t →
      OnceInv A s v nb t (yieldedFor st t.hp.name))
    (fun st i st' hp hs => ⟨exInv_step hp.1 hs,
      once_step_all i2 hp.1 (fun t ht => by rw [hj] at ht; cases ht; exact hplan) hp.2 hs⟩) ⟨i1, ?_⟩ hrun).2
  swap
  · intro t ht
    rw [hj] at ht; cases ht
    exact .inl ⟨t10, t9, t7, by simp [yieldedFor, i3]⟩
  have hlt : j < st.tasks.length := by rw [hi.len]; exact (List.getElem?_eq_some_iff.1 hj).1
  obtain ⟨t, ht⟩ : ∃ t, st.tasks[j]? = some t := ⟨_, List.getElem?_eq_getElem hlt⟩
  obtain ⟨t0', e0, e1, e2, e3, _⟩ := hi.same j t ht
  rw [hj] at e0; cases e0
  have hzero : t.left = 0 := by
    have ha := hi.alive
    rw [hend] at ha
    have := List.filter_eq_nil_iff.1 (List.eq_nil_of_length_eq_zero ha.symm) t (List.mem_of_getElem? ht)
    simpa using this
  obtain ⟨k, hk⟩ := once_done (honce t ht) (by rw [e1, e3]; exact hplan.2.1) (by rw [e3, ← t7]; exact t8) hzero
  rw [e1, e2, t2] at hk
  refine ⟨k, _, List.filter_sublist, hk, ?_⟩
  intro x hx
  have hlen' : (changeHp A s v t0.hp.name x (s.idx t0.hp.name)).length = s.len := by
    rw [changeHp_length]; exact hv.1
  rw [List.mem_filter, Bool.not_eq_true']
  constructor
  · rintro ⟨_, hb⟩ b hrep f hf hon hforb
    have := (lookup_forbids h hown hl hrep t0.hp.name).2 ⟨f, hf, hon, hforb⟩
    unfold exBad at hb
    rw [this] at hb; cases hb
  · intro hall
    refine ⟨hx, ?_⟩
    cases hb : exBad A s v t0.hp.name (s.idx t0.hp.name) x with
    | false => rfl
    | true =>
      exfalso
      have hrep := represents_asg h hlen'
      obtain ⟨f, hf, hon, hforb⟩ := (lookup_forbids h hown hl hrep t0.hp.name).1 hb
      exact hall _ hrep f hf hon hforb

end Verif.AnyNum
