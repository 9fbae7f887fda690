import Verif.Lemmas.ConnectedStep

/-!
# C98: local search can reach every configuration

A local search moves from a configuration to one of its one-exchange neighbours.  In a space without forbidden clauses
nothing is out of reach.
-/

set_option autoImplicit false

namespace Verif.Conn
open Verif Verif.Spec Relation

variable {calls : List Call} {s : Space} {nb : Nat → Name → List Rat}

/-- Reading an item of a configuration that was made from the vector of a valid configuration. -/
theorem getItem_ord (h : Reach calls s) {v : Vec} (hv : ValidVec calls s v) {x : Node} (hx : x ∈ s.com)
    {cs : List Val} (hk : x.hp.kind = .ord cs) (hset : isSet (v.at (s.idx x.name)) = true) :
    ∃ (i : Nat) (hi : i < cs.length), v.at (s.idx x.name) = some (i : Rat) ∧
      (Config.getItem s { vec := v, allow := false } x.name).1 = .ok cs[i] := by
  have hw := (reach_wf h).1 _ (node_hp h hx)
  cases hq : v.at (s.idx x.name) with
  | none => rw [hq] at hset; cases hset
  | some q =>
    have he := (exact_at h hv).2 _ (node_hp h hx) q hq
    obtain ⟨i, hi, rfl⟩ := (entry_seq hw (.inr hk)).1 he
    refine ⟨i, hi, rfl, ?_⟩
    have hn : findNode s.dag.nodes x.name = some x := by
      rw [(sinv_of_reach h).com]
      exact findNode_of_mem (reach_ninv h).nodup hx
    unfold Config.getItem
    simp only [Option.getD_none, List.lookup_nil, hn, hq]
    rw [hk, toVal_seq (List.getElem?_eq_getElem hi)]
    simp [roundVal, Kind.isFloat]

theorem ofVector_eq {v : Vec} {c : Config} (h : Config.ofVector s v = .ok c) : c = { vec := v, allow := false } := by
  unfold Config.ofVector at h
  split at h
  · cases h
  · exact (Except.ok.inj h).symm

/-- The generator starts. -/
theorem init_ok (h : Reach calls s) {v : Vec} (hv : ValidVec calls s v) {num : Nat} (hnum : num ≠ 0) :
    ∃ st, exchangeInit s { vec := v, allow := false } num = .ok st := by
  have hplan : ∀ x ∈ s.dag.nodes, x.hp.kind.size ≠ some 1 → isSet (v.at (s.idx x.name)) = true →
      ∃ p, planFor x.hp.kind num (Config.getItem s { vec := v, allow := false } x.name).1 = .ok p ∧ p.toGen ≠ 0 := by
    intro x hx hs hset
    rw [(sinv_of_reach h).com] at hx
    have hwf := node_wf h hx
    cases hk : x.hp.kind with
    | cat cs =>
      refine ⟨_, rfl, ?_⟩
      rw [hk] at hs
      simp only [Kind.size, ne_eq, Option.some.injEq] at hs
      have : 0 < cs.length := size_pos hwf (by rw [hk]; rfl)
      simp only; omega
    | ord cs =>
      obtain ⟨i, hi, _, hg⟩ := getItem_ord h hv hx hk hset
      rw [hk] at hs
      have h1 : cs.length ≠ 1 := fun e => hs (congrArg some e)
      have hd := (HP.wf_distinct hwf (.inr hk)).2
      rw [hg]
      simp only [planFor, ord_num hd (List.getElem?_eq_getElem hi) h1]
      refine ⟨_, rfl, ?_⟩
      simp only
      split <;> omega
    | const q => rw [hk] at hs; simp [Kind.size] at hs
    | int l u => exact ⟨_, rfl, hnum⟩
    | flt l u => exact ⟨_, rfl, hnum⟩
  have htasks : ∀ xs : List Node, (∀ x ∈ xs, x ∈ s.dag.nodes) →
      ∃ ts, exchangeTasks s { vec := v, allow := false } num xs = .ok ts ∧ ∀ t ∈ ts, t.left ≠ 0 := by
    intro xs
    induction xs with
    | nil => intro _; exact ⟨[], rfl, by simp⟩
    | cons x xs ih =>
      intro hx
      obtain ⟨ts, h1, h2⟩ := ih (fun y hy => hx y (List.mem_cons_of_mem _ hy))
      simp only [exchangeTasks]
      split
      · exact ⟨ts, h1, h2⟩
      · rename_i hskip
        simp only [Bool.or_eq_true, decide_eq_true_eq, Bool.not_eq_true', not_or, Bool.not_eq_false] at hskip
        obtain ⟨p, hp, hp0⟩ := hplan x (hx x (by simp)) hskip.1 hskip.2
        simp only [hp, h1]
        refine ⟨_, rfl, ?_⟩
        intro t ht
        rcases List.mem_cons.1 ht with rfl | ht
        · exact hp0
        · exact h2 t ht
  obtain ⟨ts, h1, h2⟩ := htasks s.dag.nodes (fun x hx => hx)
  refine ⟨{ tasks := ts, alive := ts.length }, ?_⟩
  unfold exchangeInit
  rw [h1]
  simp only
  rw [if_neg]
  simp only [List.any_eq_true, not_exists, not_and, beq_iff_eq]
  exact h2

/-- Proposals exist, with a given list for one of the hyperparameters. -/
theorem proposals (h : Reach calls s) {v : Vec} (hv : ValidVec calls s v) {num : Nat} (hnum : num ≠ 0) {y : HP}
    (hy : y ∈ allHps calls) {q : Rat} (hq : v.at (s.idx y.name) = some q) {l : List Rat} (hl : MayPropose num y.kind q l) :
    ∃ nb, Possible calls s num v nb ∧ ∀ k, nb k y.name = l := by
  classical
  have hex : ∀ n : Name, ∃ m : List Rat, (n = y.name → m = l) ∧ ∀ z ∈ allHps calls, z.name = n → z.kind.size ≠ some 1 →
      ∀ x, v.at (s.idx z.name) = some x → MayPropose num z.kind x m := by
    intro n
    by_cases e : n = y.name
    · refine ⟨l, fun _ => rfl, ?_⟩
      intro z hz hn _ x hx
      have := reach_hp_inj h z hz y hy (hn.trans e)
      subst this
      rw [hq] at hx
      cases hx
      exact hl
    · by_cases hz : ∃ z ∈ allHps calls, z.name = n ∧ z.kind.size ≠ some 1 ∧ ∃ x, v.at (s.idx z.name) = some x
      · obtain ⟨z, hz, hn, hs, x, hx⟩ := hz
        obtain ⟨m, hm⟩ := some_proposal ((reach_wf h).1 z hz) hnum ((exact_at h hv).2 z hz x hx) hs
        refine ⟨m, fun e' => absurd e' e, ?_⟩
        intro z' hz' hn' _ x' hx'
        have := reach_hp_inj h z' hz' z hz (hn'.trans hn.symm)
        subst this
        rw [hx] at hx'
        cases hx'
        exact hm
      · exact ⟨[], fun e' => absurd e' e, fun z hz' hn hs x hx => absurd ⟨z, hz', hn, hs, x, hx⟩ hz⟩
  refine ⟨fun _ n => (hex n).choose, ?_, fun k => (hex y.name).choose_spec.1 rfl⟩
  intro k z hz hs x hx
  exact (hex z.name).choose_spec.2 z hz rfl hs x hx

theorem not_bad (h : Reach calls s) (hf : allForbs calls = []) {v : Vec} (hl : v.length = s.len) (n : Name) :
    ((forbLookup s.fast n).any (fun f => f.onVec s.idx v)) = false := by
  have hown : OwnClauses calls := by
    intro f hff
    rw [hf] at hff
    cases hff
  have := lookup_forbids h hown (represents_asg h hl) n
  rw [Bool.eq_false_iff]
  intro e
  obtain ⟨f, hff, _⟩ := this.1 e
  rw [hf] at hff
  cases hff

/-- A move that is proposed first is the first neighbour, if its hyperparameter is selected first. -/
theorem mayStep (h : Reach calls s) (hf : allForbs calls = []) {num : Nat} (hnum : num ≠ 0) {v : Vec}
    (hv : ValidVec calls s v) {y : HP} (hy : y ∈ allHps calls) {q q' : Rat} (hq : v.at (s.idx y.name) = some q)
    (hm : Move y q q') : MayStep calls s num v (s.changeHp v y.name q' (s.idx y.name)) := by
  have hw := (reach_wf h).1 y hy
  have hlen := (exact_at h hv).1
  have he := (exact_at h hv).2 y hy q hq
  have hsz := size_of_ne hw he hm.1 hm.2.1
  obtain ⟨l, hl⟩ := first hw hnum he hm
  obtain ⟨nb, n1, n2⟩ := proposals h hv hnum hy hq hl
  obtain ⟨st0, h0⟩ := init_ok h hv hnum
  obtain ⟨i1, i2, i3, i4, i5⟩ := init_spec (nb := nb) (v := v) h h0
  obtain ⟨t, ht, rfl⟩ := i5 y hy hsz (by rw [hq]; rfl)
  obtain ⟨t1, t2, t3, t4, t5, t6, t7, t8, t9, t10⟩ := i4 t ht
  obtain ⟨j, hj⟩ := List.getElem?_of_mem ht
  have hmax : t.plan.maxIter ≠ 0 := by
    rw [t7] at t8
    cases hk : t.hp.kind with
    | cat cs => rw [hk] at t6; simp only [planFor, Except.ok.injEq] at t6; rw [← t6] at t8 ⊢; exact t8
    | ord cs =>
      rw [hk] at t6
      simp only [planFor] at t6
      split at t6
      · cases t6
      · split at t6
        · cases t6
        · simp only [Except.ok.injEq] at t6
          rw [← t6] at t8 ⊢
          exact t8
    | const w => rw [hk] at t4; exact absurd rfl t4
    | int a b =>
      have hlt := wf_int_lt hw hk
      rw [hk] at t6
      simp only [planFor, Except.ok.injEq] at t6
      rw [← t6]
      simp only
      omega
    | flt a b =>
      rw [hk] at t6
      simp only [planFor, Except.ok.injEq] at t6
      rw [← t6]
      simp only
      omega
  obtain ⟨m, hmm⟩ := Nat.exists_eq_succ_of_ne_zero hmax
  have halive : st0.alive ≠ 0 := by
    rw [i1.alive]
    intro e
    have := List.filter_eq_nil_iff.1 (List.eq_nil_of_length_eq_zero e) t ht
    simp [t8] at this
  have htry : ∃ r, tryLoop s v nb t.generated t.plan.maxIter t st0.calls = .ok r ∧
      r.found = some (s.changeHp v t.hp.name q' t.idx) := by
    rw [hmm, t10]
    simp only [tryLoop, t9, List.isEmpty_nil, Bool.true_and, Bool.false_eq_true, if_false, if_true, n2,
      Bool.false_and]
    rw [not_bad h hf (by rw [changeHp_length]; exact hlen)]
    exact ⟨_, rfl, rfl⟩
  obtain ⟨r, r1, r2⟩ := htry
  refine ⟨{ vec := v, allow := false }, nb, [j],
    { tasks := st0.tasks.set j r.task,
      alive := if r.task.left = 0 then st0.alive - 1 else st0.alive,
      calls := r.calls,
      out := st0.out ++ (r.found.map (fun w => (t.hp.name, w))).toList }, t.hp.name, ?_, n1, ?_, ?_⟩
  · unfold Config.ofVector
    rw [if_neg (by simpa using hlen)]
  · unfold oneExchange
    rw [h0]
    simp only [exchangeRun, if_neg halive, exchangeStep, hj, if_neg t8, r1]
  · simp only [r2, Option.map_some, Option.toList_some, List.mem_append, List.mem_singleton, t2]
    exact .inr trivial

/-- For choices a move is always among the neighbours. -/
theorem sureStep (h : Reach calls s) (hf : allForbs calls = []) {num : Nat} {v : Vec}
    (hv : ValidVec calls s v) {y : HP} (hy : y ∈ allHps calls) (hch : IsChoice y ∨ ∃ w, y.kind = .const w) {q q' : Rat}
    (hq : v.at (s.idx y.name) = some q)
    (hm : Move y q q') : SureStep calls s num v (s.changeHp v y.name q' (s.idx y.name)) := by
  intro c nb choices st hc hp hr hend
  have hce := ofVector_eq hc
  subst hce
  have hw := (reach_wf h).1 y hy
  have hlen := (exact_at h hv).1
  have he := (exact_at h hv).2 y hy q hq
  have hsz := size_of_ne hw he hm.1 hm.2.1
  have hyn := (reach_isNode h y.name).2 ⟨y, hy, rfl⟩
  have hown : OwnClauses calls := by
    intro f hff
    rw [hf] at hff
    cases hff
  have hrep := represents_asg h hlen
  have hch' : IsChoice y := by
    rcases hch with hch | ⟨w, hk⟩
    · exact hch
    · rw [hk] at hsz; exact absurd rfl hsz
  have hmem : (∀ k, q' ∈ nb k y.name) ∧ ∀ k, some (nb k y.name).length = (match y.kind with
      | .cat cs => some (cs.length - 1)
      | .ord cs => (Config.getItem s { vec := v, allow := false } y.name).1.toOption.bind
          (fun w => Num.ordNumNeighbors cs (some w))
      | _ => none) := by
    have hpk := fun k => hp k y hy hsz q hq
    rcases hch' with ⟨cs, hk⟩ | ⟨cs, hk⟩
    · obtain ⟨i, hi, rfl⟩ := (entry_seq hw (.inl hk)).1 he
      obtain ⟨j, hj, hjq⟩ := (entry_seq hw (.inl hk)).1 hm.1
      rw [hk] at hpk ⊢
      refine ⟨fun k => ?_, fun k => congrArg some (prop_cat hi (hpk k)).1⟩
      rw [hjq]
      exact (prop_cat hi (hpk k)).2 j hj (fun e => hm.2.1 (by rw [hjq, e]))
    · obtain ⟨i, hi, hiq⟩ := (entry_seq hw (.inr hk)).1 he
      obtain ⟨j, hj, hjq⟩ := (entry_seq hw (.inr hk)).1 hm.1
      obtain ⟨x, hx, hxy⟩ := node_of_hp h hy
      have hxn : x.name = y.name := by rw [← hxy]; rfl
      obtain ⟨i', hi', e1, e2⟩ := getItem_ord h hv hx (cs := cs) (by rw [hxy]; exact hk) (by rw [hxn, hq]; rfl)
      rw [hxn] at e1 e2
      rw [hq, hiq] at e1
      have : i = i' := by exact_mod_cast Option.some.inj e1
      subst this
      have hd := (HP.wf_distinct hw (.inr hk)).2
      rw [hk] at hpk hsz
      have h1 : cs.length ≠ 1 := fun e => hsz (congrArg some e)
      rw [hiq] at hpk
      constructor
      · intro k
        rw [hjq]
        refine (prop_ord hd hi h1 (hpk k)).2 j hj ?_
        rcases hm.2.2 cs hk with e | e
        · rw [hiq, hjq] at e
          exact .inr (by exact_mod_cast e)
        · rw [hiq, hjq] at e
          exact .inl (by exact_mod_cast e.symm)
      · intro k
        rw [hk]
        simp only [e2, Except.toOption, Option.bind_some]
        exact (prop_ord hd hi h1 (hpk k)).1.symm
  obtain ⟨k, l, l1, l2, l3⟩ := C57_choices_exhausted h hown hrep hr hend hy hch'
    ⟨q, by rw [← at_idx hrep hyn]; exact hq⟩ hsz hmem.2
  have hin : q' ∈ l := by
    rw [l3 q' (hmem.1 k)]
    intro b _ f hff
    rw [hf] at hff
    cases hff
  have : s.changeHp v y.name q' (s.idx y.name) ∈ yieldedFor st y.name := by
    rw [l2]
    exact List.mem_map.2 ⟨q', hin, rfl⟩
  unfold yieldedFor at this
  obtain ⟨p, hp1, hp2⟩ := List.mem_map.1 this
  exact ⟨p.1, by rw [← hp2]; exact (List.mem_filter.1 hp1).1⟩

/-- **C98** (partial: layered conditions, conditions that are grouped have the same meaning, no clauses). Every valid
configuration can be reached from every other by one-exchange steps, for suitable outcomes of the random generator. -/
theorem C98_connected_partial (h : Reach calls s) (hsep : Separable calls) (hl : WeaklyLayered calls)
    (hf : allForbs calls = []) {num : Nat} (hnum : num ≠ 0) {v w : Vec} (hv : ValidVec calls s v)
    (hw : ValidVec calls s w) : ReflTransGen (MayStep calls s num) v w := by
  refine connect (Move := Move) h hsep hl hf ?_ (fun y _ q q' hm => hm.1)
    (fun y hy q q' h1 h2 => move_connected ((reach_wf h).1 y hy) h1 h2) hv hw
  intro v y q q' hv hy hq _ _ hm
  exact mayStep h hf hnum hv hy hq hm

/-- **C98, choices** (partial: as above). If all hyperparameters are categorical, ordinal or constant, every valid
configuration can be reached by steps that are possible whatever the random generator does: each is among the
neighbours that the generator has produced when it ends. -/
theorem C98_choices_connected_partial (h : Reach calls s) (hsep : Separable calls) (hl : WeaklyLayered calls)
    (hf : allForbs calls = []) (hc : OnlyChoices calls) {num : Nat} {v w : Vec} (hv : ValidVec calls s v)
    (hw : ValidVec calls s w) : ReflTransGen (SureStep calls s num) v w := by
  refine connect (Move := Move) h hsep hl hf ?_ (fun y _ q q' hm => hm.1)
    (fun y hy q q' h1 h2 => move_connected ((reach_wf h).1 y hy) h1 h2) hv hw
  intro v y q q' hv hy hq _ _ hm
  exact sureStep h hf hv hy (hc y hy) hq hm

/-- **C98, the generator.** From every valid configuration, whatever it proposes, the generator never raises, and it
ends if every index occurs often enough among its choices; and there is something to propose. -/
theorem C98_generator_runs (h : Reach calls s) {num : Nat} (hnum : num ≠ 0) {v : Vec} (hv : ValidVec calls s v) :
    (∃ nb, Possible calls s num v nb) ∧
    ∀ c nb, Config.ofVector s v = .ok c → Possible calls s num v nb →
      (∀ choices, ∃ st, oneExchange s c num nb choices = .ok st) ∧
      ∃ choices st, oneExchange s c num nb choices = .ok st ∧ st.alive = 0 := by
  constructor
  · classical
    have hex : ∀ n : Name, ∃ m : List Rat, ∀ z ∈ allHps calls, z.name = n → z.kind.size ≠ some 1 →
        ∀ x, v.at (s.idx z.name) = some x → MayPropose num z.kind x m := by
      intro n
      by_cases hz : ∃ z ∈ allHps calls, z.name = n ∧ z.kind.size ≠ some 1 ∧ ∃ x, v.at (s.idx z.name) = some x
      · obtain ⟨z, hz, hn, hs, x, hx⟩ := hz
        obtain ⟨m, hm⟩ := some_proposal ((reach_wf h).1 z hz) hnum ((exact_at h hv).2 z hz x hx) hs
        refine ⟨m, ?_⟩
        intro z' hz' hn' _ x' hx'
        have := reach_hp_inj h z' hz' z hz (hn'.trans hn.symm)
        subst this
        rw [hx] at hx'
        cases hx'
        exact hm
      · exact ⟨[], fun z hz' hn hs x hx => absurd ⟨z, hz', hn, hs, x, hx⟩ hz⟩
    exact ⟨fun _ n => (hex n).choose, fun k z hz hs x hx => (hex z.name).choose_spec z hz rfl hs x hx⟩
  · intro c nb hc hp
    have hce := ofVector_eq hc
    subst hce
    obtain ⟨st0, h0⟩ := init_ok h hv hnum
    obtain ⟨i1, i2, i3, i4, i5⟩ := init_spec (nb := nb) (v := v) h h0
    have hall : ∀ choices, ∃ st, oneExchange s { vec := v, allow := false } num nb choices = .ok st := by
      intro choices
      unfold oneExchange
      rw [h0]
      refine run_total choices _ (fun t ht k => ?_)
      obtain ⟨t1, t2, t3, t4, t5, _⟩ := i4 t ht
      cases hq : v.at (s.idx t.hp.name) with
      | none => rw [hq] at t5; cases t5
      | some q =>
        exact proposal_ne_nil ((reach_wf h).1 _ t1) hnum ((exact_at h hv).2 _ t1 q hq) t4 (hp k _ t1 t4 q hq)
    refine ⟨hall, ?_⟩
    -- every index as often as the largest number of neighbours
    obtain ⟨B, hB⟩ : ∃ B, ∀ t ∈ st0.tasks, t.plan.toGen ≤ B := by
      refine ⟨(st0.tasks.map (fun t => t.plan.toGen)).sum, fun t ht => ?_⟩
      exact List.le_sum_of_mem (List.mem_map.2 ⟨t, ht, rfl⟩)
    have hcount : ∀ i, i < st0.tasks.length →
        ((List.replicate B (List.range st0.tasks.length)).flatten).count i = B := by
      intro i hi
      rw [List.count_flatten]
      simp [List.count_eq_one_of_mem List.nodup_range (List.mem_range.2 hi)]
    obtain ⟨st, hst⟩ := hall (List.replicate B (List.range st0.tasks.length)).flatten
    refine ⟨_, st, hst, C56_generator_ends h hst ?_⟩
    intro i hi t ht
    obtain ⟨st0', e0, _, hinv⟩ := run_spec h hst
    rw [h0] at e0
    cases e0
    obtain ⟨t0, f1, f2, f3, f4, _⟩ := hinv.same i t ht
    rw [hcount i (by rw [← hinv.len]; exact hi), f4]
    exact hB t0 (List.mem_of_getElem? f1)

/-! ## Examples -/

/-- A concrete vector is that of a valid configuration: a check. -/
theorem validVec_of_check (h : Reach calls s) (hsep : Separable calls) (hown : OwnClauses calls) {v : Vec}
    (hl : v.length = s.len) (hc : s.check v = none)
    (hb : (allHps calls).all (fun y => match v.at (s.idx y.name) with
      | none => true
      | some q => match y.kind.toVal q with
        | none => false
        | some w => y.kind.legalValue w && decide (y.kind.toVec w = some q)) = true) : ValidVec calls s v := by
  have hrep := represents_asg h hl
  have hex : Exact calls (asg s.idx v) := by
    intro y hy q hq
    have := List.all_eq_true.1 hb y hy
    have hq' : v.at (s.idx y.name) = some q := hq
    simp only [hq'] at this
    cases hv : y.kind.toVal q with
    | none => simp [hv] at this
    | some w =>
      simp only [hv, Bool.and_eq_true, decide_eq_true_eq] at this
      refine ⟨w, this.1, ?_, this.2⟩
      intro l u hk
      rw [hk] at hv
      simp only [Kind.toVal, Option.some.injEq] at hv
      exact ⟨_, by rw [← hv]; rfl⟩
  refine ⟨_, hrep, C16_accepted_legal_roots_partial h hsep hown hrep ?_ hc, hex⟩
  intro y hy _ q hq
  exact entryOf_legal ((reach_wf h).1 y hy) (hex y hy q hq)

namespace ExV
open Verif.Ex

/-- The running example without clauses: all kinds of hyperparameters, and conditions in two levels. -/
def callV : Call := ⟨[hpX, hpK, hpO, hpAlg, hpC], [condX, condK, condO], []⟩
def spV : Space := committed {} callV
theorem reachV : Reach [callV] spV := Reach.snoc (calls := []) .nil (by decide +kernel)
  (add_of_stages dd1 vv1 ww1 (by decide +kernel) (by decide +kernel) (by decide +kernel)
    (by decide +kernel) (by decide +kernel) (by decide +kernel))
theorem sepV : Separable [callV] := sep2
theorem weaklyV : WeaklyLayered [callV] := weaklyLayered_of_check reachV (by decide +kernel)
theorem ownV : OwnClauses [callV] := fun f hf => by simp [allForbs, callV] at hf

/-- Two choices each; only equal ones are allowed. -/
def callW : Call := ⟨[ab "p", ab "r"], [], [.and [.eq (ab "p") (.str "a") 0, .eq (ab "r") (.str "b") 1],
  .and [.eq (ab "p") (.str "b") 1, .eq (ab "r") (.str "a") 0]]⟩
def spW : Space := committed {} callW
theorem reachW : Reach [callW] spW := Reach.snoc (calls := []) .nil (by decide +kernel)
  (add_of_stages [("p", some (.str "a")), ("r", some (.str "a"))] [some 0, some 0] [("p", .str "a"), ("r", .str "a")]
    (by decide +kernel) (by decide +kernel) (by decide +kernel)
    (by decide +kernel) (by decide +kernel) (by decide +kernel))
theorem sepW : Separable [callW] := fun c hc => by simp [allConds, callW] at hc
theorem ownW : OwnClauses [callW] := by
  intro f hf
  simp only [allForbs, callW, List.flatMap_cons, List.flatMap_nil, List.append_nil, List.mem_cons, List.not_mem_nil,
    or_false] at hf
  rcases hf with rfl | rfl <;> simp [clauseHps, clauseHpsL, allHps, callW]

end ExV

/-- From `alg = b`, `o = hi` to `alg = a`, `o = lo`, `k = 10`, `x = 2`. -/
example : ReflTransGen (MayStep [ExV.callV] ExV.spV 3) [some 1, some 1, none, some 2, none]
    [some 0, some 1, some 1, some 0, some 1] :=
  C98_connected_partial ExV.reachV ExV.sepV ExV.weaklyV rfl (by decide)
    (validVec_of_check ExV.reachV ExV.sepV ExV.ownV (by decide +kernel) (by decide +kernel) (by decide +kernel))
    (validVec_of_check ExV.reachV ExV.sepV ExV.ownV (by decide +kernel) (by decide +kernel) (by decide +kernel))

/-- On the chain of three choices, from `p = b` to `p = x = a`, `y = b`. -/
example : ReflTransGen (SureStep [Ex.callL] Ex.spL 1) [some 1, none, none] [some 0, some 0, some 1] :=
  C98_choices_connected_partial Ex.reachL Ex.sepL Ex.layeredL.weakly rfl
    (by
      intro y hy
      simp only [allHps, Ex.callL, List.flatMap_cons, List.flatMap_nil, List.append_nil, List.mem_cons, List.not_mem_nil,
        or_false] at hy
      rcases hy with rfl | rfl | rfl <;> exact .inl (.inl ⟨_, rfl⟩))
    (validVec_of_check Ex.reachL Ex.sepL (fun f hf => by simp [allForbs, Ex.callL] at hf) (by decide +kernel)
      (by decide +kernel) (by decide +kernel))
    (validVec_of_check Ex.reachL Ex.sepL (fun f hf => by simp [allForbs, Ex.callL] at hf) (by decide +kernel)
      (by decide +kernel) (by decide +kernel))

/-- The generator runs from the default configuration of the example. -/
example : ∃ nb choices st, Possible [ExV.callV] ExV.spV 3 Ex.vv1 nb ∧
    oneExchange ExV.spV { vec := Ex.vv1, allow := false } 3 nb choices = .ok st ∧ st.alive = 0 := by
  obtain ⟨⟨nb, h1⟩, h2⟩ := C98_generator_runs ExV.reachV (num := 3) (by decide)
    (validVec_of_check ExV.reachV ExV.sepV ExV.ownV (v := Ex.vv1) (by decide +kernel) (by decide +kernel) (by decide +kernel))
  obtain ⟨choices, st, h3, h4⟩ := (h2 _ nb (by unfold Config.ofVector; rw [if_neg (by decide +kernel)]) h1).2
  exact ⟨nb, choices, st, h1, h3, h4⟩

/-- **C98 fails with clauses:** if `p` and `r` must be equal, the configuration `a`, `a` has no neighbour at all, so a
local search never gets to `b`, `b`, which is valid as well. -/
theorem C98_clauses_disconnect : ∃ calls s v w, Reach calls s ∧ Separable calls ∧ WeaklyLayered calls ∧ OnlyChoices calls ∧
    ValidVec calls s v ∧ ValidVec calls s w ∧ v ≠ w ∧ ∀ num u, ¬ MayStep calls s num v u := by
  refine ⟨[ExV.callW], ExV.spW, [some 0, some 0], [some 1, some 1], ExV.reachW, ExV.sepW,
    weaklyLayered_of_check ExV.reachW (by decide +kernel), ?_,
    validVec_of_check ExV.reachW ExV.sepW ExV.ownW (by decide +kernel) (by decide +kernel) (by decide +kernel),
    validVec_of_check ExV.reachW ExV.sepW ExV.ownW (by decide +kernel) (by decide +kernel) (by decide +kernel),
    by decide +kernel, ?_⟩
  · intro y hy
    simp only [allHps, ExV.callW, List.flatMap_cons, List.flatMap_nil, List.append_nil, List.mem_cons, List.not_mem_nil,
      or_false] at hy
    rcases hy with rfl | rfl <;> exact .inl (.inl ⟨_, rfl⟩)
  · rintro num u ⟨c, nb, choices, st, n, hc, hp, hr, hw⟩
    have hce := ofVector_eq hc
    subst hce
    have hrep := represents_asg ExV.reachW (v := [some 0, some 0]) (by decide +kernel)
    obtain ⟨y, hy, rfl, _, k, x, b, hx, rfl, hb, _, _, hcl⟩ := C38_one_value_exchanged ExV.reachW ExV.ownW hrep hr hw
    have hone : ∀ l : List Rat, MayPropose num (.cat [.str "a", .str "b"]) 0 l → ∀ x ∈ l, x = 1 := by
      rintro l ⟨sh, r, g1, g2, g3⟩ x hx
      obtain ⟨r', q1, q2, q3, _⟩ := Num.C35_categorical_partial (size := 2) (i := 0) (n := 1) (by decide) g1
      have g2' : Num.catNeighbors 2 ((0 : Nat) : Rat) 1 sh = some r := g2
      rw [g2'] at q1
      cases q1
      rw [g3.mem_iff] at hx
      obtain ⟨j, hj, rfl⟩ := List.mem_map.1 hx
      have := q3 j hj
      have : j = 1 := by omega
      rw [this]; norm_num
    simp only [allHps, ExV.callW, List.flatMap_cons, List.flatMap_nil, List.append_nil, List.mem_cons, List.not_mem_nil,
      or_false] at hy
    rcases hy with rfl | rfl
    · have hx1 := hone _ (hp k (Ex.ab "p") (by simp [allHps, ExV.callW]) (by decide +kernel) 0 (by decide +kernel)) x hx
      subst hx1
      refine hcl (.and [.eq (Ex.ab "p") (.str "b") 1, .eq (Ex.ab "r") (.str "a") 0]) (by simp [allForbs, ExV.callW])
        ⟨Ex.ab "p", by simp [clauseHps, clauseHpsL], rfl⟩ ?_
      rw [← forbids_represents ExV.reachW hb (by simp [allForbs, ExV.callW]), ← onVec_iff]
      decide +kernel
    · have hx1 := hone _ (hp k (Ex.ab "r") (by simp [allHps, ExV.callW]) (by decide +kernel) 0 (by decide +kernel)) x hx
      subst hx1
      refine hcl (.and [.eq (Ex.ab "p") (.str "a") 0, .eq (Ex.ab "r") (.str "b") 1]) (by simp [allForbs, ExV.callW])
        ⟨Ex.ab "r", by simp [clauseHps, clauseHpsL], rfl⟩ ?_
      rw [← forbids_represents ExV.reachW hb (by simp [allForbs, ExV.callW]), ← onVec_iff]
      decide +kernel

end Verif.Conn
