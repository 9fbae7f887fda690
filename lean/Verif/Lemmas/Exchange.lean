import Verif.Spec.Exchange
import Mathlib.Data.List.TakeWhile

/-!
# The loop of the one-exchange neighbourhood
-/

set_option autoImplicit false

namespace Verif
open Verif.Spec

variable {s : Space} {v : Vec} {nb : Nat → Name → List Rat}

/-- The clauses listed for the exchanged hyperparameter forbid the neighbour. -/
def exBad (s : Space) (v : Vec) (n : Name) (i : Nat) (x : Rat) : Bool :=
  (forbLookup s.fast n).any (fun f => f.onVec s.idx (s.changeHp v n x i))

theorem tryLoop_spec {was : Bool} : ∀ {m : Nat} {t : Task} {k : Nat} {r : Tried},
    tryLoop s v nb was m t k = .ok r →
    r.task.hp = t.hp ∧ r.task.idx = t.idx ∧ r.task.plan = t.plan ∧
    (∀ y ∈ r.task.pending, y ∈ t.pending ∨ ∃ k', y ∈ nb k' t.hp.name) ∧
    (r.found = none → r.task.left = 0) ∧
    (∀ w, r.found = some w → r.task.left = t.left - 1 ∧ ∃ x, (x ∈ t.pending ∨ ∃ k', x ∈ nb k' t.hp.name) ∧
      w = s.changeHp v t.hp.name x t.idx ∧ exBad s v t.hp.name t.idx x = false)
  | 0, t, k, r, h => by
    simp only [tryLoop, Except.ok.injEq] at h
    subst h
    exact ⟨rfl, rfl, rfl, fun y hy => .inl hy, fun _ => rfl, fun w hw => by cases hw⟩
  | m + 1, t, k, r, h => by
    simp only [tryLoop] at h
    split at h
    · simp only [Except.ok.injEq] at h
      subst h
      exact ⟨rfl, rfl, rfl, fun y hy => .inl hy, fun _ => rfl, fun w hw => by cases hw⟩
    · have hsame : ∀ t' : Task,
          t' = (if t.pending.isEmpty then { t with pending := nb k t.hp.name, generated := true } else t) →
          t'.hp = t.hp ∧ t'.idx = t.idx ∧ t'.plan = t.plan ∧ t'.left = t.left ∧
            ∀ y ∈ t'.pending, y ∈ t.pending ∨ ∃ k', y ∈ nb k' t.hp.name := by
        intro t' e
        split at e
        · subst e; exact ⟨rfl, rfl, rfl, rfl, fun y hy => .inr ⟨k, hy⟩⟩
        · subst e; exact ⟨rfl, rfl, rfl, rfl, fun y hy => .inl hy⟩
      obtain ⟨e1, e2, e3, e4, e5⟩ := hsame _ rfl
      generalize (if t.pending.isEmpty then { t with pending := nb k t.hp.name, generated := true } else t) = t' at *
      generalize (if t.pending.isEmpty then k + 1 else k) = k' at *
      split at h
      · cases h
      · rename_i x rest hp
        split at h
        · obtain ⟨i1, i2, i3, i4, i5, i6⟩ := tryLoop_spec h
          simp only at i1 i2 i3 i4 i5 i6
          rw [e1] at i1 i6
          rw [e2] at i2 i6
          rw [e3] at i3
          rw [e4] at i6
          have hsub : ∀ y, (y ∈ rest ∨ ∃ k', y ∈ nb k' t.hp.name) → y ∈ t.pending ∨ ∃ k', y ∈ nb k' t.hp.name := by
            rintro y (hy | hy)
            · exact e5 y (by rw [hp]; exact List.mem_cons_of_mem _ hy)
            · exact .inr hy
          refine ⟨i1, i2, i3, fun y hy => hsub y (by have := i4 y hy; rwa [e1] at this), i5, ?_⟩
          intro w hw
          obtain ⟨j1, x, j2, j3, j4⟩ := i6 w hw
          exact ⟨j1, x, hsub x j2, j3, j4⟩
        · rename_i hbad
          simp only [Except.ok.injEq] at h
          subst h
          refine ⟨e1, e2, e3, fun y hy => e5 y (by rw [hp]; exact List.mem_cons_of_mem _ hy),
            fun hn => (by cases hn), ?_⟩
          intro w hw
          cases hw
          exact ⟨rfl, x, e5 x (by rw [hp]; simp), rfl, by simpa [exBad] using hbad⟩

theorem tryLoop_total {was : Bool} : ∀ (m : Nat) (t : Task) (k : Nat), (∀ k, nb k t.hp.name ≠ []) →
    ∃ r, tryLoop s v nb was m t k = .ok r
  | 0, t, k, _ => ⟨_, rfl⟩
  | m + 1, t, k, hne => by
    simp only [tryLoop]
    split
    · exact ⟨_, rfl⟩
    · split
      · rename_i hp
        exfalso
        split at hp
        · exact hne _ hp
        · rename_i hn; rw [hp] at hn; exact hn rfl
      · split
        · refine tryLoop_total _ _ _ ?_
          split <;> exact hne
        · exact ⟨_, rfl⟩

theorem step_cases {st st' : ExState} {i : Nat} (h : exchangeStep s v nb st i = .ok st') :
    st' = st ∧ (∀ t, st.tasks[i]? = some t → t.left = 0) ∨
    ∃ t r, st.tasks[i]? = some t ∧ t.left ≠ 0 ∧
      tryLoop s v nb t.generated t.plan.maxIter t st.calls = .ok r ∧
      st' = { tasks := st.tasks.set i r.task,
              alive := if r.task.left = 0 then st.alive - 1 else st.alive,
              calls := r.calls,
              out := st.out ++ (r.found.map (fun w => (t.hp.name, w))).toList } := by
  unfold exchangeStep at h
  split at h
  · rename_i hn
    simp only [Except.ok.injEq] at h
    exact .inl ⟨h.symm, fun t ht => by rw [hn] at ht; cases ht⟩
  · rename_i t ht
    split at h
    · rename_i h0
      simp only [Except.ok.injEq] at h
      refine .inl ⟨h.symm, fun t' ht' => ?_⟩
      rw [ht] at ht'; cases ht'; exact h0
    · rename_i h0
      split at h
      · cases h
      · rename_i r hr
        simp only [Except.ok.injEq] at h
        exact .inr ⟨t, r, ht, h0, hr, h.symm⟩

theorem run_inv {P : ExState → Prop}
    (hstep : ∀ st i st', P st → exchangeStep s v nb st i = .ok st' → P st') :
    ∀ {is : List Nat} {st st' : ExState}, P st → exchangeRun s v nb is st = .ok st' → P st'
  | [], st, st', hp, h => by simp only [exchangeRun, Except.ok.injEq] at h; exact h ▸ hp
  | i :: is, st, st', hp, h => by
    simp only [exchangeRun] at h
    split at h
    · simp only [Except.ok.injEq] at h; exact h ▸ hp
    · split at h
      · cases h
      · rename_i st1 h1
        exact run_inv hstep (hstep st i st1 hp h1) h

/-- What stays true of the entries and of the neighbours generated so far. -/
structure ExInv (s : Space) (v : Vec) (nb : Nat → Name → List Rat) (ts : List Task) (st : ExState) : Prop where
  len : st.tasks.length = ts.length
  same : ∀ (i : Nat) (t : Task), st.tasks[i]? = some t → ∃ t0, ts[i]? = some t0 ∧ t.hp = t0.hp ∧ t.idx = t0.idx ∧
    t.plan = t0.plan ∧ t.left ≤ t0.left
  pend : ∀ t ∈ st.tasks, ∀ y ∈ t.pending, ∃ k, y ∈ nb k t.hp.name
  out : ∀ p ∈ st.out, ∃ t ∈ ts, p.1 = t.hp.name ∧ ∃ k x, x ∈ nb k t.hp.name ∧
    p.2 = s.changeHp v t.hp.name x t.idx ∧ exBad s v t.hp.name t.idx x = false
  alive : st.alive = (st.tasks.filter (fun t => decide (t.left ≠ 0))).length

theorem filter_set_length {α : Type} (p : α → Bool) : ∀ {l : List α} {i : Nat} {a b : α}, l[i]? = some a →
    ((l.set i b).filter p).length + (if p a then 1 else 0) = (l.filter p).length + (if p b then 1 else 0)
  | [], i, a, b, h => by simp at h
  | x :: l, 0, a, b, h => by
    simp only [List.getElem?_cons_zero, Option.some.injEq] at h
    subst h
    simp only [List.set_cons_zero, List.filter_cons]
    by_cases h1 : p x = true <;> by_cases h2 : p b = true <;> simp [h1, h2]
  | x :: l, i + 1, a, b, h => by
    simp only [List.getElem?_cons_succ] at h
    have ih := filter_set_length p (b := b) h
    simp only [List.set_cons_succ, List.filter_cons]
    by_cases h1 : p x = true
    · simp only [h1, if_true, List.length_cons]; omega
    · simp only [h1, if_false, Bool.false_eq_true]; exact ih

theorem get_set {α : Type} {l : List α} {i j : Nat} {a b c : α} (h : l[i]? = some a) (hj : (l.set i b)[j]? = some c) :
    (j = i ∧ c = b) ∨ (j ≠ i ∧ l[j]? = some c) := by
  rw [List.getElem?_set] at hj
  split at hj
  · rename_i e
    split at hj
    · exact .inl ⟨e.symm, (Option.some.inj hj).symm⟩
    · cases hj
  · rename_i e
    exact .inr ⟨fun h => e h.symm, hj⟩

theorem exInv_step {ts : List Task} {st st' : ExState} {i : Nat} (hi : ExInv s v nb ts st)
    (h : exchangeStep s v nb st i = .ok st') : ExInv s v nb ts st' := by
  rcases step_cases h with ⟨rfl, _⟩ | ⟨t, r, ht, h0, hr, rfl⟩
  · exact hi
  obtain ⟨a1, a2, a3, a4, a5, a6⟩ := tryLoop_spec hr
  obtain ⟨t0, b1, b2, b3, b4, b5⟩ := hi.same i t ht
  have hmem := List.mem_of_getElem? ht
  have hleft : r.task.left ≤ t.left := by
    cases hf : r.found with
    | none => rw [a5 hf]; exact Nat.zero_le _
    | some w => rw [(a6 w hf).1]; exact Nat.sub_le _ _
  have hpend : ∀ y, (y ∈ t.pending ∨ ∃ k', y ∈ nb k' t.hp.name) → ∃ k, y ∈ nb k t.hp.name := by
    rintro y (hy | hy)
    · exact hi.pend t hmem y hy
    · exact hy
  refine ⟨by simp [hi.len], ?_, ?_, ?_, ?_⟩
  · intro j t' hj
    rcases get_set ht hj with ⟨rfl, rfl⟩ | ⟨_, hj'⟩
    · exact ⟨t0, b1, a1.trans b2, a2.trans b3, a3.trans b4, Nat.le_trans hleft b5⟩
    · exact hi.same j t' hj'
  · intro t' ht' y hy
    rcases List.mem_or_eq_of_mem_set ht' with k | rfl
    · exact hi.pend t' k y hy
    · rw [a1]; exact hpend y (a4 y hy)
  · intro p hp
    simp only [List.mem_append, Option.mem_toList, Option.map_eq_some_iff] at hp
    rcases hp with hp | ⟨w, hw, rfl⟩
    · exact hi.out p hp
    · obtain ⟨_, x, c1, c2, c3⟩ := a6 w hw
      obtain ⟨k, hk⟩ := hpend x c1
      refine ⟨t0, List.mem_of_getElem? b1, by rw [b2], k, x, by rw [← b2]; exact hk, ?_, ?_⟩
      · rw [← b2, ← b3]; exact c2
      · rw [← b2, ← b3]; exact c3
  · have := filter_set_length (fun t : Task => decide (t.left ≠ 0)) (b := r.task) ht
    have ha := hi.alive
    simp only [h0, ne_eq, not_false_eq_true, decide_true, if_true] at this
    simp only
    by_cases e : r.task.left = 0
    · simp only [e, not_true_eq_false, decide_false, Bool.false_eq_true, if_false] at this
      rw [if_pos e]; simp only [ne_eq] at ha ⊢; omega
    · simp only [e, not_false_eq_true, decide_true, if_true] at this
      rw [if_neg e]; simp only [ne_eq] at ha ⊢; omega

/-- Every selection of a live entry uses up one of its neighbours. -/
theorem run_left : ∀ {is : List Nat} {st st' : ExState}, ExInv s v nb st.tasks st →
    exchangeRun s v nb is st = .ok st' → ∀ (i : Nat) (t' : Task), st'.tasks[i]? = some t' →
      ∃ t, st.tasks[i]? = some t ∧ t'.left ≤ t.left - is.count i
  | [], st, st', _, h, i, t', ht => by
    simp only [exchangeRun, Except.ok.injEq] at h
    subst h
    exact ⟨t', ht, by simp⟩
  | j :: is, st, st', hi, h, i, t', ht => by
    simp only [exchangeRun] at h
    split at h
    · rename_i h0
      simp only [Except.ok.injEq] at h
      subst h
      refine ⟨t', ht, ?_⟩
      have ha := hi.alive
      rw [h0] at ha
      have := List.filter_eq_nil_iff.1 (List.eq_nil_of_length_eq_zero ha.symm) t' (List.mem_of_getElem? ht)
      simp only [ne_eq, decide_not, Bool.not_eq_true', decide_eq_false_iff_not, Decidable.not_not] at this
      omega
    · split at h
      · cases h
      · rename_i st1 h1
        have hi1 := exInv_step hi h1
        have hi1' : ExInv s v nb st1.tasks st1 := by
          refine ⟨rfl, fun i t ht => ⟨t, ht, rfl, rfl, rfl, Nat.le_refl _⟩, hi1.pend, ?_, hi1.alive⟩
          intro p hp
          obtain ⟨t, hmt, e1, k, x, e2, e3, e4⟩ := hi1.out p hp
          obtain ⟨a, ha⟩ := List.getElem?_of_mem hmt
          have hlt : a < st1.tasks.length := by
            rw [hi1.len]; exact (List.getElem?_eq_some_iff.1 ha).1
          obtain ⟨t2, ht2⟩ : ∃ t2, st1.tasks[a]? = some t2 := ⟨_, List.getElem?_eq_getElem hlt⟩
          obtain ⟨t3, c1, c2, c3, _, _⟩ := hi1.same a t2 ht2
          rw [ha] at c1; cases c1
          exact ⟨t2, List.mem_of_getElem? ht2, by rw [c2]; exact e1, k, x, by rw [c2]; exact e2,
            by rw [c2, c3]; exact e3, by rw [c2, c3]; exact e4⟩
        obtain ⟨t1, k1, k2⟩ := run_left hi1' h i t' ht
        rcases step_cases h1 with ⟨rfl, hz⟩ | ⟨t, r, ht0, hl, hr, rfl⟩
        · refine ⟨t1, k1, ?_⟩
          by_cases e : i = j
          · subst e; have := hz t1 k1; omega
          · rw [List.count_cons_of_ne (Ne.symm e)]; exact k2
        · obtain ⟨_, _, _, _, a5, a6⟩ := tryLoop_spec hr
          rcases get_set ht0 k1 with ⟨rfl, rfl⟩ | ⟨hne, k1'⟩
          · refine ⟨t, ht0, ?_⟩
            rw [List.count_cons_self]
            cases hf : r.found with
            | none => rw [a5 hf] at k2; omega
            | some w => rw [(a6 w hf).1] at k2; omega
          · exact ⟨t1, k1', by rw [List.count_cons_of_ne (Ne.symm hne)]; exact k2⟩

theorem run_total : ∀ (is : List Nat) (st : ExState), (∀ t ∈ st.tasks, ∀ k, nb k t.hp.name ≠ []) →
    ∃ st', exchangeRun s v nb is st = .ok st'
  | [], st, _ => ⟨_, rfl⟩
  | i :: is, st, hne => by
    simp only [exchangeRun]
    split
    · exact ⟨_, rfl⟩
    · cases h : exchangeStep s v nb st i with
      | error e =>
        exfalso
        unfold exchangeStep at h
        split at h
        · cases h
        · rename_i t ht
          split at h
          · cases h
          · obtain ⟨r, hr⟩ := tryLoop_total (s := s) (v := v) (was := t.generated) t.plan.maxIter t st.calls
              (hne t (List.mem_of_getElem? ht))
            rw [hr] at h
            cases h
      | ok st1 =>
        refine run_total is st1 ?_
        rcases step_cases h with ⟨rfl, _⟩ | ⟨t, r, ht, _, hr, rfl⟩
        · exact hne
        · intro t' ht'
          rcases List.mem_or_eq_of_mem_set ht' with k | rfl
          · exact hne t' k
          · rw [(tryLoop_spec hr).1]
            exact hne t (List.mem_of_getElem? ht)

/-! ## Choices -/

/-- The loop when the neighbours are generated once. -/
theorem tryLoop_once {was : Bool} : ∀ {m : Nat} {t : Task} {k : Nat}, t.plan.regen = false →
    (was = true ∧ t.pending.length ≤ m) ∨ t.pending.length = m →
    tryLoop s v nb was m t k = .ok (match t.pending.dropWhile (exBad s v t.hp.name t.idx) with
      | [] => ⟨{ t with left := 0, pending := [] }, none, k⟩
      | x :: rest => ⟨{ t with left := t.left - 1, pending := rest }, some (s.changeHp v t.hp.name x t.idx), k⟩)
  | 0, t, k, hr, hp => by
    have : t.pending = [] := by
      apply List.eq_nil_of_length_eq_zero
      rcases hp with ⟨_, h⟩ | h <;> omega
    simp only [tryLoop, this, List.dropWhile_nil]
  | m + 1, t, k, hr, hp => by
    cases hpd : t.pending with
    | nil =>
      have hw : was = true := by
        rcases hp with ⟨h, _⟩ | h
        · exact h
        · rw [hpd] at h; simp at h
      simp only [tryLoop, hpd, hw, hr, List.isEmpty_nil, Bool.not_false, Bool.and_self, if_true, List.dropWhile_nil]
    | cons x rest =>
      simp only [tryLoop, hpd, List.isEmpty_cons, Bool.false_and, Bool.false_eq_true, if_false]
      by_cases hb : exBad s v t.hp.name t.idx x = true
      · have hb' := hb
        unfold exBad at hb'
        rw [if_pos hb', tryLoop_once (t := { t with pending := rest }) hr, List.dropWhile_cons_of_pos hb]
        rw [hpd] at hp
        simp only [List.length_cons] at hp
        rcases hp with ⟨h, h'⟩ | h
        · exact .inl ⟨h, by simp only; omega⟩
        · exact .inr (by simp only; omega)
      · have hb' := hb
        unfold exBad at hb'
        rw [if_neg hb', List.dropWhile_cons_of_neg hb]

/-- An entry whose neighbours are generated once: what has been tried and what is still pending. -/
def OnceInv (s : Space) (v : Vec) (nb : Nat → Name → List Rat) (t : Task) (ws : List Vec) : Prop :=
  (t.generated = false ∧ t.pending = [] ∧ t.left = t.plan.toGen ∧ ws = []) ∨
  (t.generated = true ∧ ∃ k tried, nb k t.hp.name = tried ++ t.pending ∧
    ws = (tried.filter (fun x => !exBad s v t.hp.name t.idx x)).map (fun x => s.changeHp v t.hp.name x t.idx) ∧
    (t.left + ws.length = t.plan.toGen ∨ (t.left = 0 ∧ t.pending = [])))

theorem takeWhile_filter_nil {α : Type} (p : α → Bool) (l : List α) :
    (l.takeWhile p).filter (fun x => !p x) = [] := by
  rw [List.filter_eq_nil_iff]
  intro x hx
  have := List.mem_takeWhile_imp hx
  simp [this]

/-- After the neighbours have been generated, one more pass of the loop. -/
theorem once_pass {t t1 : Task} {ws : List Vec} (h : t.hp.name = t1.hp.name ∧ t.idx = t1.idx ∧ t.plan = t1.plan)
    (hg : t1.generated = true) {k : Nat} {tried : List Rat} (hk : nb k t1.hp.name = tried ++ t1.pending)
    (hws : ws = (tried.filter (fun x => !exBad s v t1.hp.name t1.idx x)).map (fun x => s.changeHp v t1.hp.name x t1.idx))
    (hl : t1.left + ws.length = t1.plan.toGen) (hpos : t1.left ≠ 0) {r : Tried} {c : Nat}
    (hr : r = (match t1.pending.dropWhile (exBad s v t1.hp.name t1.idx) with
      | [] => ⟨{ t1 with left := 0, pending := [] }, none, c⟩
      | x :: rest => ⟨{ t1 with left := t1.left - 1, pending := rest }, some (s.changeHp v t1.hp.name x t1.idx), c⟩)) :
    OnceInv s v nb r.task (ws ++ r.found.toList) := by
  have hsplit := List.takeWhile_append_dropWhile (p := exBad s v t1.hp.name t1.idx) (l := t1.pending)
  have hnil := takeWhile_filter_nil (exBad s v t1.hp.name t1.idx) t1.pending
  cases hd : t1.pending.dropWhile (exBad s v t1.hp.name t1.idx) with
  | nil =>
    rw [hd] at hr hsplit
    subst hr
    refine .inr ⟨hg, k, tried ++ t1.pending, by simpa using hk, ?_, .inr ⟨rfl, rfl⟩⟩
    rw [List.append_nil] at hsplit
    rw [hsplit] at hnil
    simp only [Option.toList_none, List.append_nil, List.filter_append, hnil]
    exact hws
  | cons x rest =>
    have hx : exBad s v t1.hp.name t1.idx x = false := by
      have := List.head?_dropWhile_not (exBad s v t1.hp.name t1.idx) t1.pending
      rw [hd] at this
      simpa using this
    rw [hd] at hr hsplit
    subst hr
    refine .inr ⟨hg, k, tried ++ (t1.pending.takeWhile (exBad s v t1.hp.name t1.idx) ++ [x]), ?_, ?_, .inl ?_⟩
    · simp only [hk]
      conv_lhs => rw [← hsplit]
      simp
    · simp only [List.filter_append, hnil, List.nil_append, List.filter_cons, hx, Bool.not_false, if_true,
        List.filter_nil, List.map_append, Option.toList_some, List.map_cons, List.map_nil]
      rw [hws]
    · simp only [List.length_append, Option.toList_some, List.length_cons, List.length_nil]
      omega

theorem once_step {t : Task} {ws : List Vec} {r : Tried} {c : Nat} (h : OnceInv s v nb t ws)
    (hreg : t.plan.regen = false) (hlen : ∀ k, (nb k t.hp.name).length = t.plan.toGen)
    (hmax : t.plan.maxIter = t.plan.toGen) (hpos : t.left ≠ 0)
    (hr : tryLoop s v nb t.generated t.plan.maxIter t c = .ok r) :
    OnceInv s v nb r.task (ws ++ r.found.toList) := by
  rcases h with ⟨hg, hp, hl, hw⟩ | ⟨hg, k, tried, hk, hw, hl⟩
  · -- the neighbours are generated in this pass
    obtain ⟨m, hm⟩ : ∃ m, t.plan.maxIter = m + 1 := ⟨t.plan.maxIter - 1, by omega⟩
    have key : tryLoop s v nb t.generated t.plan.maxIter t c =
        tryLoop s v nb t.generated t.plan.maxIter { t with pending := nb c t.hp.name, generated := true } (c + 1) := by
      have hne : (nb c t.hp.name).isEmpty = false := by
        cases hc : nb c t.hp.name with
        | nil => have := hlen c; rw [hc] at this; simp at this; omega
        | cons => rfl
      rw [hm]
      simp only [tryLoop, hp, hg, List.isEmpty_nil, Bool.and_false, Bool.false_and, Bool.false_eq_true, if_false, if_true,
        hne]
    rw [key, tryLoop_once (t := { t with pending := nb c t.hp.name, generated := true }) hreg
      (.inr (by simp only; rw [hlen, hmax]))] at hr
    simp only [Except.ok.injEq] at hr
    refine once_pass (t := t) (t1 := { t with pending := nb c t.hp.name, generated := true }) (k := c) (tried := [])
      ⟨rfl, rfl, rfl⟩ rfl rfl ?_ ?_ hpos hr.symm
    · simp [hw]
    · simp [hw, hl]
  · rcases hl with hl | ⟨h0, _⟩
    · have hle : t.pending.length ≤ t.plan.maxIter := by
        have := hlen k
        rw [hk, List.length_append] at this
        omega
      rw [hg, tryLoop_once hreg (.inl ⟨rfl, hle⟩)] at hr
      simp only [Except.ok.injEq] at hr
      exact once_pass (t := t) (t1 := t) ⟨rfl, rfl, rfl⟩ hg hk hw hl hpos hr.symm
    · exact absurd h0 hpos

/-- When the entry is exhausted, exactly the allowed neighbours have been generated. -/
theorem once_done {t : Task} {ws : List Vec} (h : OnceInv s v nb t ws)
    (hlen : ∀ k, (nb k t.hp.name).length = t.plan.toGen) (hpos : t.plan.toGen ≠ 0) (h0 : t.left = 0) :
    ∃ k, ws = ((nb k t.hp.name).filter (fun x => !exBad s v t.hp.name t.idx x)).map
      (fun x => s.changeHp v t.hp.name x t.idx) := by
  rcases h with ⟨_, _, hl, _⟩ | ⟨hg, k, tried, hk, hw, hl⟩
  · omega
  · refine ⟨k, ?_⟩
    have hp : t.pending = [] := by
      rcases hl with hl | ⟨_, hp⟩
      · have h1 := hlen k
        rw [hk, List.length_append] at h1
        have h2 : ws.length ≤ tried.length := by
          rw [hw, List.length_map]; exact List.length_filter_le _ _
        exact List.eq_nil_of_length_eq_zero (by omega)
      · exact hp
    rw [hk, hp, List.append_nil]
    exact hw

/-- The entries have different names. -/
def DistinctTasks (ts : List Task) : Prop := (ts.map (fun t => t.hp.name)).Nodup

theorem distinct_idx {ts : List Task} (hd : DistinctTasks ts) {i j : Nat} {t u : Task} (hi : ts[i]? = some t)
    (hj : ts[j]? = some u) (e : t.hp.name = u.hp.name) : i = j := by
  unfold DistinctTasks at hd
  obtain ⟨hi1, hi2⟩ := List.getElem?_eq_some_iff.1 hi
  obtain ⟨hj1, hj2⟩ := List.getElem?_eq_some_iff.1 hj
  have := (List.nodup_iff_injective_getElem.1 hd) (a₁ := ⟨i, by simpa using hi1⟩) (a₂ := ⟨j, by simpa using hj1⟩)
    (by simp [hi2, hj2, e])
  simpa using this

theorem yieldedFor_append {st : ExState} {n : Name} {ts : List Task} {al c : Nat} {m : Name} {f : Option Vec} :
    yieldedFor { tasks := ts, alive := al, calls := c, out := st.out ++ (f.map (fun w => (m, w))).toList } n =
      yieldedFor st n ++ (if m = n then f.toList else []) := by
  unfold yieldedFor
  cases f with
  | none => simp
  | some w =>
    simp only [Option.map_some, Option.toList_some, List.filter_append, List.map_append]
    by_cases e : m = n <;> simp [e]

/-- The bound on the number of neighbours per hyperparameter. -/
theorem yielded_bound {ts : List Task} (hd : DistinctTasks ts) {st st' : ExState} {i : Nat}
    (hi : ExInv s v nb ts st)
    (hp : ∀ (j : Nat) (t : Task), st.tasks[j]? = some t → (yieldedFor st t.hp.name).length + t.left ≤ t.plan.toGen)
    (h : exchangeStep s v nb st i = .ok st') :
    ∀ (j : Nat) (t : Task), st'.tasks[j]? = some t → (yieldedFor st' t.hp.name).length + t.left ≤ t.plan.toGen := by
  rcases step_cases h with ⟨rfl, _⟩ | ⟨t, r, ht, h0, hr, rfl⟩
  · exact hp
  obtain ⟨a1, a2, a3, a4, a5, a6⟩ := tryLoop_spec hr
  intro j u hj
  rw [yieldedFor_append]
  rcases get_set ht hj with ⟨rfl, rfl⟩ | ⟨hne, hj'⟩
  · have := hp j t ht
    rw [a1, a3, if_pos rfl]
    cases hf : r.found with
    | none => rw [a5 hf]; simp; omega
    | some w => rw [(a6 w hf).1]; simp; omega
  · have := hp j u hj'
    rw [if_neg]
    · simpa using this
    · intro e
      obtain ⟨t0, b1, b2, _⟩ := hi.same i t ht
      obtain ⟨u0, c1, c2, _⟩ := hi.same j u hj'
      exact hne (distinct_idx hd c1 b1 (by rw [← b2, ← c2]; exact e.symm))

theorem once_step_all {ts : List Task} (hd : DistinctTasks ts) {st st' : ExState} {i : Nat}
    (hi : ExInv s v nb ts st) {j : Nat}
    (hreg : ∀ t, ts[j]? = some t → t.plan.regen = false ∧ (∀ k, (nb k t.hp.name).length = t.plan.toGen) ∧
      t.plan.maxIter = t.plan.toGen)
    (hp : ∀ t : Task, st.tasks[j]? = some t → OnceInv s v nb t (yieldedFor st t.hp.name))
    (h : exchangeStep s v nb st i = .ok st') :
    ∀ t : Task, st'.tasks[j]? = some t → OnceInv s v nb t (yieldedFor st' t.hp.name) := by
  rcases step_cases h with ⟨rfl, _⟩ | ⟨t, r, ht, h0, hr, rfl⟩
  · exact hp
  obtain ⟨a1, a2, a3, a4, a5, a6⟩ := tryLoop_spec hr
  intro u hj
  rw [yieldedFor_append]
  rcases get_set ht hj with ⟨rfl, rfl⟩ | ⟨hne, hj'⟩
  · obtain ⟨t0, b1, b2, b3, b4, _⟩ := hi.same j t ht
    obtain ⟨c1, c2, c3⟩ := hreg t0 b1
    rw [← b4] at c1 c2 c3
    rw [← b2] at c2
    have := once_step (hp t ht) c1 c2 c3 h0 hr
    rw [a1, if_pos rfl]
    exact this
  · have := hp u hj'
    rw [if_neg]
    · simpa using this
    · intro e
      obtain ⟨t0, b1, b2, _⟩ := hi.same i t ht
      obtain ⟨u0, c1, c2, _⟩ := hi.same j u hj'
      exact hne (distinct_idx hd c1 b1 (by rw [← b2, ← c2]; exact e.symm))

end Verif
