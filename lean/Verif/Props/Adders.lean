import Verif.Model.Adders
import Verif.Lemmas.Rebuild

/-!
# C135: threads that add to one space
-/

set_option autoImplicit false

namespace Verif.Adders

/-! ## Specification -/

/-- One call of `add` after the other, with their outcomes. -/
inductive Serial : Space → List (Call × Option Err) → Space → Prop where
  | nil (s : Space) : Serial s [] s
  | snoc {s s1 s2 : Space} {ks : List (Call × Option Err)} {k : Call} {o : Option Err} :
      Serial s ks s1 → s1.add k.hps k.conds k.forbs = (s2, o) → Serial s (ks ++ [(k, o)]) s2

/-- The calls of a thread that did not raise the RuntimeError, with their outcomes. -/
def Th.made (t : Th) : List (Call × Option Err) :=
  t.out.filterMap (fun p => match p.2 with | .busy => none | .done o => some (p.1, o))

/-- The call a thread is in. -/
def Th.cur (t : Th) : List Call :=
  match t.pc with
  | .idle => []
  | .body k _ => [k]
  | .snap k => [k]
  | .store k _ => [k]
  | .len k => [k]
  | .check k => [k]

/-- The thread is in the transaction of a call. -/
def Th.inBody (t : Th) : Bool :=
  match t.pc with
  | .body _ _ => true
  | _ => false

/-! ## The steps -/

theorem addAll_next {g g' : Dag} {r r' : Call} {e : Option Err} (h : nextItem g r = some (g', e, r')) :
    (∀ x, e = some x → g.addAll r.hps r.conds r.forbs = (g', some x)) ∧
    (e = none → g.addAll r.hps r.conds r.forbs = g'.addAll r'.hps r'.conds r'.forbs) := by
  obtain ⟨hs, cs, fs⟩ := r
  unfold Dag.addAll
  cases hs with
  | cons x hs =>
    simp only [nextItem, Option.some.injEq, Prod.mk.injEq] at h
    obtain ⟨h1, h2, h3⟩ := h
    subst h3
    simp only [runAll]
    cases hx : g.add x with
    | mk g1 e1 =>
      rw [hx] at h1 h2
      subst h1 h2
      cases e1 <;> simp
  | nil =>
    cases cs with
    | cons x cs =>
      simp only [nextItem, Option.some.injEq, Prod.mk.injEq] at h
      obtain ⟨h1, h2, h3⟩ := h
      subst h3
      simp only [runAll]
      cases hx : g.addCondition x with
      | mk g1 e1 =>
        rw [hx] at h1 h2
        subst h1 h2
        cases e1 <;> simp
    | nil =>
      cases fs with
      | cons x fs =>
        simp only [nextItem, Option.some.injEq, Prod.mk.injEq] at h
        obtain ⟨h1, h2, h3⟩ := h
        subst h3
        simp only [runAll]
        cases hx : g.addForbidden x with
        | mk g1 e1 =>
          rw [hx] at h1 h2
          subst h1 h2
          cases e1 <;> simp
      | nil => cases h

theorem addAll_none {g : Dag} {r : Call} (h : nextItem g r = none) :
    g.addAll r.hps r.conds r.forbs = (g, none) := by
  obtain ⟨hs, cs, fs⟩ := r
  cases hs with
  | cons x hs => cases h
  | nil =>
    cases cs with
    | cons x cs => cases h
    | nil =>
      cases fs with
      | cons x fs => cases h
      | nil => rfl

/-- The ending part in one go does what `add` does after its items. -/
theorem toEnd_snap (s : Space) (t : Th) (k : Call) {s1 : Space} (hs : ∃ g, s = { s1 with dag := g })
    (h : s1.dag.addAll k.hps k.conds k.forbs = (s.dag, none)) :
    ∃ s2 o, s1.add k.hps k.conds k.forbs = (s2, o) ∧
      toEnd 4 { space := s } { t with pc := .snap k } = ({ space := s2 }, t.finish k (.done o)) := by
  obtain ⟨g, rfl⟩ := hs
  have hc : Space.commit { s1 with dag := g } g = s1.commit g := rfl
  unfold Space.add
  simp only at h
  rw [h]
  simp only [toEnd, Th.ending, step, if_true, hc]
  cases hq : s1.commit g with
  | mk s' e =>
    cases e with
    | some e => exact ⟨_, _, rfl, by simp [Th.finish]⟩
    | none =>
      simp only [if_true]
      cases hd : Space.defaultConfig { s' with len := s'.dag.nodes.length } with
      | error e => exact ⟨_, _, rfl, by simp [Th.finish]⟩
      | ok c => exact ⟨_, _, rfl, by simp [Th.finish]⟩

/-! ## What holds after every step -/

/-- Without a thread in a transaction the space is that of the calls made so far; otherwise exactly one thread is in a transaction, and what it
entered and what it still enters make up its call. -/
def Inv (s0 : Space) (y : Sys) : Prop :=
  ∃ ks s1, Serial s0 ks s1 ∧ (y.ths.flatMap Th.made).Perm ks ∧
    ((y.sh.flag = false ∧ y.sh.space = s1 ∧ ∀ t ∈ y.ths, t.pc = .idle) ∨
     (y.sh.flag = true ∧ ∃ (i : Nat) (t : Th) (k r : Call), y.ths[i]? = some t ∧ t.pc = .body k r ∧
        (∀ (j : Nat) (t' : Th), j ≠ i → y.ths[j]? = some t' → t'.pc = .idle) ∧ (∃ g, y.sh.space = { s1 with dag := g }) ∧
        s1.dag.addAll k.hps k.conds k.forbs = y.sh.space.dag.addAll r.hps r.conds r.forbs))

theorem flatMap_set_same {α β : Type} (f : α → List β) : ∀ (l : List α) (i : Nat) (t t' : α), l[i]? = some t → f t' = f t →
    (l.set i t').flatMap f = l.flatMap f
  | [], _, _, _, h, _ => by simp at h
  | x :: l, 0, t, t', h, e => by
    simp only [List.getElem?_cons_zero, Option.some.injEq] at h
    subst h
    simp [e]
  | x :: l, i + 1, t, t', h, e => by
    simp only [List.getElem?_cons_succ] at h
    simp [flatMap_set_same f l i t t' h e]

theorem flatMap_set_snoc {α β : Type} (f : α → List β) (b : β) : ∀ (l : List α) (i : Nat) (t t' : α), l[i]? = some t →
    f t' = f t ++ [b] → ((l.set i t').flatMap f).Perm (l.flatMap f ++ [b])
  | [], _, _, _, h, _ => by simp at h
  | x :: l, 0, t, t', h, e => by
    simp only [List.getElem?_cons_zero, Option.some.injEq] at h
    subst h
    simp only [List.set_cons_zero, List.flatMap_cons, e, List.append_assoc]
    exact List.Perm.append_left _ List.perm_append_comm
  | x :: l, i + 1, t, t', h, e => by
    simp only [List.getElem?_cons_succ] at h
    simp only [List.set_cons_succ, List.flatMap_cons, List.append_assoc]
    exact List.Perm.append_left _ (flatMap_set_snoc f b l i t t' h e)

theorem made_busy (t : Th) (k : Call) : (t.finish k .busy).made = t.made := by
  simp [Th.made, Th.finish]

theorem made_done (t : Th) (k : Call) (o : Option Err) : (t.finish k (.done o)).made = t.made ++ [(k, o)] := by
  simp [Th.made, Th.finish]

theorem idle_set {l : List Th} {i : Nat} {t' : Th} (h : ∀ (j : Nat) (t : Th), j ≠ i → l[j]? = some t → t.pc = .idle)
    (h' : t'.pc = .idle) : ∀ t ∈ l.set i t', t.pc = .idle := by
  intro t ht
  obtain ⟨j, hj⟩ := List.getElem?_of_mem ht
  by_cases e : j = i
  · subst e
    by_cases hl : j < l.length
    · rw [List.getElem?_set_self hl] at hj
      cases hj
      exact h'
    · rw [List.getElem?_eq_none (by simpa using Nat.le_of_not_lt hl)] at hj
      cases hj
  · rw [List.getElem?_set_ne (fun x => e x.symm)] at hj
    exact h j t e hj

theorem inv_turn {s0 : Space} {y : Sys} (h : Inv s0 y) {i : Nat} {t : Th} (ht : y.ths[i]? = some t) :
    Inv s0 { sh := (turn y.sh t).1, ths := y.ths.set i (turn y.sh t).2 } := by
  obtain ⟨⟨sp, fl⟩, ths⟩ := y
  obtain ⟨ks, s1, hser, hp, hh⟩ := h
  simp only at ht hp hh ⊢
  have hlt : i < ths.length := by
    by_contra hn
    rw [List.getElem?_eq_none (Nat.le_of_not_lt hn)] at ht
    cases ht
  have hset : ∀ t' : Th, (ths.set i t')[i]? = some t' := fun t' => List.getElem?_set_self hlt
  obtain ⟨pc, todo, out⟩ := t
  -- a thread outside of a call
  have hidle : pc = .idle → Inv s0 { sh := (turn ⟨sp, fl⟩ ⟨pc, todo, out⟩).1, ths := ths.set i (turn ⟨sp, fl⟩ ⟨pc, todo, out⟩).2 } := by
    rintro rfl
    cases todo with
    | nil =>
      have hs : ths.set i ⟨.idle, [], out⟩ = ths := by
        rw [List.getElem?_eq_getElem hlt] at ht
        rw [← Option.some.inj ht]
        exact List.set_getElem_self hlt
      simp only [turn, step, toEnd, Th.ending, Bool.false_eq_true, if_false, hs]
      exact ⟨ks, s1, hser, hp, hh⟩
    | cons k todo =>
      rcases hh with ⟨rfl, rfl, hall⟩ | ⟨rfl, j, t1, k1, r1, hj, hpc, hoth, hg, hadd⟩
      · simp only [turn, step, toEnd, Th.ending, Bool.false_eq_true, if_false]
        refine ⟨ks, sp, hser, ?_, Or.inr ⟨rfl, i, _, k, k, hset _, rfl, ?_, ⟨_, rfl⟩, rfl⟩⟩
        · exact (flatMap_set_same Th.made ths i _ ⟨.body k k, todo, out⟩ ht rfl).symm ▸ hp
        · intro j t' hne hj
          rw [List.getElem?_set_ne (fun x => hne x.symm)] at hj
          exact hall _ (List.mem_of_getElem? hj)
      · have hne : j ≠ i := by
          rintro rfl
          rw [ht] at hj
          cases hj
          cases hpc
        simp only [turn, step, toEnd, Th.ending, Th.finish, Bool.false_eq_true, if_false, if_true]
        refine ⟨ks, s1, hser, ?_, Or.inr ⟨rfl, j, t1, k1, r1, ?_, hpc, ?_, hg, hadd⟩⟩
        · rw [flatMap_set_same Th.made _ _ _ _ ht (by simp [Th.made])]
          exact hp
        · rw [List.getElem?_set_ne (fun x => hne x.symm)]
          exact hj
        · intro j' t' hne' hj'
          by_cases e : j' = i
          · subst e
            rw [hset] at hj'
            cases hj'
            rfl
          · rw [List.getElem?_set_ne (fun x => e x.symm)] at hj'
            exact hoth _ _ hne' hj'
  rcases hh with ⟨rfl, rfl, hall⟩ | ⟨rfl, j, t1, k1, r1, hj, hpc, hoth, hg, hadd⟩
  · exact hidle (hall _ (List.mem_of_getElem? ht))
  · by_cases e : j = i
    · subst e
      rw [ht] at hj
      cases hj
      simp only at hpc
      subst hpc
      have hoth' : ∀ (t' : Th) (j' : Nat) (t : Th), j' ≠ j → (ths.set j t')[j']? = some t → t.pc = .idle := by
        intro t' j' t hne hj'
        rw [List.getElem?_set_ne (fun x => hne x.symm)] at hj'
        exact hoth _ _ hne hj'
      cases hn : nextItem sp.dag r1 with
      | none =>
        rw [addAll_none hn] at hadd
        obtain ⟨s2, o, ha, hend⟩ := toEnd_snap sp ⟨.body k1 r1, todo, out⟩ k1 hg hadd
        have ht' : turn ⟨sp, true⟩ ⟨.body k1 r1, todo, out⟩ = ({ space := s2 }, Th.finish ⟨.body k1 r1, todo, out⟩ k1 (.done o)) := by
          simp only [turn, step, hn]
          exact hend
        rw [ht']
        refine ⟨ks ++ [(k1, o)], s2, .snoc hser ha, ?_, Or.inl ⟨rfl, rfl, idle_set hoth rfl⟩⟩
        exact (flatMap_set_snoc Th.made _ _ _ _ _ ht (made_done _ _ _)).trans (hp.append_right _)
      | some q =>
        obtain ⟨g', e, r'⟩ := q
        obtain ⟨hs, hnn⟩ := addAll_next hn
        obtain ⟨g, rfl⟩ := hg
        cases e with
        | none =>
          simp only [turn, step, hn, toEnd, Th.ending, Bool.false_eq_true, if_false]
          refine ⟨ks, s1, hser, ?_, Or.inr ⟨rfl, j, _, k1, r', hset _, rfl, hoth' _, ⟨_, rfl⟩, hadd.trans (hnn rfl)⟩⟩
          exact (flatMap_set_same Th.made ths j _ ⟨.body k1 r', todo, out⟩ ht rfl).symm ▸ hp
        | some x =>
          have ha : s1.add k1.hps k1.conds k1.forbs = ({ s1 with dag := g' }, some x) := by
            unfold Space.add
            rw [hadd, hs x rfl]
          simp only [turn, step, hn, toEnd, Th.ending, Th.finish, Bool.false_eq_true, if_false]
          refine ⟨ks ++ [(k1, some x)], _, .snoc hser ha, ?_, Or.inl ⟨rfl, rfl, idle_set hoth rfl⟩⟩
          exact (flatMap_set_snoc Th.made _ _ _ _ _ ht (made_done _ _ _)).trans (hp.append_right _)
    · exact hidle (hoth i _ (fun x => e x.symm) ht)

theorem inv_run {s0 : Space} : ∀ (sched : List Nat) (y : Sys), Inv s0 y → Inv s0 (run turn sched y)
  | [], _, h => h
  | i :: is, y, h => by
    unfold run
    cases ht : y.ths[i]? with
    | none => exact inv_run is y h
    | some t => exact inv_run is _ (inv_turn h ht)

/-! ## C135 -/

/-- **C135 (partial).**  Any number of threads call `add` on one space, any number of times, under any schedule that does not switch threads between
the end of a transaction and the end of its call.  Whenever no thread is in a call, the space is what the calls that did not raise the RuntimeError
"Already in a pending update" make of it one after the other, in some order, each once and with the outcome that its thread saw.

What is missing: schedules that switch in the ending part of a call; for them it is false of the code (`ExAd.C135_lost_hyperparameter`). -/
theorem C135_serial_partial (s : Space) (calls : List (List Call)) (sched : List Nat)
    (hidle : ∀ t ∈ (run turn sched (start s calls)).ths, t.cur = []) :
    ∃ ks, Serial s ks (run turn sched (start s calls)).sh.space ∧
      ((run turn sched (start s calls)).ths.flatMap Th.made).Perm ks := by
  have h0 : Inv s (start s calls) := by
    refine ⟨[], s, .nil s, ?_, Or.inl ⟨rfl, rfl, ?_⟩⟩
    · have : (start s calls).ths.flatMap Th.made = [] := by
        simp [start, Th.made]
      rw [this]
    · intro t ht
      simp only [start, List.mem_map] at ht
      obtain ⟨ks, _, rfl⟩ := ht
      rfl
  obtain ⟨ks, s1, hser, hp, hh⟩ := inv_run sched _ h0
  rcases hh with ⟨_, hs, _⟩ | ⟨_, i, t, k, r, hi, hpc, _⟩
  · rw [hs]
    exact ⟨ks, hser, hp⟩
  · have := hidle t (List.mem_of_getElem? hi)
    simp [Th.cur, hpc] at this

theorem calls_step (s : Shared) (t : Th) :
    (step s t).2.out.map Prod.fst ++ (step s t).2.cur ++ (step s t).2.todo = t.out.map Prod.fst ++ t.cur ++ t.todo := by
  obtain ⟨pc, todo, out⟩ := t
  cases pc with
  | idle =>
    cases todo with
    | nil => rfl
    | cons k ks => cases hf : s.flag <;> simp [step, hf, Th.cur, Th.finish]
  | body k r =>
    simp only [step]
    split <;> simp [Th.cur, Th.finish]
  | snap k => simp [step, Th.cur]
  | store k g =>
    simp only [step]
    split <;> simp [Th.cur, Th.finish]
  | len k => simp [step, Th.cur]
  | check k =>
    simp only [step]
    split <;> simp [Th.cur, Th.finish]

theorem calls_run : ∀ (sched : List Nat) (y : Sys),
    (run step sched y).ths.map (fun t => t.out.map Prod.fst ++ t.cur ++ t.todo) = y.ths.map (fun t => t.out.map Prod.fst ++ t.cur ++ t.todo)
  | [], _ => rfl
  | i :: is, y => by
    unfold run
    cases ht : y.ths[i]? with
    | none => exact calls_run is y
    | some t =>
      simp only
      rw [calls_run is]
      simp only [List.map_set, calls_step]
      apply List.ext_getElem?
      intro j
      by_cases e : i = j
      · subst e
        rw [List.getElem?_set]
        have hl : i < y.ths.length := by
          by_contra hn
          rw [List.getElem?_eq_none (Nat.le_of_not_lt hn)] at ht
          cases ht
        rw [List.getElem?_map, ht]
        simp [hl]
      · rw [List.getElem?_set_ne e]

/-- **C135.**  Under every schedule, each thread's calls end in the order in which it makes them, each once: those that ended, the one it is in and
those it has still to make are the calls it was given. -/
theorem C135_each_call_once (s : Space) (calls : List (List Call)) (sched : List Nat) :
    (run step sched (start s calls)).ths.map (fun t => t.out.map Prod.fst ++ t.cur ++ t.todo) = calls := by
  rw [calls_run]
  simp [start, Th.cur, Function.comp_def]

/-- The number of threads in a transaction is one if the flag is set and none otherwise. -/
def Excl (y : Sys) : Prop := y.ths.countP Th.inBody = if y.sh.flag then 1 else 0

theorem countP_set {p : Th → Bool} : ∀ (l : List Th) (i : Nat) (t t' : Th), l[i]? = some t →
    (l.set i t').countP p + (if p t then 1 else 0) = l.countP p + (if p t' then 1 else 0)
  | [], _, _, _, h => by simp at h
  | x :: l, 0, t, t', h => by
    simp only [List.getElem?_cons_zero, Option.some.injEq] at h
    subst h
    simp only [List.set_cons_zero, List.countP_cons]
    omega
  | x :: l, i + 1, t, t', h => by
    simp only [List.getElem?_cons_succ] at h
    have := countP_set l i t t' h (p := p)
    simp only [List.set_cons_succ, List.countP_cons]
    omega

theorem flag_step (s : Shared) (t : Th) (hb : t.inBody = true → s.flag = true) :
    (if (step s t).1.flag then (1 : Nat) else 0) + (if t.inBody then 1 else 0) =
      (if s.flag then 1 else 0) + (if (step s t).2.inBody then 1 else 0) := by
  obtain ⟨pc, todo, out⟩ := t
  cases pc with
  | idle =>
    cases todo with
    | nil => cases hf : s.flag <;> simp [step, Th.inBody, hf]
    | cons k ks => cases hf : s.flag <;> simp [step, hf, Th.inBody, Th.finish]
  | body k r =>
    have hf := hb rfl
    cases hn : nextItem s.space.dag r with
    | none => simp [step, hn, Th.inBody, hf]
    | some q =>
      obtain ⟨g, e, r'⟩ := q
      cases e <;> simp [step, hn, Th.inBody, Th.finish, hf]
  | snap k => cases hf : s.flag <;> simp [step, Th.inBody, hf]
  | store k g =>
    cases hc : s.space.commit g with
    | mk s' e => cases e <;> simp [step, hc, Th.inBody, Th.finish]
  | len k => cases hf : s.flag <;> simp [step, Th.inBody, hf]
  | check k => cases hd : s.space.defaultConfig <;> simp [step, hd, Th.inBody, Th.finish]

theorem excl_run : ∀ (sched : List Nat) (y : Sys), Excl y → Excl (run step sched y)
  | [], _, h => h
  | i :: is, y, h => by
    unfold run
    cases ht : y.ths[i]? with
    | none => exact excl_run is y h
    | some t =>
      apply excl_run is
      have hb : t.inBody = true → y.sh.flag = true := by
        intro hb
        have : 0 < y.ths.countP Th.inBody := List.countP_pos_iff.mpr ⟨t, List.mem_of_getElem? ht, hb⟩
        unfold Excl at h
        cases hf : y.sh.flag with
        | true => rfl
        | false => rw [h, hf] at this; simp at this
      have h1 := countP_set y.ths i t (step y.sh t).2 ht (p := Th.inBody)
      have h2 := flag_step y.sh t hb
      unfold Excl at h ⊢
      simp only
      omega

/-- **C135.**  Under every schedule at most one thread is in the transaction of a call of `add`, and none is left out of it for good: whenever no
thread is in a transaction, the next call that starts does not raise the RuntimeError. -/
theorem C135_one_transaction (s : Space) (calls : List (List Call)) (sched : List Nat) :
    (run step sched (start s calls)).ths.countP Th.inBody ≤ 1 ∧
      ((run step sched (start s calls)).ths.countP Th.inBody = 0 →
        ∀ (k : Call) (ks : List Call) (out : List (Call × Res)),
          (step (run step sched (start s calls)).sh ⟨.idle, k :: ks, out⟩).2.pc = .body k k) := by
  have h0 : Excl (start s calls) := by
    simp [Excl, start, Th.inBody, List.countP_eq_zero]
  have h := excl_run sched _ h0
  unfold Excl at h
  cases hf : (run step sched (start s calls)).sh.flag with
  | true => exact ⟨by rw [h, hf]; simp, fun h' => by rw [h, hf] at h'; simp at h'⟩
  | false => exact ⟨by rw [h, hf]; simp, fun _ k ks out => by simp [step, hf]⟩

/-! ## What holds under every schedule -/

theorem modifyNode_hps {ns : Nodes} {n : Name} {f : Node → Node} (h : ∀ x, (f x).hp = x.hp) :
    (modifyNode ns n f).map Node.hp = ns.map Node.hp := by
  unfold modifyNode
  rw [List.map_map]
  apply List.map_congr_left
  intro x _
  simp only [Function.comp_apply]
  split
  · exact h x
  · rfl

theorem propDepth_hps : ∀ (k : Nat) (ns : Nodes) (n : Name) (d : Nat), (propDepth k ns n d).map Node.hp = ns.map Node.hp
  | 0, _, _, _ => rfl
  | k + 1, ns, n, d => by
    have hl : ∀ (l : List Name) (acc : Nodes),
        (l.foldl (fun acc c => propDepth k acc c (d + 1)) acc).map Node.hp = acc.map Node.hp := by
      intro l
      induction l with
      | nil => intro acc; rfl
      | cons c l ih =>
        intro acc
        rw [List.foldl_cons, ih, propDepth_hps k]
    unfold propDepth
    split
    · rfl
    · rw [hl]
      exact modifyNode_hps (fun _ => rfl)

theorem linkNodes_hps (ns : Nodes) (p ch : Name) (c : Cond) : (linkNodes ns p ch c).map Node.hp = ns.map Node.hp := by
  unfold linkNodes
  simp only
  rw [modifyNode_hps, modifyNode_hps]
  · exact fun _ => rfl
  · exact fun _ => rfl

theorem reorderNodes_hps (ns : Nodes) (p ch : Name) : (reorderNodes ns p ch).map Node.hp = ns.map Node.hp := by
  unfold reorderNodes
  simp only
  rw [modifyNode_hps, modifyNode_hps]
  · exact fun _ => rfl
  · exact fun _ => rfl

theorem addCondParent_hps (ns : Nodes) (ch : Name) (c : Cond) (p : Name) :
    (addCondParent ns ch c p).1.map Node.hp = ns.map Node.hp := by
  unfold addCondParent
  split
  · rfl
  · split
    · rfl
    · simp only
      split
      · exact linkNodes_hps ns p ch c
      · rw [reorderNodes_hps, propDepth_hps, linkNodes_hps]

theorem addCondLoop_hps (ch : Name) (c : Cond) : ∀ (ps : List Name) (ns : Nodes),
    (addCondLoop ns ch c ps).1.map Node.hp = ns.map Node.hp
  | [], _ => rfl
  | p :: ps, ns => by
    have h1 := addCondParent_hps ns ch c p
    unfold addCondLoop
    cases h : addCondParent ns ch c p with
    | mk ns1 e =>
      rw [h] at h1
      cases e with
      | some e => exact h1
      | none => exact (addCondLoop_hps ch c ps ns1).trans h1

theorem addCondition_hps (g : Dag) (c : Cond) : (g.addCondition c).1.nodes.map Node.hp = g.nodes.map Node.hp := by
  unfold Dag.addCondition addCondNodes
  simp only
  split
  · rfl
  · split
    · rfl
    · split
      · rfl
      · exact addCondLoop_hps _ _ _ _

theorem addForbidden_nodes (g : Dag) (f : Forb) : (g.addForbidden f).1.nodes = g.nodes := by
  unfold Dag.addForbidden
  split
  · rfl
  · split <;> rfl

/-- The hyperparameters are among the given ones, and no two have the same name. -/
def Known (H : List HP) (ns : Nodes) : Prop := (∀ h ∈ ns.map Node.hp, h ∈ H) ∧ ((ns.map Node.hp).map HP.name).Nodup

theorem nextItem_known {H : List HP} {g g' : Dag} {r r' : Call} {e : Option Err} (h : nextItem g r = some (g', e, r'))
    (hg : Known H g.nodes) (hr : ∀ x ∈ r.hps, x ∈ H) : Known H g'.nodes ∧ ∀ x ∈ r'.hps, x ∈ H := by
  obtain ⟨hs, cs, fs⟩ := r
  cases hs with
  | cons x hs =>
    simp only [nextItem, Option.some.injEq, Prod.mk.injEq] at h
    obtain ⟨h1, _, h3⟩ := h
    subst h1 h3
    refine ⟨?_, fun y hy => hr y (List.mem_cons_of_mem _ hy)⟩
    unfold Dag.add
    cases hf : findNode g.nodes x.name with
    | some n => exact hg
    | none =>
      have hnot := findNode_none.1 hf
      constructor
      · intro y hy
        simp only [List.map_append, List.map_cons, List.map_nil, List.mem_append, List.mem_singleton] at hy
        rcases hy with hy | rfl
        · exact hg.1 y hy
        · exact hr _ (List.mem_cons_self)
      · simp only [List.map_append, List.map_cons, List.map_nil]
        refine List.nodup_append.2 ⟨hg.2, by simp, ?_⟩
        intro a ha b hb e
        simp only [List.mem_singleton] at hb
        subst hb
        subst e
        apply hnot
        simpa [namesOf, Node.name] using ha
  | nil =>
    cases cs with
    | cons x cs =>
      simp only [nextItem, Option.some.injEq, Prod.mk.injEq] at h
      obtain ⟨h1, _, h3⟩ := h
      subst h1 h3
      refine ⟨?_, fun y hy => by simp at hy⟩
      unfold Known
      rw [addCondition_hps]
      exact hg
    | nil =>
      cases fs with
      | cons x fs =>
        simp only [nextItem, Option.some.injEq, Prod.mk.injEq] at h
        obtain ⟨h1, _, h3⟩ := h
        subst h1 h3
        refine ⟨?_, fun y hy => by simp at hy⟩
        rw [addForbidden_nodes]
        exact hg
      | nil => cases h

theorem sortNodes_known {H : List HP} {ns : Nodes} (h : Known H ns) : Known H (sortNodes ns) := by
  have hp : ((sortNodes ns).map Node.hp).Perm (ns.map Node.hp) := (sortBy_perm _ _).map _
  exact ⟨fun x hx => h.1 x (hp.mem_iff.1 hx), ((hp.map _).nodup_iff).2 h.2⟩

/-- What a thread holds comes from the calls. -/
def Th.known (H : List HP) (t : Th) : Prop :=
  (∀ k ∈ t.todo, ∀ x ∈ k.hps, x ∈ H) ∧
    match t.pc with
    | .body _ r => ∀ x ∈ r.hps, x ∈ H
    | .store _ g => Known H g.nodes
    | _ => True

theorem known_step {H : List HP} {s : Shared} {t : Th} (hs : Known H s.space.dag.nodes ∧ Known H s.space.com) (ht : t.known H) :
    (Known H (step s t).1.space.dag.nodes ∧ Known H (step s t).1.space.com) ∧ (step s t).2.known H := by
  obtain ⟨pc, todo, out⟩ := t
  cases pc with
  | idle =>
    cases todo with
    | nil => exact ⟨hs, ht⟩
    | cons k ks =>
      have hk : ∀ k' ∈ ks, ∀ x ∈ k'.hps, x ∈ H := fun k' h => ht.1 k' (List.mem_cons_of_mem _ h)
      cases hf : s.flag with
      | true => simpa [step, hf, Th.finish, Th.known] using ⟨hs, hk⟩
      | false => simpa [step, hf, Th.known] using ⟨hs, hk, ht.1 k List.mem_cons_self⟩
  | body k r =>
    cases hn : nextItem s.space.dag r with
    | none => simpa [step, hn, Th.known] using ⟨hs, ht.1⟩
    | some q =>
      obtain ⟨g, e, r'⟩ := q
      obtain ⟨h1, h2⟩ := nextItem_known hn hs.1 ht.2
      cases e with
      | none => simpa [step, hn, Th.known] using ⟨⟨h1, hs.2⟩, ht.1, h2⟩
      | some e => simpa [step, hn, Th.known, Th.finish] using ⟨⟨h1, hs.2⟩, ht.1⟩
  | snap k => simpa [step, Th.known] using ⟨hs, ht.1, hs.1⟩
  | store k g =>
    have hg : Known H (sortNodes g.nodes) := sortNodes_known ht.2
    have hc : (s.space.commit g).1.dag.nodes = sortNodes g.nodes ∧ (s.space.commit g).1.com = sortNodes g.nodes := by
      unfold Space.commit
      simp only
      split <;> exact ⟨rfl, rfl⟩
    cases hq : s.space.commit g with
    | mk s' e =>
      rw [hq] at hc
      simp only at hc
      cases e with
      | none => simpa [step, hq, Th.known, hc.1, hc.2] using ⟨hg, ht.1⟩
      | some e => simpa [step, hq, Th.known, Th.finish, hc.1, hc.2] using ⟨hg, ht.1⟩
  | len k => simpa [step, Th.known] using ⟨hs, ht.1⟩
  | check k => cases hd : s.space.defaultConfig <;> simpa [step, hd, Th.known, Th.finish] using ⟨hs, ht.1⟩

theorem known_run {H : List HP} : ∀ (sched : List Nat) (y : Sys), (Known H y.sh.space.dag.nodes ∧ Known H y.sh.space.com) →
    (∀ t ∈ y.ths, t.known H) → Known H (run step sched y).sh.space.dag.nodes ∧ Known H (run step sched y).sh.space.com
  | [], _, h, _ => h
  | i :: is, y, h, ht => by
    unfold run
    cases hi : y.ths[i]? with
    | none => exact known_run is y h ht
    | some t =>
      obtain ⟨h1, h2⟩ := known_step h (ht t (List.mem_of_getElem? hi))
      refine known_run is _ h1 ?_
      intro t' ht'
      rcases List.mem_or_eq_of_mem_set ht' with h' | rfl
      · exact ht t' h'
      · exact h2

/-- **C135.**  Under every schedule, even one that switches threads while a call ends, the space never has a hyperparameter that was not added, and
never two of the same name. -/
theorem C135_nothing_invented {hist : List Call} {s : Space} (h : Reach hist s) (calls : List (List Call)) (sched : List Nat) :
    (∀ x ∈ (run step sched (start s calls)).sh.space.com.map Node.hp, x ∈ allHps hist ∨ ∃ ks ∈ calls, ∃ k ∈ ks, x ∈ k.hps) ∧
      (((run step sched (start s calls)).sh.space.com.map Node.hp).map HP.name).Nodup := by
  have hk : Known (allHps hist ++ calls.flatten.flatMap Call.hps) s.com :=
    ⟨fun x hx => List.mem_append_left _ ((hps_perm h).mem_iff.1 hx), hps_nodup h⟩
  have h0 : Known (allHps hist ++ calls.flatten.flatMap Call.hps) s.dag.nodes := by
    rw [(sinv_of_reach h).com]
    exact hk
  obtain ⟨_, h2, h3⟩ := known_run sched (start s calls) ⟨h0, hk⟩ (by
    intro t ht
    simp only [start, List.mem_map] at ht
    obtain ⟨ks, hks, rfl⟩ := ht
    refine ⟨fun k hk' x hx => List.mem_append_right _ ?_, trivial⟩
    exact List.mem_flatMap.2 ⟨k, List.mem_flatten.2 ⟨ks, hks, hk'⟩, hx⟩)
  refine ⟨fun x hx => ?_, h3⟩
  rcases List.mem_append.1 (h2 x hx) with h' | h'
  · exact Or.inl h'
  · obtain ⟨k, hk', hx'⟩ := List.mem_flatMap.1 h'
    obtain ⟨ks, hks, hk''⟩ := List.mem_flatten.1 hk'
    exact Or.inr ⟨ks, hks, k, hk'', hx'⟩

/-! ## No call waits -/

/-- The number of items of a call. -/
def size (k : Call) : Nat := k.hps.length + k.conds.length + k.forbs.length

/-- The steps a thread needs at most. -/
def Th.work (t : Th) : Nat :=
  (t.todo.map (fun k => size k + 6)).sum +
    match t.pc with
    | .idle => 0
    | .body _ r => size r + 5
    | .snap _ => 4
    | .store _ _ => 3
    | .len _ => 2
    | .check _ => 1

theorem nextItem_size {g g' : Dag} {r r' : Call} {e : Option Err} (h : nextItem g r = some (g', e, r')) : size r = size r' + 1 := by
  obtain ⟨hs, cs, fs⟩ := r
  cases hs with
  | cons x hs =>
    simp only [nextItem, Option.some.injEq, Prod.mk.injEq] at h
    obtain ⟨_, _, rfl⟩ := h
    simp only [size, List.length_cons]
    omega
  | nil =>
    cases cs with
    | cons x cs =>
      simp only [nextItem, Option.some.injEq, Prod.mk.injEq] at h
      obtain ⟨_, _, rfl⟩ := h
      simp only [size, List.length_cons]
      omega
    | nil =>
      cases fs with
      | cons x fs =>
        simp only [nextItem, Option.some.injEq, Prod.mk.injEq] at h
        obtain ⟨_, _, rfl⟩ := h
        simp only [size, List.length_cons]
        omega
      | nil => cases h

theorem work_step (s : Shared) (t : Th) : (step s t).2.work ≤ t.work - 1 := by
  obtain ⟨pc, todo, out⟩ := t
  cases pc with
  | idle =>
    cases todo with
    | nil => simp [step, Th.work]
    | cons k ks => cases hf : s.flag <;> simp [step, hf, Th.work, Th.finish] <;> omega
  | body k r =>
    cases hn : nextItem s.space.dag r with
    | none => simp [step, hn, Th.work]
    | some q =>
      obtain ⟨g, e, r'⟩ := q
      have := nextItem_size hn
      cases e <;> simp [step, hn, Th.work, Th.finish] <;> omega
  | snap k => simp [step, Th.work]
  | store k g =>
    cases hc : s.space.commit g with
    | mk s' e => cases e <;> simp [step, hc, Th.work, Th.finish]
  | len k => simp [step, Th.work]
  | check k => cases hd : s.space.defaultConfig <;> simp [step, hd, Th.work, Th.finish]

theorem work_run : ∀ (sched : List Nat) (y : Sys) (i : Nat) (t : Th), y.ths[i]? = some t →
    ∃ t', (run step sched y).ths[i]? = some t' ∧ t'.work ≤ t.work - sched.count i
  | [], _, _, t, h => ⟨t, h, by simp⟩
  | j :: is, y, i, t, h => by
    unfold run
    by_cases e : j = i
    · subst e
      rw [h]
      simp only
      have hlt : j < y.ths.length := by
        by_contra hn
        rw [List.getElem?_eq_none (Nat.le_of_not_lt hn)] at h
        cases h
      obtain ⟨t', h1, h2⟩ := work_run is ⟨(step y.sh t).1, y.ths.set j (step y.sh t).2⟩ j _ (List.getElem?_set_self hlt)
      refine ⟨t', h1, ?_⟩
      have := work_step y.sh t
      rw [List.count_cons_self]
      omega
    · rw [List.count_cons_of_ne e]
      cases hj : y.ths[j]? with
      | none => exact work_run is y i t h
      | some u =>
        simp only
        exact work_run is _ i t (by rw [List.getElem?_set_ne e]; exact h)

/-- **C135.**  No call waits for another thread: under every schedule, a thread whose turn comes as often as its calls have items, and six times more
for each call, has ended all its calls, whatever the other threads do. -/
theorem C135_ends (s : Space) (calls : List (List Call)) (sched : List Nat) {i : Nat} {ks : List Call} (hi : calls[i]? = some ks)
    (hc : (ks.map (fun k => k.hps.length + k.conds.length + k.forbs.length + 6)).sum ≤ sched.count i) :
    ∃ t, (run step sched (start s calls)).ths[i]? = some t ∧ t.cur = [] ∧ t.todo = [] ∧ t.out.map Prod.fst = ks := by
  obtain ⟨t, h1, h2⟩ := work_run sched (start s calls) i { todo := ks } (by simp [start, hi])
  have hall := C135_each_call_once s calls sched
  have hget := congrArg (fun l => l[i]?) hall
  simp only [List.getElem?_map, h1, hi, Option.map_some, Option.some.injEq] at hget
  have h0 : t.work = 0 := by
    have : (Th.work { todo := ks }) = (ks.map (fun k => k.hps.length + k.conds.length + k.forbs.length + 6)).sum := rfl
    omega
  obtain ⟨pc, todo, out⟩ := t
  have hp : pc = .idle := by
    cases pc <;> simp [Th.work] at h0 ⊢
  subst hp
  have ht : todo = [] := by
    cases todo with
    | nil => rfl
    | cons k ks => simp [Th.work] at h0
  subst ht
  exact ⟨_, h1, rfl, rfl, by simpa [Th.cur] using hget⟩

namespace ExAd

def callP : Call := ⟨[⟨"p", .const (.int 1), .int 1⟩], [], []⟩
def callQ : Call := ⟨[⟨"q", .cat [.str "a", .str "b"], .str "a"⟩], [], []⟩

/-- Two threads that add one hyperparameter each. -/
def two : Sys := start {} [[callP], [callQ]]

/-- The second thread enters while the first one has read the nodes and not stored them yet. -/
def bad : List Nat := [0, 0, 0, 0, 1, 1, 0, 1, 1, 1, 1, 1, 0, 0]

def names (y : Sys) : List Name := y.sh.space.dag.nodes.map Node.name
def outs (y : Sys) : List (List Res) := y.ths.map (fun t => t.out.map Prod.snd)
def ended (y : Sys) : Bool := y.ths.all (fun t => t.cur.isEmpty && t.todo.isEmpty)

theorem serial_fold {s s' : Space} {ks : List (Call × Option Err)} (h : Serial s ks s') :
    s' = ks.foldl (fun u p => (u.add p.1.hps p.1.conds p.1.forbs).1) s := by
  induction h with
  | nil => rfl
  | snoc _ h2 ih => rw [List.foldl_append, ← ih]; simp [h2]

/-- **C135 is false of the code** for schedules that switch threads while a call ends: the flag is reset before the nodes are read and stored
(_condition_tree.py:459, 468, 482), so a second call may enter its hyperparameter in between, into the dictionary that is then replaced.  Both calls
return without an exception, the hyperparameter `q` is not in the space, and no order of the two calls gives this. -/
theorem C135_lost_hyperparameter :
    ended (run step bad two) = true ∧ outs (run step bad two) = [[.done none], [.done none]] ∧ names (run step bad two) = ["p"] ∧
      ¬ ∃ ks, Serial {} ks (run step bad two).sh.space ∧ ((run step bad two).ths.flatMap Th.made).Perm ks := by
  refine ⟨by decide +kernel, by decide +kernel, by decide +kernel, ?_⟩
  rintro ⟨ks, hs, hp⟩
  have hm : (run step bad two).ths.flatMap Th.made = [(callP, none), (callQ, none)] := rfl
  have hn : names (run step bad two) = ["p"] := by decide +kernel
  have hne : ((callP, none) : Call × Option Err) ≠ (callQ, none) := by
    intro h
    have := congrArg (fun p => p.1.hps.map HP.name) h
    revert this
    decide
  rw [hm] at hp
  have hf := congrArg (fun u : Space => u.dag.nodes.map Node.name) (serial_fold hs)
  unfold names at hn
  rw [hn] at hf
  match ks, hp.length_eq, hp, hf with
  | [x, y], _, hp, hf =>
    have h1 : (callP, none) ∈ [x, y] := hp.mem_iff.mp (by simp)
    have h2 : (callQ, none) ∈ [x, y] := hp.mem_iff.mp (by simp)
    simp only [List.mem_cons, List.not_mem_nil, or_false] at h1 h2
    rcases h1 with rfl | rfl <;> rcases h2 with h2 | h2
    · exact hne h2.symm
    · subst h2
      revert hf
      decide +kernel
    · subst h2
      revert hf
      decide +kernel
    · exact hne h2.symm

/-- A schedule as in `C135_serial_partial`: the second call begins while the first one is in its transaction, and raises; the third one succeeds. -/
example : ended (run turn [0, 1, 0, 0, 1, 1, 1] (start {} [[callP], [callQ, callQ]])) = true ∧
    outs (run turn [0, 1, 0, 0, 1, 1, 1] (start {} [[callP], [callQ, callQ]])) = [[.done none], [.busy, .done none]] ∧
    names (run turn [0, 1, 0, 0, 1, 1, 1] (start {} [[callP], [callQ, callQ]])) = ["p", "q"] := by
  decide +kernel

/-- A call that raises in its transaction leaves the others able to go on. -/
example : outs (run turn [0, 0, 0, 1, 1, 1, 0, 0, 0] (start {} [[callP, callQ], [callP]])) = [[.done none, .done none], [.done (some (.alreadyExists "p"))]] := by
  decide +kernel

/-- The schedule that loses a hyperparameter, for `C135_nothing_invented`: the empty space is reachable. -/
example : Reach [] ({} : Space) ∧ (run step bad two).sh.space.com.map Node.hp = callP.hps :=
  ⟨.nil, by decide +kernel⟩

/-- Seven turns are enough for a call with one hyperparameter, whatever the other thread does. -/
example : ∃ t, (run step bad two).ths[0]? = some t ∧ t.cur = [] ∧ t.todo = [] ∧ t.out.map Prod.fst = [callP] :=
  C135_ends {} _ bad (ks := [callP]) rfl (by decide)

/-- The threads of `C135_one_transaction`, one of them in its transaction. -/
example : (run step [0, 0, 1] two).ths.countP Th.inBody = 1 ∧ outs (run step [0, 0, 1] two) = [[], [.busy]] := by
  decide +kernel

end ExAd

end Verif.Adders
