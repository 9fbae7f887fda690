import Verif.Props.Threads

/-!
# C132: operations on a configuration that are interrupted

An exception that comes from outside (KeyboardInterrupt, an exception of a signal handler) ends an operation between any two of its steps:
the thread makes no step any more.
-/

set_option autoImplicit false

namespace Verif.Threads

variable {calls : List Call} {s : Space}

/-- Two configurations cannot be told apart by their arrays nor by reading from them. -/
def ReadsAs (s : Space) (c d : Config) : Prop := c.vec = d.vec ∧ ∀ n, (c.getItem s n).1 = (d.getItem s n).1

theorem getItem_fst (c : Config) (n : Name) : (c.getItem s n).1 = match (c.vals.getD []).lookup n with
    | some w => .ok w
    | none => (Config.getItem s ⟨c.vec, none, false⟩ n).1 := by
  unfold Config.getItem
  cases (c.vals.getD []).lookup n with
  | some w => rfl
  | none =>
    simp only [Option.getD_none, List.lookup_nil]
    cases findNode s.dag.nodes n with
    | none => rfl
    | some x =>
      simp only
      cases c.vec.at (s.idx n) with
      | none => rfl
      | some q =>
        simp only
        cases x.hp.kind.toVal q <;> rfl

theorem alone_ok {c : Config} {n : Name} {w : Val} (h : alone s c n = .ok (some w)) : (c.getItem s n).1 = .ok w := by
  unfold alone at h
  cases hc : (c.getItem s n).1 with
  | error e => rw [hc] at h; cases h
  | ok u =>
    rw [hc] at h
    cases h
    rfl

theorem okMem_reads {c : Config} {m : Mem} (h : OkMem s c m) : ReadsAs s m.config c := by
  refine ⟨h.vec, fun n => ?_⟩
  have hv : m.config.vals = some (m.heap.getD 0 []) := by unfold Mem.config; rw [h.ref]; rfl
  rw [getItem_fst m.config n, hv, Option.getD_some]
  cases hl : (m.heap.getD 0 []).lookup n with
  | some w => exact (alone_ok (h.right n w hl)).symm
  | none =>
    have hc : (c.vals.getD []).lookup n = none := by
      cases hc : (c.vals.getD []).lookup n with
      | none => rfl
      | some u =>
        have := h.keys n (by rw [hc]; rfl)
        rw [hl] at this
        cases this
    rw [getItem_fst c n, hc]
    simp only
    show (Config.getItem s ⟨m.vec, none, false⟩ n).1 = _
    rw [h.vec]

theorem safeMem_reads {c : Config} (hc : c.vals = none) {m : Mem} (h : SafeMem s c m) : ReadsAs s m.config c := by
  refine ⟨h.vec, fun n => ?_⟩
  rw [getItem_fst m.config n]
  cases hl : (m.config.vals.getD []).lookup n with
  | some w =>
    refine (alone_ok ?_).symm
    unfold Mem.config at hl
    cases hr : m.ref with
    | none => rw [hr] at hl; cases hl
    | some d =>
      rw [hr] at hl
      exact mem_right h hl
  | none =>
    rw [getItem_fst c n, hc]
    show (Config.getItem s ⟨m.vec, none, false⟩ n).1 = (Config.getItem s ⟨c.vec, none, false⟩ n).1
    rw [h.vec]

theorem run_safe_mem {c : Config} (hc : c.vals = none) : ∀ (sched : List Nat) {st : Mem × List Thread}, SafeMem s c st.1 →
    (∀ t ∈ st.2, SafeThread s c st.1 t) → SafeMem s c (run s st sched).1
  | [], _, hm, _ => hm
  | i :: l, st, hm, ht => by
    have hrun : run s st (i :: l) = run s (step s st i) l := rfl
    rw [hrun]
    unfold step
    cases hi : st.2[i]? with
    | none => exact run_safe_mem hc l hm ht
    | some t =>
      obtain ⟨k1, k2, k3⟩ := stepT_safe hc hm (ht t (List.mem_of_getElem? hi))
      refine run_safe_mem hc l k1 ?_
      intro t' ht'
      rcases List.mem_or_eq_of_mem_set ht' with h1 | rfl
      · exact (ht t' h1).mono k3
      · exact k2

/-- **C132.** Any number of threads that read, each of them interrupted anywhere or not at all: afterwards the configuration has the array it
had, and every read gives what it gave before. -/
theorem C132_reads {c : Config} {progs : List (List Op)} (hp : OnlyReads progs) (sched : List Nat) :
    (run s (start c progs) sched).1.config.vec = c.vec ∧
      ∀ n, ((run s (start c progs) sched).1.config.getItem s n).1 = (c.getItem s n).1 := by
  cases hv : c.vals with
  | some d => exact okMem_reads (run_ok sched (start_ok hv hp).1 (start_ok hv hp).2).1
  | none =>
    refine safeMem_reads hv (run_safe_mem hv sched ?_ ?_)
    · have hm : mem c = ⟨c.vec, none, []⟩ := by unfold mem; rw [hv]
      show SafeMem s c (mem c)
      rw [hm]
      exact ⟨rfl, fun D hD => by cases hD⟩
    · intro t ht
      obtain ⟨p, hpm, rfl⟩ := List.mem_map.1 ht
      exact ⟨trivial, hp p hpm, by intro o r h; cases h⟩

/-! ## Assignments -/

theorem mem_config_reads (c : Config) : ReadsAs s (mem c).config c := by
  unfold mem
  cases hv : c.vals with
  | none =>
    refine ⟨rfl, fun n => ?_⟩
    rw [getItem_fst c n, hv]
    rfl
  | some d =>
    refine ⟨rfl, fun n => ?_⟩
    rw [getItem_fst c n, hv, getItem_fst]
    rfl

/-- Where an assignment can be. -/
inductive At (s : Space) (c : Config) (n : Name) (w : Val) : Mem × List Thread → Prop
  | start : At s c n w (mem c, [⟨.idle, [.write n w], []⟩])
  | w0 : At s c n w (mem c, [⟨.w0 n w, [], []⟩])
  | failed (e : Err) (h : (c.setItem s n w).2 = some e) : At s c n w (mem c, [⟨.idle, [], [(.write n w, .error e)]⟩])
  | w1 (v : Vec) (h : (c.setItem s n w).2 = none) (hv : v = (c.setItem s n w).1.vec) : At s c n w (mem c, [⟨.w1 n w v, [], []⟩])
  | w2 (h : (c.setItem s n w).2 = none) :
      At s c n w ({ mem c with vec := (c.setItem s n w).1.vec }, [⟨.w2 n w, [], []⟩])
  | done (h : (c.setItem s n w).2 = none) :
      At s c n w ({ mem c with vec := (c.setItem s n w).1.vec, ref := none }, [⟨.idle, [], [(.write n w, .ok none)]⟩])

theorem mem_vec (c : Config) : (mem c).vec = c.vec := by
  unfold mem
  cases c.vals <;> rfl

theorem setItem_same_vec {c d : Config} (h : c.vec = d.vec) {n : Name} {w : Val} :
    (d.setItem s n w).2 = (c.setItem s n w).2 ∧ ((c.setItem s n w).2 = none → (d.setItem s n w).1.vec = (c.setItem s n w).1.vec) := by
  refine ⟨?_, fun hn => (setItem_vec h (Prod.ext rfl hn)).2⟩
  unfold Config.setItem
  rw [h]
  cases findNode s.dag.nodes n with
  | none => rfl
  | some x =>
    simp only
    cases x.hp.kind.legalValue w <;> simp only [Bool.not_true, Bool.not_false, Bool.false_eq_true, if_false, if_true]
    cases x.hp.kind.toVec w with
    | none => rfl
    | some q =>
      simp only
      cases s.check (s.changeHp d.vec n q (s.idx n)) <;> rfl

theorem at_step {c : Config} {n : Name} {w : Val} {st : Mem × List Thread} (h : At s c n w st) : At s c n w (step s st 0) := by
  cases h with
  | start => exact .w0
  | w0 =>
    obtain ⟨h1, h2⟩ := setItem_same_vec (s := s) (c := c) (d := ⟨(mem c).vec, none, false⟩) (mem_vec c).symm (n := n) (w := w)
    simp only [step, stepT, List.getElem?_cons_zero, List.set_cons_zero]
    cases hs : Config.setItem s ⟨(mem c).vec, none, false⟩ n w with
    | mk c' e =>
      rw [hs] at h1 h2
      cases e with
      | some e => exact .failed e h1.symm
      | none => exact .w1 _ h1.symm (h2 h1.symm)
  | failed e h => exact .failed e h
  | w1 v h hv =>
    subst hv
    exact .w2 h
  | w2 h => exact .done h
  | done h => exact .done h

theorem at_run {c : Config} {n : Name} {w : Val} : ∀ (k : Nat) {st : Mem × List Thread}, At s c n w st →
    At s c n w (run s st (List.replicate k 0))
  | 0, _, h => h
  | k + 1, _, h => at_run k (at_step h)

theorem setItem_failed {c : Config} {n : Name} {w : Val} {e : Err} (h : (c.setItem s n w).2 = some e) : (c.setItem s n w).1 = c := by
  cases hs : c.setItem s n w with
  | mk c' e' =>
    rw [hs] at h
    simp only at h
    subst h
    exact setItem_err hs

theorem setItem_vals {c : Config} {n : Name} {w : Val} (h : (c.setItem s n w).2 = none) : (c.setItem s n w).1.vals = none := by
  obtain ⟨x, q, -, -, -, -, h5, -⟩ := setItem_ok (c := c) (c' := (c.setItem s n w).1) (Prod.ext rfl h)
  exact h5

theorem at_reads {c : Config} {n : Name} {w : Val} {st : Mem × List Thread} (h : At s c n w st)
    (hp : ∀ t ∈ st.2, ∀ k u, t.pc ≠ .w2 k u) :
    ReadsAs s st.1.config c ∨ ReadsAs s st.1.config (c.setItem s n w).1 := by
  cases h with
  | start => exact .inl (mem_config_reads c)
  | w0 => exact .inl (mem_config_reads c)
  | failed e h => exact .inl (mem_config_reads c)
  | w1 v h hv => exact .inl (mem_config_reads c)
  | w2 h => exact absurd rfl (hp _ (List.mem_singleton.2 rfl) n w)
  | done h =>
    refine .inr ⟨rfl, fun k => ?_⟩
    rw [getItem_fst (c.setItem s n w).1 k, setItem_vals h]
    rfl

/-- **C132**, in part.  An assignment that is interrupted after any number of steps, except between its last two steps (between the lines 209
and 210 of configuration.py): afterwards the configuration reads as it did before, or as it does after the assignment.  Missing: the point between
the two lines, where it is false of the code with cached values (`C132_interrupted`). -/
theorem C132_assignment_partial {c : Config} {n : Name} {w : Val} (k : Nat)
    (hp : ∀ t ∈ (run s (start c [[.write n w]]) (List.replicate k 0)).2, ∀ a u, t.pc ≠ .w2 a u) :
    ReadsAs s (run s (start c [[.write n w]]) (List.replicate k 0)).1.config c ∨
      ReadsAs s (run s (start c [[.write n w]]) (List.replicate k 0)).1.config (c.setItem s n w).1 :=
  at_reads (at_run k .start) hp

/-- **C132.** If the configuration has no cached values, an assignment may be interrupted anywhere. -/
theorem C132_assignment_uncached {c : Config} (hc : c.vals = none) {n : Name} {w : Val} (k : Nat) :
    ReadsAs s (run s (start c [[.write n w]]) (List.replicate k 0)).1.config c ∨
      ReadsAs s (run s (start c [[.write n w]]) (List.replicate k 0)).1.config (c.setItem s n w).1 := by
  have h := at_run k (At.start (s := s) (c := c) (n := n) (w := w))
  by_cases hp : ∀ t ∈ (run s (start c [[.write n w]]) (List.replicate k 0)).2, ∀ a u, t.pc ≠ .w2 a u
  · exact at_reads h hp
  · have hw : ∀ {st : Mem × List Thread}, At s c n w st → (¬ ∀ t ∈ st.2, ∀ a u, t.pc ≠ .w2 a u) →
        ReadsAs s st.1.config (c.setItem s n w).1 := by
      intro st h hp
      cases h with
      | w2 h =>
        refine ⟨rfl, fun k => ?_⟩
        have hm : mem c = ⟨c.vec, none, []⟩ := by unfold mem; rw [hc]
        rw [getItem_fst (c.setItem s n w).1 k, setItem_vals h, hm]
        rfl
      | _ =>
        refine absurd ?_ hp
        intro t ht
        rw [List.mem_singleton.1 ht]
        exact nofun
    exact .inr (hw h hp)

/-- **C132.** If threads are interrupted only at calls, an assignment may be interrupted at any of them. -/
theorem C132_assignment_at_calls {c : Config} {n : Name} {w : Val} (k : Nat) :
    ReadsAs s (runB s (start c [[.write n w]]) (List.replicate k 0)).1.config c ∨
      ReadsAs s (runB s (start c [[.write n w]]) (List.replicate k 0)).1.config (c.setItem s n w).1 := by
  have key : ∀ (k : Nat) {st : Mem × List Thread}, At s c n w st → (∀ t ∈ st.2, ∀ a u, t.pc ≠ .w2 a u) →
      At s c n w (runB s st (List.replicate k 0)) ∧ ∀ t ∈ (runB s st (List.replicate k 0)).2, ∀ a u, t.pc ≠ .w2 a u := by
    intro k
    induction k with
    | zero => intro st h1 h2; exact ⟨h1, h2⟩
    | succ k ih =>
      intro st h1 h2
      have hrun : runB s st (List.replicate (k + 1) 0) = runB s (stepB s st 0) (List.replicate k 0) := rfl
      rw [hrun]
      have idle : ∀ {m : Mem} {l : List (Op × Out)}, stepB s (m, [⟨.idle, [], l⟩]) 0 = (m, [⟨.idle, [], l⟩]) := by
        intro m l
        simp [stepB, block, stepT, Pc.stop]
      have none2 : ∀ {p : Pc} {td : List Op} {l : List (Op × Out)}, (∀ a u, p ≠ .w2 a u) →
          ∀ t ∈ [(⟨p, td, l⟩ : Thread)], ∀ a u, t.pc ≠ .w2 a u := by
        intro p td l hp t ht
        rw [List.mem_singleton.1 ht]
        exact hp
      cases h1 with
      | start =>
        have e : stepB s (mem c, [⟨.idle, [.write n w], []⟩]) 0 = (mem c, [⟨.w0 n w, [], []⟩]) := by simp [stepB, block, stepT, Pc.stop]
        rw [e]
        exact ih .w0 (none2 nofun)
      | w0 =>
        have h3 := at_step (At.w0 (s := s) (c := c) (n := n) (w := w))
        have e : stepB s (mem c, [⟨.w0 n w, [], []⟩]) 0 = step s (mem c, [⟨.w0 n w, [], []⟩]) 0 := by
          simp only [stepB, step, block, List.getElem?_cons_zero]
          rw [if_pos]
          simp only [stepT]
          split <;> rfl
        rw [e]
        refine ih h3 ?_
        simp only [step, stepT, List.getElem?_cons_zero, List.set_cons_zero]
        split <;> exact none2 nofun
      | failed e h =>
        rw [idle]
        exact ih (.failed e h) (none2 nofun)
      | w1 v h hv =>
        subst hv
        have e : stepB s (mem c, [⟨.w1 n w (c.setItem s n w).1.vec, [], []⟩]) 0 =
            ({ mem c with vec := (c.setItem s n w).1.vec, ref := none }, [⟨.idle, [], [(.write n w, .ok none)]⟩]) := by
          simp [stepB, block, stepT, Pc.stop, Thread.finish]
        rw [e]
        exact ih (.done h) (none2 nofun)
      | w2 h => exact absurd rfl (h2 _ (List.mem_singleton.2 rfl) n w)
      | done h =>
        rw [idle]
        exact ih (.done h) (none2 nofun)
  obtain ⟨h1, h2⟩ := key k (At.start (s := s) (c := c) (n := n) (w := w)) (by
    intro t ht
    rw [List.mem_singleton.1 ht]
    exact nofun)
  exact at_reads h1 h2

namespace ExIn
open Commute.ExCm

/-- A configuration from which `p` was read. -/
def cachedP : Config := (startS.getItem spS "p").2
theorem cachedP_reach : CfgReach spS cachedP := .get startS_reach

/-- **C132**, false of the code: the assignment of `"b"` to `p` is interrupted between the lines 209 and 210.  Afterwards the configuration says that
`p` is `"a"`, as before, but `x`, which is active if `p` is `"a"`, and was, has no value, as after the assignment. -/
theorem C132_interrupted : ∃ (calls : List Call) (s : Space) (c : Config) (k : Nat),
    Reach calls s ∧ CfgReach s c ∧ (c.setItem s "p" (.str "b")).2 = none ∧
      (c.getItem s "p").1 = .ok (.str "a") ∧ (c.getItem s "x").1 = .ok (.str "w") ∧
      ((c.setItem s "p" (.str "b")).1.getItem s "p").1 = .ok (.str "b") ∧
      ((c.setItem s "p" (.str "b")).1.getItem s "x").1 = .error .keyError ∧
      ((run s (start c [[.write "p" (.str "b")]]) (List.replicate k 0)).1.config.getItem s "p").1 = .ok (.str "a") ∧
      ((run s (start c [[.write "p" (.str "b")]]) (List.replicate k 0)).1.config.getItem s "x").1 = .error .keyError :=
  ⟨[callS], spS, cachedP, 3, reachS, cachedP_reach, by decide +kernel, by decide +kernel, by decide +kernel, by decide +kernel,
    by decide +kernel, by decide +kernel, by decide +kernel⟩

-- Interrupted before the array is stored, and not interrupted at all.
example : ReadsAs spS (run spS (start cachedP [[.write "p" (.str "b")]]) (List.replicate 2 0)).1.config cachedP ∨
    ReadsAs spS (run spS (start cachedP [[.write "p" (.str "b")]]) (List.replicate 2 0)).1.config (cachedP.setItem spS "p" (.str "b")).1 :=
  C132_assignment_partial 2 (by
    have h : (run spS (start cachedP [[.write "p" (.str "b")]]) (List.replicate 2 0)).2 =
        [⟨.w1 "p" (.str "b") [some 1, some 1, none, some 1], [], []⟩] := by decide +kernel
    rw [h]
    intro t ht
    rw [List.mem_singleton.1 ht]
    exact nofun)
example : (run spS (start cachedP [[.write "p" (.str "b")]]) (List.replicate 4 0)).1.vec = [some 1, some 1, none, some 1] := by decide +kernel
example : (run spS (start startS [[.write "p" (.str "b")]]) (List.replicate 3 0)).1.vec = [some 1, some 1, none, some 1] := by decide +kernel
example : startS.vals = none := rfl
-- Both readers are interrupted.
example : ∀ n, ((run spS (start startS ExTh.readers) [1, 1, 1, 0, 0, 0, 1, 0, 0, 1]).1.config.getItem spS n).1 = (startS.getItem spS n).1 :=
  (C132_reads ExTh.readers_only _).2

end ExIn

end Verif.Threads
