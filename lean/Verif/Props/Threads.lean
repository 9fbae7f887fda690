import Verif.Model.Threads
import Verif.Lemmas.Struct
import Verif.Lemmas.Cache
import Verif.Props.Config
import Verif.Props.CommuteCfg

/-!
# C131: threads that share a configuration
-/

set_option autoImplicit false

namespace Verif.Threads

variable {calls : List Call} {s : Space}

/-- Only reads. -/
def OnlyReads (progs : List (List Op)) : Prop := ∀ p ∈ progs, ∀ o ∈ p, ∃ n, o = .read n

/-- What a single read gives when no other thread is there. -/
def alone (s : Space) (c : Config) (n : Name) : Out := (c.getItem s n).1.map some

/-! ## What holds of a thread along the way -/

/-- Where a reading thread may be, if the configuration began with a dictionary of cached values. -/
def OkPc (s : Space) (c : Config) (m : Mem) : Pc → Prop
  | .idle => True
  | .r0 _ => True
  | .r1 _ => True
  | .r1d _ d => d = 0
  | .r2 n => ((m.heap.getD 0 []).lookup n).isSome
  | .r2d n d => d = 0 ∧ ((m.heap.getD 0 []).lookup n).isSome
  | .r3 n => (c.vals.getD []).lookup n = none
  | .r4 n w => alone s c n = .ok (some w)
  | .r5 _ _ => False
  | .r6 n w => alone s c n = .ok (some w)
  | .r6d n w d => d = 0 ∧ alone s c n = .ok (some w)
  | .w0 _ _ => False
  | .w1 _ _ _ => False
  | .w2 _ _ => False

/-- The memory, if the configuration began with a dictionary of cached values. -/
structure OkMem (s : Space) (c : Config) (m : Mem) : Prop where
  vec : m.vec = c.vec
  ref : m.ref = some 0
  len : m.heap.length = 1
  right : ∀ n w, (m.heap.getD 0 []).lookup n = some w → alone s c n = .ok (some w)
  keys : ∀ n, ((c.vals.getD []).lookup n).isSome → ((m.heap.getD 0 []).lookup n).isSome

/-- A thread that only reads, and so far read what it reads alone. -/
structure OkThread (s : Space) (c : Config) (m : Mem) (t : Thread) : Prop where
  pc : OkPc s c m t.pc
  todo : ∀ o ∈ t.todo, ∃ n, o = .read n
  done : ∀ o r, (o, r) ∈ t.done → ∃ n, o = .read n ∧ r = alone s c n

theorem alone_decode {c : Config} {n : Name} (hc : (c.vals.getD []).lookup n = none) :
    alone s c n = match findNode s.dag.nodes n with
    | none => .error .keyError
    | some x => match c.vec.at (s.idx n) with
      | none => .error .keyError
      | some q => match x.hp.kind.toVal q with
        | none => .error .valueError
        | some w => .ok (some (roundVal x.hp.kind w)) := by
  unfold alone Config.getItem
  rw [hc]
  simp only
  cases findNode s.dag.nodes n with
  | none => rfl
  | some x =>
    simp only
    cases c.vec.at (s.idx n) with
    | none => rfl
    | some q =>
      simp only
      cases x.hp.kind.toVal q <;> rfl

theorem OkThread.finish {c : Config} {m m' : Mem} {t : Thread} (h : OkThread s c m t) {n : Name} {r : Out} (hr : r = alone s c n) :
    OkThread s c m' (t.finish (.read n) r) := by
  refine ⟨trivial, h.todo, ?_⟩
  intro o r' hm
  simp only [Thread.finish, List.mem_append, List.mem_singleton, Prod.mk.injEq] at hm
  rcases hm with hm | ⟨rfl, rfl⟩
  · exact h.done o r' hm
  · exact ⟨n, rfl, hr⟩

theorem stepT_ok {c : Config} {m : Mem} {t : Thread} (hm : OkMem s c m) (ht : OkThread s c m t) :
    OkMem s c (stepT s m t).1 ∧ OkThread s c (stepT s m t).1 (stepT s m t).2 ∧
      ∀ n, ((m.heap.getD 0 []).lookup n).isSome → (((stepT s m t).1.heap.getD 0 []).lookup n).isSome := by
  obtain ⟨pc, todo, done⟩ := t
  have hpc := ht.pc
  have htodo := ht.todo
  have hdone := ht.done
  simp only at hpc htodo hdone
  cases pc with
  | idle =>
    simp only [stepT]
    cases todo with
    | nil => exact ⟨hm, ht, fun _ h => h⟩
    | cons o l =>
      obtain ⟨n, rfl⟩ := htodo o (by simp)
      exact ⟨hm, ⟨trivial, fun o ho => htodo o (by simp [ho]), hdone⟩, fun _ h => h⟩
  | r0 n =>
    simp only [stepT, hm.ref, Option.isSome_some, if_true]
    exact ⟨hm, ⟨trivial, htodo, hdone⟩, fun _ h => h⟩
  | r1 n =>
    simp only [stepT, hm.ref]
    exact ⟨hm, ⟨rfl, htodo, hdone⟩, fun _ h => h⟩
  | r1d n d =>
    simp only [stepT]
    obtain rfl : d = 0 := hpc
    refine ⟨hm, ⟨?_, htodo, hdone⟩, fun _ h => h⟩
    simp only
    by_cases hk : ((m.heap.getD 0 []).lookup n).isSome = true
    · rw [if_pos hk]
      exact hk
    · rw [if_neg hk]
      show (c.vals.getD []).lookup n = none
      have := mt (hm.keys n) hk
      exact Option.not_isSome_iff_eq_none.1 this
  | r2 n =>
    simp only [stepT, hm.ref]
    exact ⟨hm, ⟨⟨rfl, hpc⟩, htodo, hdone⟩, fun _ h => h⟩
  | r2d n d =>
    obtain ⟨rfl, hk⟩ : d = 0 ∧ _ := hpc
    simp only [stepT]
    obtain ⟨w, hw⟩ := Option.isSome_iff_exists.1 hk
    simp only [hw]
    exact ⟨hm, ht.finish (hm.right n w hw).symm, fun _ h => h⟩
  | r3 n =>
    have hr := alone_decode (s := s) (c := c) (n := n) hpc
    simp only [stepT, hm.vec]
    cases hf : findNode s.dag.nodes n with
    | none =>
      rw [hf] at hr
      exact ⟨hm, ht.finish hr.symm, fun _ h => h⟩
    | some x =>
      rw [hf] at hr
      simp only at hr ⊢
      cases hv : c.vec.at (s.idx n) with
      | none =>
        rw [hv] at hr
        exact ⟨hm, ht.finish hr.symm, fun _ h => h⟩
      | some q =>
        rw [hv] at hr
        simp only at hr ⊢
        cases hq : x.hp.kind.toVal q with
        | none =>
          rw [hq] at hr
          exact ⟨hm, ht.finish hr.symm, fun _ h => h⟩
        | some w =>
          rw [hq] at hr
          exact ⟨hm, ⟨hr, htodo, hdone⟩, fun _ h => h⟩
  | r4 n w =>
    simp only [stepT, hm.ref, Option.isSome_some, if_true]
    exact ⟨hm, ⟨hpc, htodo, hdone⟩, fun _ h => h⟩
  | r5 n w => exact absurd hpc id
  | r6 n w =>
    simp only [stepT, hm.ref]
    exact ⟨hm, ⟨⟨rfl, hpc⟩, htodo, hdone⟩, fun _ h => h⟩
  | r6d n w d =>
    obtain ⟨rfl, hr⟩ : d = 0 ∧ _ := hpc
    simp only [stepT]
    have hh : (m.heap.modify 0 (fun D => dictSet D n w)).getD 0 [] = dictSet (m.heap.getD 0 []) n w := by
      have := hm.len
      cases hhe : m.heap with
      | nil => rw [hhe] at this; cases this
      | cons a l => rfl
    have hkeep : ∀ k, ((m.heap.getD 0 []).lookup k).isSome → ((dictSet (m.heap.getD 0 []) n w).lookup k).isSome := by
      intro k hk
      rw [dictSet_lookup]
      split
      · rfl
      · exact hk
    refine ⟨⟨hm.vec, hm.ref, by simp [hm.len], ?_, ?_⟩, ht.finish hr.symm, ?_⟩
    · intro k u hk
      rw [hh, dictSet_lookup] at hk
      split at hk
      · rename_i e
        rw [e, ← Option.some.inj hk]
        exact hr
      · exact hm.right k u hk
    · intro k hk
      rw [hh]
      exact hkeep k (hm.keys k hk)
    · intro k hk
      rw [hh]
      exact hkeep k hk
  | w0 n w => exact absurd hpc id
  | w1 n w v => exact absurd hpc id
  | w2 n w => exact absurd hpc id

theorem OkThread.mono {c : Config} {m m' : Mem} {t : Thread} (h : OkThread s c m t)
    (hk : ∀ n, ((m.heap.getD 0 []).lookup n).isSome → ((m'.heap.getD 0 []).lookup n).isSome) : OkThread s c m' t := by
  refine ⟨?_, h.todo, h.done⟩
  have := h.pc
  cases hp : t.pc <;> rw [hp] at this <;> try exact this
  · exact hk _ this
  · exact ⟨this.1, hk _ this.2⟩

theorem run_ok {c : Config} : ∀ (sched : List Nat) {st : Mem × List Thread}, OkMem s c st.1 → (∀ t ∈ st.2, OkThread s c st.1 t) →
    OkMem s c (run s st sched).1 ∧ ∀ t ∈ (run s st sched).2, OkThread s c (run s st sched).1 t
  | [], _, hm, ht => ⟨hm, ht⟩
  | i :: l, st, hm, ht => by
    have hrun : run s st (i :: l) = run s (step s st i) l := rfl
    rw [hrun]
    unfold step
    cases hi : st.2[i]? with
    | none => exact run_ok l hm ht
    | some t =>
      obtain ⟨k1, k2, k3⟩ := stepT_ok hm (ht t (List.mem_of_getElem? hi))
      refine run_ok l k1 ?_
      intro t' ht'
      rcases List.mem_or_eq_of_mem_set ht' with h1 | rfl
      · exact (ht t' h1).mono k3
      · exact k2

theorem start_ok {c : Config} {d : List (Name × Val)} (hd : c.vals = some d) {progs : List (List Op)} (hp : OnlyReads progs) :
    OkMem s c (start c progs).1 ∧ ∀ t ∈ (start c progs).2, OkThread s c (start c progs).1 t := by
  refine ⟨?_, ?_⟩
  · have hm : mem c = ⟨c.vec, some 0, [d]⟩ := by unfold mem; rw [hd]
    show OkMem s c (mem c)
    rw [hm]
    refine ⟨rfl, rfl, rfl, ?_, ?_⟩
    · intro n w hw
      simp only [List.getD_cons_zero] at hw
      unfold alone Config.getItem
      rw [hd, Option.getD_some, hw]
      rfl
    · intro n hn
      rw [hd, Option.getD_some] at hn
      exact hn
  · intro t ht
    obtain ⟨p, hpm, rfl⟩ := List.mem_map.1 ht
    exact ⟨trivial, hp p hpm, by intro o r h; cases h⟩

/-- **C131.** Threads that only read from a configuration that has cached a value before (one that was made from a dictionary, or from
which something was read): under every schedule, every read gives what it gives when it is alone. -/
theorem C131_reads_partial {c : Config} {d : List (Name × Val)} (hd : c.vals = some d) {progs : List (List Op)} (hp : OnlyReads progs)
    (sched : List Nat) : ∀ t ∈ (run s (start c progs) sched).2, ∀ o r, (o, r) ∈ t.done → ∃ n, o = .read n ∧ r = alone s c n := by
  intro t ht
  exact ((run_ok sched (start_ok hd hp).1 (start_ok hd hp).2).2 t ht).done

/-! ## A configuration without cached values -/

/-- Where a reading thread may be, if the configuration began without cached values. -/
def SafePc (s : Space) (c : Config) (m : Mem) : Pc → Prop
  | .idle => True
  | .r0 _ => True
  | .r1 _ => m.ref.isSome
  | .r1d _ _ => m.ref.isSome
  | .r2 _ => m.ref.isSome
  | .r2d _ _ => m.ref.isSome
  | .r3 _ => True
  | .r4 n w => alone s c n = .ok (some w)
  | .r5 n w => alone s c n = .ok (some w)
  | .r6 n w => m.ref.isSome ∧ alone s c n = .ok (some w)
  | .r6d n w _ => m.ref.isSome ∧ alone s c n = .ok (some w)
  | .w0 _ _ => False
  | .w1 _ _ _ => False
  | .w2 _ _ => False

structure SafeMem (s : Space) (c : Config) (m : Mem) : Prop where
  vec : m.vec = c.vec
  right : ∀ D ∈ m.heap, ∀ n w, D.lookup n = some w → alone s c n = .ok (some w)

structure SafeThread (s : Space) (c : Config) (m : Mem) (t : Thread) : Prop where
  pc : SafePc s c m t.pc
  todo : ∀ o ∈ t.todo, ∃ n, o = .read n
  done : ∀ o r, (o, r) ∈ t.done → ∃ n, o = .read n ∧ (r = alone s c n ∨ r = .error .keyError)

theorem SafeThread.finish {c : Config} {m m' : Mem} {t : Thread} (h : SafeThread s c m t) {n : Name} {r : Out}
    (hr : r = alone s c n ∨ r = .error .keyError) : SafeThread s c m' (t.finish (.read n) r) := by
  refine ⟨trivial, h.todo, ?_⟩
  intro o r' hm
  simp only [Thread.finish, List.mem_append, List.mem_singleton, Prod.mk.injEq] at hm
  rcases hm with hm | ⟨rfl, rfl⟩
  · exact h.done o r' hm
  · exact ⟨n, rfl, hr⟩

theorem mem_modify {α : Type} {f : α → α} {x : α} : ∀ {l : List α} {i : Nat}, x ∈ l.modify i f → x ∈ l ∨ ∃ y ∈ l, x = f y
  | [], i, h => by simp at h
  | a :: l, 0, h => by
    simp only [List.modify_zero_cons, List.mem_cons] at h
    rcases h with rfl | h
    · exact .inr ⟨a, by simp, rfl⟩
    · exact .inl (by simp [h])
  | a :: l, i + 1, h => by
    simp only [List.modify_succ_cons, List.mem_cons] at h
    rcases h with rfl | h
    · exact .inl (by simp)
    · rcases mem_modify h with h | ⟨y, hy, rfl⟩
      · exact .inl (by simp [h])
      · exact .inr ⟨y, by simp [hy], rfl⟩

theorem stepT_safe {c : Config} (hc : c.vals = none) {m : Mem} {t : Thread} (hm : SafeMem s c m) (ht : SafeThread s c m t) :
    SafeMem s c (stepT s m t).1 ∧ SafeThread s c (stepT s m t).1 (stepT s m t).2 ∧ (m.ref.isSome → (stepT s m t).1.ref.isSome) := by
  obtain ⟨pc, todo, done⟩ := t
  have hpc := ht.pc
  have htodo := ht.todo
  have hdone := ht.done
  simp only at hpc htodo hdone
  cases pc with
  | idle =>
    simp only [stepT]
    cases todo with
    | nil => exact ⟨hm, ht, fun h => h⟩
    | cons o l =>
      obtain ⟨n, rfl⟩ := htodo o (by simp)
      exact ⟨hm, ⟨trivial, fun o ho => htodo o (by simp [ho]), hdone⟩, fun h => h⟩
  | r0 n =>
    simp only [stepT]
    refine ⟨hm, ⟨?_, htodo, hdone⟩, fun h => h⟩
    simp only
    split
    · assumption
    · trivial
  | r1 n =>
    obtain ⟨d, hd⟩ := Option.isSome_iff_exists.1 hpc
    simp only [stepT, hd]
    exact ⟨hm, ⟨hpc, htodo, hdone⟩, fun _ => rfl⟩
  | r1d n d =>
    simp only [stepT]
    refine ⟨hm, ⟨?_, htodo, hdone⟩, fun h => h⟩
    simp only
    split
    · exact hpc
    · trivial
  | r2 n =>
    obtain ⟨d, hd⟩ := Option.isSome_iff_exists.1 hpc
    simp only [stepT, hd]
    exact ⟨hm, ⟨hpc, htodo, hdone⟩, fun _ => rfl⟩
  | r2d n d =>
    simp only [stepT]
    cases hw : (m.heap.getD d []).lookup n with
    | none => exact ⟨hm, ht.finish (.inr rfl), fun h => h⟩
    | some w =>
      refine ⟨hm, ht.finish (.inl ?_), fun h => h⟩
      cases hd : m.heap[d]? with
      | none => simp [List.getD, hd] at hw
      | some D =>
        refine (hm.right D (List.mem_of_getElem? hd) n w ?_).symm
        simpa [List.getD, hd] using hw
  | r3 n =>
    have hr := alone_decode (s := s) (c := c) (n := n) (by rw [hc]; rfl)
    simp only [stepT, hm.vec]
    cases hf : findNode s.dag.nodes n with
    | none =>
      rw [hf] at hr
      exact ⟨hm, ht.finish (.inl hr.symm), fun h => h⟩
    | some x =>
      rw [hf] at hr
      simp only at hr ⊢
      cases hv : c.vec.at (s.idx n) with
      | none =>
        rw [hv] at hr
        exact ⟨hm, ht.finish (.inl hr.symm), fun h => h⟩
      | some q =>
        rw [hv] at hr
        simp only at hr ⊢
        cases hq : x.hp.kind.toVal q with
        | none =>
          rw [hq] at hr
          exact ⟨hm, ht.finish (.inl hr.symm), fun h => h⟩
        | some w =>
          rw [hq] at hr
          exact ⟨hm, ⟨hr, htodo, hdone⟩, fun h => h⟩
  | r4 n w =>
    simp only [stepT]
    refine ⟨hm, ⟨?_, htodo, hdone⟩, fun h => h⟩
    simp only
    split
    · exact ⟨by assumption, hpc⟩
    · exact hpc
  | r5 n w =>
    simp only [stepT]
    refine ⟨⟨hm.vec, ?_⟩, ⟨⟨rfl, hpc⟩, htodo, hdone⟩, fun _ => rfl⟩
    intro D hD
    simp only [List.mem_append, List.mem_singleton] at hD
    rcases hD with hD | rfl
    · exact hm.right D hD
    · intro k u hk
      cases hk
  | r6 n w =>
    obtain ⟨d, hd⟩ := Option.isSome_iff_exists.1 hpc.1
    simp only [stepT, hd]
    exact ⟨hm, ⟨hpc, htodo, hdone⟩, fun _ => rfl⟩
  | r6d n w d =>
    simp only [stepT]
    refine ⟨⟨hm.vec, ?_⟩, ht.finish (.inl hpc.2.symm), fun h => h⟩
    intro D hD k u hk
    rcases mem_modify hD with hD | ⟨E, hE, rfl⟩
    · exact hm.right D hD k u hk
    · rw [dictSet_lookup] at hk
      split at hk
      · rename_i e
        rw [e, ← Option.some.inj hk]
        exact hpc.2
      · exact hm.right E hE k u hk
  | w0 n w => exact absurd hpc id
  | w1 n w v => exact absurd hpc id
  | w2 n w => exact absurd hpc id

theorem SafeThread.mono {c : Config} {m m' : Mem} {t : Thread} (h : SafeThread s c m t) (hk : m.ref.isSome → m'.ref.isSome) :
    SafeThread s c m' t := by
  refine ⟨?_, h.todo, h.done⟩
  have := h.pc
  cases hp : t.pc <;> rw [hp] at this <;> first | exact this | exact hk this | exact ⟨hk this.1, this.2⟩

theorem run_safe {c : Config} (hc : c.vals = none) : ∀ (sched : List Nat) {st : Mem × List Thread}, SafeMem s c st.1 →
    (∀ t ∈ st.2, SafeThread s c st.1 t) → ∀ t ∈ (run s st sched).2, SafeThread s c (run s st sched).1 t
  | [], _, _, ht => ht
  | i :: l, st, hm, ht => by
    have hrun : run s st (i :: l) = run s (step s st i) l := rfl
    rw [hrun]
    unfold step
    cases hi : st.2[i]? with
    | none => exact run_safe hc l hm ht
    | some t =>
      obtain ⟨k1, k2, k3⟩ := stepT_safe hc hm (ht t (List.mem_of_getElem? hi))
      refine run_safe hc l k1 ?_
      intro t' ht'
      rcases List.mem_or_eq_of_mem_set ht' with h1 | rfl
      · exact (ht t' h1).mono k3
      · exact k2

/-- **C131.** Threads that only read, from any configuration: under every schedule, a read never gives a wrong value.  It gives what it gives
when it is alone, or it raises KeyError. -/
theorem C131_never_wrong {c : Config} {progs : List (List Op)} (hp : OnlyReads progs) (sched : List Nat) :
    ∀ t ∈ (run s (start c progs) sched).2, ∀ o r, (o, r) ∈ t.done →
      ∃ n, o = .read n ∧ (r = alone s c n ∨ r = .error .keyError) := by
  intro t ht o r hd
  cases hv : c.vals with
  | some d =>
    obtain ⟨n, h1, h2⟩ := C131_reads_partial hv hp sched t ht o r hd
    exact ⟨n, h1, .inl h2⟩
  | none =>
    refine (run_safe hv sched (s := s) ?_ ?_ t ht).done o r hd
    · have hm : mem c = ⟨c.vec, none, []⟩ := by unfold mem; rw [hv]
      show SafeMem s c (mem c)
      rw [hm]
      exact ⟨rfl, fun D hD => by cases hD⟩
    · intro t ht
      obtain ⟨p, hpm, rfl⟩ := List.mem_map.1 ht
      exact ⟨trivial, hp p hpm, by intro o r h; cases h⟩

/-! ## No thread waits for another one -/

/-- How many steps an operation still takes at most. -/
def Pc.left : Pc → Nat
  | .idle => 0
  | .r0 _ => 9
  | .r1 _ => 8
  | .r1d _ _ => 7
  | .r2 _ => 2
  | .r2d _ _ => 1
  | .r3 _ => 6
  | .r4 _ _ => 5
  | .r5 _ _ => 4
  | .r6 _ _ => 3
  | .r6d _ _ _ => 2
  | .w0 _ _ => 3
  | .w1 _ _ _ => 2
  | .w2 _ _ => 1

def Thread.left (t : Thread) : Nat := 10 * t.todo.length + t.pc.left

/-- The operation a thread is at. -/
def Pc.op? : Pc → List Op
  | .idle => []
  | .r0 n | .r1 n | .r1d n _ | .r2 n | .r2d n _ | .r3 n | .r4 n _ | .r5 n _ | .r6 n _ | .r6d n _ _ => [.read n]
  | .w0 n w | .w1 n w _ | .w2 n w => [.write n w]

theorem stepT_left (m : Mem) (t : Thread) : (stepT s m t).2.left ≤ t.left - 1 := by
  obtain ⟨pc, todo, done⟩ := t
  cases pc <;> simp only [stepT]
  case idle =>
    cases todo with
    | nil => simp [Thread.left, Pc.left]
    | cons o l => cases o <;> simp [Thread.left, Pc.left] <;> omega
  all_goals
    repeat' split
    all_goals simp [Thread.left, Pc.left, Thread.finish]
    all_goals omega

theorem stepT_ops (m : Mem) (t : Thread) :
    (stepT s m t).2.done.map Prod.fst ++ (stepT s m t).2.pc.op? ++ (stepT s m t).2.todo =
      t.done.map Prod.fst ++ t.pc.op? ++ t.todo := by
  obtain ⟨pc, todo, done⟩ := t
  cases pc <;> simp only [stepT]
  case idle =>
    cases todo with
    | nil => rfl
    | cons o l => cases o <;> simp [Pc.op?]
  all_goals
    repeat' split
    all_goals simp [Pc.op?, Thread.finish]

theorem run_thread (i : Nat) : ∀ (sched : List Nat) {st : Mem × List Thread} {t : Thread}, st.2[i]? = some t →
    ∃ t', (run s st sched).2[i]? = some t' ∧ t'.left ≤ t.left - sched.count i ∧
      t'.done.map Prod.fst ++ t'.pc.op? ++ t'.todo = t.done.map Prod.fst ++ t.pc.op? ++ t.todo
  | [], _, t, h => ⟨t, h, by simp, rfl⟩
  | j :: l, st, t, h => by
    have hrun : run s st (j :: l) = run s (step s st j) l := rfl
    rw [hrun]
    by_cases e : j = i
    · subst e
      have h' : (step s st j).2[j]? = some (stepT s st.1 t).2 := by
        unfold step
        rw [h]
        simp only
        rw [List.getElem?_set_self (List.getElem?_eq_some_iff.1 h).1]
      obtain ⟨t', k1, k2, k3⟩ := run_thread j l h'
      refine ⟨t', k1, ?_, by rw [k3, stepT_ops]⟩
      have := stepT_left (s := s) st.1 t
      rw [List.count_cons_self]
      omega
    · have h' : (step s st j).2[i]? = some t := by
        unfold step
        cases hj : st.2[j]? with
        | none => exact h
        | some u =>
          simp only
          rw [List.getElem?_set_ne e]
          exact h
      obtain ⟨t', k1, k2, k3⟩ := run_thread i l h'
      refine ⟨t', k1, ?_, k3⟩
      rw [List.count_cons_of_ne e]
      exact k2

/-- **C131.** No thread waits for another one: a thread that gets ten steps for each of its operations (readings or assignments) has done
all of them, in its order, whatever the others do. -/
theorem C131_ends {c : Config} {progs : List (List Op)} {i : Nat} {p : List Op} (hp : progs[i]? = some p) (sched : List Nat)
    (hn : 10 * p.length ≤ sched.count i) :
    ∃ t, (run s (start c progs) sched).2[i]? = some t ∧ t.done.map Prod.fst = p ∧ t.pc = .idle := by
  obtain ⟨t, h1, h2, h3⟩ := run_thread (s := s) i sched (st := start c progs) (t := ⟨.idle, p, []⟩) (by
    simp [start, hp])
  refine ⟨t, h1, ?_⟩
  have hz : t.left = 0 := by
    have h0 : (⟨.idle, p, []⟩ : Thread).left = 10 * p.length := rfl
    omega
  have ht : t.todo = [] := by
    unfold Thread.left at hz
    exact List.length_eq_zero_iff.1 (by omega)
  have hpc : t.pc = .idle := by
    unfold Thread.left at hz
    have : t.pc.left = 0 := by omega
    cases hc : t.pc <;> rw [hc] at this <;> first | rfl | cases this
  rw [ht, hpc] at h3
  refine ⟨?_, hpc⟩
  simpa [Pc.op?] using h3

/-! ## Interpreters that switch threads only at calls -/

/-- Where a reading thread may be between two blocks, if the configuration began without cached values. -/
def BPc (s : Space) (c : Config) : Pc → Prop
  | .idle => True
  | .r3 _ => True
  | .r4 n w => alone s c n = .ok (some w)
  | _ => False

structure BThread (s : Space) (c : Config) (t : Thread) : Prop where
  pc : BPc s c t.pc
  todo : ∀ o ∈ t.todo, ∃ n, o = .read n
  done : ∀ o r, (o, r) ∈ t.done → ∃ n, o = .read n ∧ r = alone s c n

theorem BThread.finish {c : Config} {t : Thread} (h : BThread s c t) {n : Name} {r : Out} {l : List Op} {p : Pc}
    (hl : ∀ o ∈ l, ∃ n, o = .read n) (hr : r = alone s c n) :
    BThread s c (Thread.finish ⟨p, l, t.done⟩ (.read n) r) := by
  refine ⟨trivial, hl, ?_⟩
  intro o r' hm
  simp only [Thread.finish, List.mem_append, List.mem_singleton, Prod.mk.injEq] at hm
  rcases hm with hm | ⟨rfl, rfl⟩
  · exact h.done o r' hm
  · exact ⟨n, rfl, hr⟩

theorem mem_right {c : Config} {m : Mem} (hm : SafeMem s c m) {d : Nat} {n : Name} {w : Val}
    (hw : (m.heap.getD d []).lookup n = some w) : alone s c n = .ok (some w) := by
  cases hd : m.heap[d]? with
  | none => simp [List.getD, hd] at hw
  | some D =>
    refine hm.right D (List.mem_of_getElem? hd) n w ?_
    simpa [List.getD, hd] using hw

theorem block_right {c : Config} (hc : c.vals = none) {m : Mem} {t : Thread} (hm : SafeMem s c m) (ht : BThread s c t) :
    SafeMem s c (block s 6 m t).1 ∧ BThread s c (block s 6 m t).2 := by
  obtain ⟨pc, todo, done⟩ := t
  have hpc := ht.pc
  have htodo := ht.todo
  have hdone := ht.done
  simp only at hpc htodo hdone
  cases pc with
  | idle =>
    cases todo with
    | nil => exact ⟨hm, ht⟩
    | cons o l =>
      obtain ⟨n, rfl⟩ := htodo o (by simp)
      have hl : ∀ o ∈ l, ∃ n, o = .read n := fun o ho => htodo o (by simp [ho])
      cases hr : m.ref with
      | none =>
        have : block s 6 m ⟨.idle, .read n :: l, done⟩ = (m, ⟨.r3 n, l, done⟩) := by simp [block, stepT, Pc.stop, hr]
        rw [this]
        exact ⟨hm, ⟨trivial, hl, hdone⟩⟩
      | some d =>
        cases hw : (m.heap.getD d []).lookup n with
        | none =>
          have : block s 6 m ⟨.idle, .read n :: l, done⟩ = (m, ⟨.r3 n, l, done⟩) := by
            simp [-List.getD_eq_getElem?_getD, block, stepT, Pc.stop, hr, hw]
          rw [this]
          exact ⟨hm, ⟨trivial, hl, hdone⟩⟩
        | some w =>
          have : block s 6 m ⟨.idle, .read n :: l, done⟩ =
              (m, Thread.finish ⟨.r2d n d, l, done⟩ (.read n) (.ok (some w))) := by
            simp [-List.getD_eq_getElem?_getD, block, stepT, Pc.stop, hr, hw, Thread.finish]
          rw [this]
          exact ⟨hm, ht.finish hl (mem_right hm hw).symm⟩
  | r3 n =>
    have hs : block s 6 m ⟨.r3 n, todo, done⟩ = stepT s m ⟨.r3 n, todo, done⟩ := by
      unfold block
      rw [if_pos]
      simp only [stepT]
      repeat' split
      all_goals rfl
    rw [hs]
    have hr := alone_decode (s := s) (c := c) (n := n) (by rw [hc]; rfl)
    simp only [stepT, hm.vec]
    cases hf : findNode s.dag.nodes n with
    | none =>
      rw [hf] at hr
      exact ⟨hm, ht.finish htodo hr.symm⟩
    | some x =>
      rw [hf] at hr
      simp only at hr ⊢
      cases hv : c.vec.at (s.idx n) with
      | none =>
        rw [hv] at hr
        exact ⟨hm, ht.finish htodo hr.symm⟩
      | some q =>
        rw [hv] at hr
        simp only at hr ⊢
        cases hq : x.hp.kind.toVal q with
        | none =>
          rw [hq] at hr
          exact ⟨hm, ht.finish htodo hr.symm⟩
        | some w =>
          rw [hq] at hr
          exact ⟨hm, ⟨hr, htodo, hdone⟩⟩
  | r4 n w =>
    have put : ∀ (H : List (List (Name × Val))) (d : Nat), (∀ D ∈ H, ∀ k u, D.lookup k = some u → alone s c k = .ok (some u)) →
        ∀ D ∈ H.modify d (fun D => dictSet D n w), ∀ k u, D.lookup k = some u → alone s c k = .ok (some u) := by
      intro H d hH D hD k u hk
      rcases mem_modify hD with hD | ⟨E, hE, rfl⟩
      · exact hH D hD k u hk
      · rw [dictSet_lookup] at hk
        split at hk
        · rename_i e
          rw [e, ← Option.some.inj hk]
          exact hpc
        · exact hH E hE k u hk
    cases hr : m.ref with
    | none =>
      have : block s 6 m ⟨.r4 n w, todo, done⟩ =
          (⟨m.vec, some m.heap.length, (m.heap ++ [[]]).modify m.heap.length (fun D => dictSet D n w)⟩,
            Thread.finish ⟨.r6d n w m.heap.length, todo, done⟩ (.read n) (.ok (some w))) := by
        simp [block, stepT, Pc.stop, hr, Thread.finish]
      rw [this]
      refine ⟨⟨hm.vec, put _ _ ?_⟩, ht.finish htodo hpc.symm⟩
      intro D hD
      simp only [List.mem_append, List.mem_singleton] at hD
      rcases hD with hD | rfl
      · exact hm.right D hD
      · intro k u hk
        cases hk
    | some d =>
      have : block s 6 m ⟨.r4 n w, todo, done⟩ =
          ({ m with heap := m.heap.modify d (fun D => dictSet D n w) },
            Thread.finish ⟨.r6d n w d, todo, done⟩ (.read n) (.ok (some w))) := by
        simp [block, stepT, Pc.stop, hr, Thread.finish]
      rw [this]
      exact ⟨⟨hm.vec, put _ _ hm.right⟩, ht.finish htodo hpc.symm⟩
  | _ => exact absurd hpc id

/-- Blocks keep what steps keep. -/
theorem block_ok {c : Config} : ∀ (k : Nat) {m : Mem} {t : Thread}, OkMem s c m → OkThread s c m t →
    OkMem s c (block s k m t).1 ∧ OkThread s c (block s k m t).1 (block s k m t).2 ∧
      ∀ n, ((m.heap.getD 0 []).lookup n).isSome → (((block s k m t).1.heap.getD 0 []).lookup n).isSome
  | 0, _, _, hm, ht => ⟨hm, ht, fun _ h => h⟩
  | k + 1, m, t, hm, ht => by
    unfold block
    obtain ⟨k1, k2, k3⟩ := stepT_ok hm ht
    split
    · exact ⟨k1, k2, k3⟩
    · obtain ⟨l1, l2, l3⟩ := block_ok k k1 k2
      exact ⟨l1, l2, fun n h => l3 n (k3 n h)⟩

theorem runB_ok {c : Config} : ∀ (sched : List Nat) {st : Mem × List Thread}, OkMem s c st.1 →
    (∀ t ∈ st.2, OkThread s c st.1 t) → ∀ t ∈ (runB s st sched).2, OkThread s c (runB s st sched).1 t
  | [], _, _, ht => ht
  | i :: l, st, hm, ht => by
    have hrun : runB s st (i :: l) = runB s (stepB s st i) l := rfl
    rw [hrun]
    unfold stepB
    cases hi : st.2[i]? with
    | none => exact runB_ok l hm ht
    | some t =>
      obtain ⟨k1, k2, k3⟩ := block_ok 6 hm (ht t (List.mem_of_getElem? hi))
      refine runB_ok l k1 ?_
      intro t' ht'
      rcases List.mem_or_eq_of_mem_set ht' with h1 | rfl
      · exact (ht t' h1).mono k3
      · exact k2

theorem runB_right {c : Config} (hc : c.vals = none) : ∀ (sched : List Nat) {st : Mem × List Thread}, SafeMem s c st.1 →
    (∀ t ∈ st.2, BThread s c t) → ∀ t ∈ (runB s st sched).2, BThread s c t
  | [], _, _, ht => ht
  | i :: l, st, hm, ht => by
    have hrun : runB s st (i :: l) = runB s (stepB s st i) l := rfl
    rw [hrun]
    unfold stepB
    cases hi : st.2[i]? with
    | none => exact runB_right hc l hm ht
    | some t =>
      obtain ⟨k1, k2⟩ := block_right hc hm (ht t (List.mem_of_getElem? hi))
      refine runB_right hc l k1 ?_
      intro t' ht'
      rcases List.mem_or_eq_of_mem_set ht' with h1 | rfl
      · exact ht t' h1
      · exact k2

/-- **C131.** If threads are switched only at calls, then any number of threads that read one configuration, whether it has cached values or
not, read what they read alone, under every schedule. -/
theorem C131_reads_at_calls {c : Config} {progs : List (List Op)} (hp : OnlyReads progs) (sched : List Nat) :
    ∀ t ∈ (runB s (start c progs) sched).2, ∀ o r, (o, r) ∈ t.done → ∃ n, o = .read n ∧ r = alone s c n := by
  intro t ht
  cases hv : c.vals with
  | some d => exact (runB_ok sched (start_ok hv hp).1 (start_ok hv hp).2 t ht).done
  | none =>
    refine (runB_right hv sched (s := s) ?_ ?_ t ht).done
    · have hm : mem c = ⟨c.vec, none, []⟩ := by unfold mem; rw [hv]
      show SafeMem s c (mem c)
      rw [hm]
      exact ⟨rfl, fun D hD => by cases hD⟩
    · intro t ht
      obtain ⟨p, hpm, rfl⟩ := List.mem_map.1 ht
      exact ⟨trivial, hp p hpm, by intro o r h; cases h⟩

/-! ## Threads that assign -/

/-- An array that some of the assignments of the threads, one after another, give. -/
def Serial (s : Space) (c : Config) (progs : List (List Op)) (v : Vec) : Prop :=
  ∃ l : List (Name × Val), (∀ a ∈ l, ∃ p ∈ progs, .write a.1 a.2 ∈ p) ∧
    (Loop.assignAll s c l).2 = none ∧ (Loop.assignAll s c l).1.vec = v

structure SerThread (s : Space) (c : Config) (progs : List (List Op)) (t : Thread) : Prop where
  todo : ∀ o ∈ t.todo, ∃ p ∈ progs, o ∈ p
  w0 : ∀ n w, t.pc = .w0 n w → ∃ p ∈ progs, .write n w ∈ p
  w1 : ∀ n w v, t.pc = .w1 n w v → Serial s c progs v

theorem assignAll_snoc {n : Name} {w : Val} : ∀ (l : List (Name × Val)) {c c' c'' : Config}, Loop.assignAll s c l = (c', none) →
    c'.setItem s n w = (c'', none) → Loop.assignAll s c (l ++ [(n, w)]) = (c'', none)
  | [], c, c', c'', h1, h2 => by
    cases h1
    simp only [List.nil_append, Loop.assignAll, h2]
  | (k, u) :: l, c, c', c'', h1, h2 => by
    simp only [Loop.assignAll, List.cons_append] at h1 ⊢
    cases hs : c.setItem s k u with
    | mk d e =>
      rw [hs] at h1
      cases e with
      | some e => cases h1
      | none => exact assignAll_snoc l h1 h2

theorem setItem_vec {c d : Config} (h : c.vec = d.vec) {n : Name} {w : Val} {c' : Config} (hs : c.setItem s n w = (c', none)) :
    (d.setItem s n w).2 = none ∧ (d.setItem s n w).1.vec = c'.vec := by
  obtain ⟨x, q, h1, h2, h3, h4, -, h6⟩ := setItem_ok hs
  rw [h] at h4
  rw [h4] at h6
  rw [Commute.setItem_of h1 h2 h3 h6]
  exact ⟨rfl, h4.symm⟩

theorem serial_snoc {c : Config} {progs : List (List Op)} {v : Vec} (hv : Serial s c progs v) {n : Name} {w : Val}
    (hp : ∃ p ∈ progs, .write n w ∈ p) {c' : Config} (hs : Config.setItem s ⟨v, none, false⟩ n w = (c', none)) :
    Serial s c progs c'.vec := by
  obtain ⟨l, h1, h2, h3⟩ := hv
  obtain ⟨k1, k2⟩ := setItem_vec (d := (Loop.assignAll s c l).1) h3.symm hs
  refine ⟨l ++ [(n, w)], ?_, ?_⟩
  · intro a ha
    simp only [List.mem_append, List.mem_singleton] at ha
    rcases ha with ha | rfl
    · exact h1 a ha
    · exact hp
  · rw [assignAll_snoc l (Prod.ext rfl h2) (Prod.ext rfl k1)]
    exact ⟨rfl, k2⟩

theorem stepT_serial {c : Config} {progs : List (List Op)} {m : Mem} {t : Thread} (hm : Serial s c progs m.vec)
    (ht : SerThread s c progs t) : Serial s c progs (stepT s m t).1.vec ∧ SerThread s c progs (stepT s m t).2 := by
  obtain ⟨pc, todo, done⟩ := t
  have htodo := ht.todo
  simp only at htodo
  have fin : ∀ (p : Pc) (o : Op) (r : Out), SerThread s c progs (Thread.finish ⟨p, todo, done⟩ o r) :=
    fun p o r => ⟨htodo, (by intro n w h; cases h), by intro n w v h; cases h⟩
  cases pc with
  | idle =>
    simp only [stepT]
    cases todo with
    | nil => exact ⟨hm, ht⟩
    | cons o l =>
      have hl : ∀ o ∈ l, ∃ p ∈ progs, o ∈ p := fun o ho => htodo o (by simp [ho])
      cases o with
      | read n => exact ⟨hm, ⟨hl, (by intro n w h; cases h), by intro n w v h; cases h⟩⟩
      | write n w =>
        refine ⟨hm, ⟨hl, ?_, by intro n w v h; cases h⟩⟩
        intro n' w' h
        cases h
        exact htodo _ (by simp)
  | w0 n w =>
    simp only [stepT]
    cases hs : Config.setItem s ⟨m.vec, none, false⟩ n w with
    | mk c' e =>
      cases e with
      | some e => exact ⟨hm, fin _ _ _⟩
      | none =>
        refine ⟨hm, ⟨htodo, (by intro n w h; cases h), ?_⟩⟩
        intro n' w' v h
        cases h
        exact serial_snoc hm (ht.w0 n w rfl) hs
  | w1 n w v =>
    simp only [stepT]
    exact ⟨ht.w1 n w v rfl, ⟨htodo, (by intro n w h; cases h), by intro n w v h; cases h⟩⟩
  | w2 n w => exact ⟨hm, fin _ _ _⟩
  | r0 n =>
    simp only [stepT]
    refine ⟨hm, ⟨htodo, ?_, ?_⟩⟩ <;> simp only <;> split <;> intros <;> contradiction
  | r1d n d =>
    simp only [stepT]
    refine ⟨hm, ⟨htodo, ?_, ?_⟩⟩ <;> simp only <;> split <;> intros <;> contradiction
  | r4 n w =>
    simp only [stepT]
    refine ⟨hm, ⟨htodo, ?_, ?_⟩⟩ <;> simp only <;> split <;> intros <;> contradiction
  | r5 n w => exact ⟨hm, ⟨htodo, (by intro n w h; cases h), by intro n w v h; cases h⟩⟩
  | r6d n w d => exact ⟨hm, fin _ _ _⟩
  | r1 n | r2 n | r2d n d | r3 n | r6 n w =>
    simp only [stepT]
    repeat' split
    all_goals first
      | exact ⟨hm, fin _ _ _⟩
      | exact ⟨hm, ⟨htodo, (by intro n w h; cases h), by intro n w v h; cases h⟩⟩

/-- **C131.** Threads that read and assign as they like: under every schedule the array of the configuration is at every moment what some of
the assignments, one after another and each of them successful, would have made of it.  So no schedule gives an array that no single thread could
have made. -/
theorem C131_array_serial {c : Config} {progs : List (List Op)} (sched : List Nat) :
    ∃ l : List (Name × Val), (∀ a ∈ l, ∃ p ∈ progs, .write a.1 a.2 ∈ p) ∧
      (Loop.assignAll s c l).2 = none ∧ (Loop.assignAll s c l).1.vec = (run s (start c progs) sched).1.vec := by
  have key : ∀ (sched : List Nat) (st : Mem × List Thread), Serial s c progs st.1.vec → (∀ t ∈ st.2, SerThread s c progs t) →
      Serial s c progs (run s st sched).1.vec := by
    intro sched
    induction sched with
    | nil => intro st h _; exact h
    | cons i l ih =>
      intro st hm ht
      have hrun : run s st (i :: l) = run s (step s st i) l := rfl
      rw [hrun]
      unfold step
      cases hi : st.2[i]? with
      | none => exact ih st hm ht
      | some t =>
        obtain ⟨k1, k2⟩ := stepT_serial hm (ht t (List.mem_of_getElem? hi))
        refine ih _ k1 ?_
        intro t' ht'
        rcases List.mem_or_eq_of_mem_set ht' with h1 | rfl
        · exact ht t' h1
        · exact k2
  refine key sched (start c progs) ⟨[], by simp, rfl, ?_⟩ ?_
  · show c.vec = (mem c).vec
    unfold mem
    cases c.vals <;> rfl
  · intro t ht
    obtain ⟨p, hpm, rfl⟩ := List.mem_map.1 ht
    exact ⟨fun o ho => ⟨p, hpm, ho⟩, (by intro n w h; cases h), by intro n w v h; cases h⟩

/-- A value that the configuration had cached, or that is read from an array that some of the assignments, one after another, give. -/
def Was (s : Space) (c : Config) (progs : List (List Op)) (n : Name) (w : Val) : Prop :=
  (c.vals.getD []).lookup n = some w ∨ ∃ v, Serial s c progs v ∧ (Config.getItem s ⟨v, none, false⟩ n).1 = .ok w

structure WasThread (s : Space) (c : Config) (progs : List (List Op)) (t : Thread) : Prop where
  r4 : ∀ n w, t.pc = .r4 n w → Was s c progs n w
  r5 : ∀ n w, t.pc = .r5 n w → Was s c progs n w
  r6 : ∀ n w, t.pc = .r6 n w → Was s c progs n w
  r6d : ∀ n w d, t.pc = .r6d n w d → Was s c progs n w
  done : ∀ n w, (Op.read n, Except.ok (some w)) ∈ t.done → Was s c progs n w

def WasMem (s : Space) (c : Config) (progs : List (List Op)) (m : Mem) : Prop :=
  ∀ D ∈ m.heap, ∀ n w, D.lookup n = some w → Was s c progs n w

theorem WasThread.of_done {c : Config} {progs : List (List Op)} {t t' : Thread} (h : WasThread s c progs t) (hd : t'.done = t.done)
    (h4 : ∀ n w, t'.pc ≠ .r4 n w) (h5 : ∀ n w, t'.pc ≠ .r5 n w) (h6 : ∀ n w, t'.pc ≠ .r6 n w) (h6d : ∀ n w d, t'.pc ≠ .r6d n w d) :
    WasThread s c progs t' :=
  ⟨fun n w e => absurd e (h4 n w), fun n w e => absurd e (h5 n w), fun n w e => absurd e (h6 n w), fun n w d e => absurd e (h6d n w d),
    fun n w hm => h.done n w (hd ▸ hm)⟩

theorem WasThread.finish {c : Config} {progs : List (List Op)} {t : Thread} (h : WasThread s c progs t) {o : Op} {r : Out}
    (hr : ∀ n w, o = .read n → r = .ok (some w) → Was s c progs n w) : WasThread s c progs (t.finish o r) := by
  refine ⟨(by intro n w e; cases e), (by intro n w e; cases e), (by intro n w e; cases e), (by intro n w d e; cases e), ?_⟩
  intro n w hm
  simp only [Thread.finish, List.mem_append, List.mem_singleton, Prod.mk.injEq] at hm
  rcases hm with hm | ⟨h1, h2⟩
  · exact h.done n w hm
  · exact hr n w h1.symm h2.symm

theorem stepT_was {c : Config} {progs : List (List Op)} {m : Mem} {t : Thread} (hv : Serial s c progs m.vec)
    (hm : WasMem s c progs m) (ht : WasThread s c progs t) :
    WasMem s c progs (stepT s m t).1 ∧ WasThread s c progs (stepT s m t).2 := by
  obtain ⟨pc, todo, done⟩ := t
  cases pc with
  | idle =>
    simp only [stepT]
    cases todo with
    | nil => exact ⟨hm, ht⟩
    | cons o l => cases o <;> exact ⟨hm, ht.of_done rfl nofun nofun nofun nofun⟩
  | r0 n =>
    simp only [stepT]
    refine ⟨hm, ?_⟩
    split <;> exact ht.of_done rfl nofun nofun nofun nofun
  | r1 n =>
    simp only [stepT]
    split
    · exact ⟨hm, ht.finish nofun⟩
    · exact ⟨hm, ht.of_done rfl nofun nofun nofun nofun⟩
  | r1d n d =>
    simp only [stepT]
    refine ⟨hm, ?_⟩
    split <;> exact ht.of_done rfl nofun nofun nofun nofun
  | r2 n =>
    simp only [stepT]
    split
    · exact ⟨hm, ht.finish nofun⟩
    · exact ⟨hm, ht.of_done rfl nofun nofun nofun nofun⟩
  | r2d n d =>
    simp only [stepT]
    cases hw : (m.heap.getD d []).lookup n with
    | none => exact ⟨hm, ht.finish nofun⟩
    | some w =>
      refine ⟨hm, ht.finish ?_⟩
      intro n' w' h1 h2
      cases h1
      cases h2
      cases hd : m.heap[d]? with
      | none => simp [List.getD, hd] at hw
      | some D =>
        refine hm D (List.mem_of_getElem? hd) n w ?_
        simpa [List.getD, hd] using hw
  | r3 n =>
    simp only [stepT]
    cases hf : findNode s.dag.nodes n with
    | none => exact ⟨hm, ht.finish nofun⟩
    | some x =>
      simp only
      cases hq : m.vec.at (s.idx n) with
      | none => exact ⟨hm, ht.finish nofun⟩
      | some q =>
        simp only
        cases hk : x.hp.kind.toVal q with
        | none => exact ⟨hm, ht.finish nofun⟩
        | some w =>
          refine ⟨hm, ⟨?_, nofun, nofun, nofun, ht.done⟩⟩
          intro n' w' e
          cases e
          refine .inr ⟨m.vec, hv, ?_⟩
          unfold Config.getItem
          simp only [Option.getD_none, List.lookup_nil, hf, hq, hk]
  | r4 n w =>
    have := ht.r4 n w rfl
    simp only [stepT]
    refine ⟨hm, ?_⟩
    split
    · exact ⟨nofun, nofun, by intro n' w' e; cases e; exact this, nofun, ht.done⟩
    · exact ⟨nofun, by intro n' w' e; cases e; exact this, nofun, nofun, ht.done⟩
  | r5 n w =>
    have := ht.r5 n w rfl
    simp only [stepT]
    refine ⟨?_, ⟨nofun, nofun, by intro n' w' e; cases e; exact this, nofun, ht.done⟩⟩
    intro D hD k u hk
    simp only [List.mem_append, List.mem_singleton] at hD
    rcases hD with hD | rfl
    · exact hm D hD k u hk
    · cases hk
  | r6 n w =>
    have := ht.r6 n w rfl
    simp only [stepT]
    split
    · exact ⟨hm, ht.finish nofun⟩
    · exact ⟨hm, ⟨nofun, nofun, nofun, by intro n' w' d' e; cases e; exact this, ht.done⟩⟩
  | r6d n w d =>
    have := ht.r6d n w d rfl
    simp only [stepT]
    refine ⟨?_, ht.finish ?_⟩
    · intro D hD k u hk
      rcases mem_modify hD with hD | ⟨E, hE, rfl⟩
      · exact hm D hD k u hk
      · rw [dictSet_lookup] at hk
        split at hk
        · rename_i e
          rw [e, ← Option.some.inj hk]
          exact this
        · exact hm E hE k u hk
    · intro n' w' h1 h2
      cases h1
      cases h2
      exact this
  | w0 n w =>
    simp only [stepT]
    split
    · exact ⟨hm, ht.finish nofun⟩
    · exact ⟨hm, ht.of_done rfl nofun nofun nofun nofun⟩
  | w1 n w v => exact ⟨hm, ht.of_done rfl nofun nofun nofun nofun⟩
  | w2 n w => exact ⟨hm, ht.finish nofun⟩

/-- **C131.** Threads that read and assign as they like: under every schedule, a value that is read is a value that the configuration had
cached at the start, or the value of this hyperparameter in a configuration that some of the assignments, one after another and each of them
successful, give.  No value comes from a mixture of arrays. -/
theorem C131_no_invented_value {c : Config} {progs : List (List Op)} (sched : List Nat) {t : Thread}
    (ht : t ∈ (run s (start c progs) sched).2) {n : Name} {w : Val} (hd : (Op.read n, Except.ok (some w)) ∈ t.done) :
    (c.vals.getD []).lookup n = some w ∨
      ∃ l : List (Name × Val), (∀ a ∈ l, ∃ p ∈ progs, .write a.1 a.2 ∈ p) ∧ (Loop.assignAll s c l).2 = none ∧
        (Config.getItem s ⟨(Loop.assignAll s c l).1.vec, none, false⟩ n).1 = .ok w := by
  have key : ∀ (sched : List Nat) (st : Mem × List Thread), Serial s c progs st.1.vec → WasMem s c progs st.1 →
      (∀ t ∈ st.2, SerThread s c progs t ∧ WasThread s c progs t) → ∀ t ∈ (run s st sched).2, WasThread s c progs t := by
    intro sched
    induction sched with
    | nil => intro st _ _ h t ht; exact (h t ht).2
    | cons i l ih =>
      intro st hv hm ht
      have hrun : run s st (i :: l) = run s (step s st i) l := rfl
      rw [hrun]
      unfold step
      cases hi : st.2[i]? with
      | none => exact ih st hv hm ht
      | some t =>
        obtain ⟨h1, h2⟩ := ht t (List.mem_of_getElem? hi)
        obtain ⟨k1, k2⟩ := stepT_serial hv h1
        obtain ⟨k3, k4⟩ := stepT_was hv hm h2
        refine ih _ k1 k3 ?_
        intro t' ht'
        rcases List.mem_or_eq_of_mem_set ht' with h3 | rfl
        · exact ht t' h3
        · exact ⟨k2, k4⟩
  have h := (key sched (start c progs) ⟨[], by simp, rfl, by
      show c.vec = (mem c).vec
      unfold mem
      cases c.vals <;> rfl⟩ (by
      show WasMem s c progs (mem c)
      unfold mem
      intro D hD n w hw
      cases hc : c.vals with
      | none =>
        rw [hc] at hD
        cases hD
      | some d =>
        rw [hc] at hD
        simp only [List.mem_singleton] at hD
        subst hD
        exact .inl (by rw [hc]; exact hw)) (by
      intro t ht
      obtain ⟨p, hpm, rfl⟩ := List.mem_map.1 ht
      exact ⟨⟨fun o ho => ⟨p, hpm, ho⟩, nofun, nofun⟩, ⟨nofun, nofun, nofun, nofun, nofun⟩⟩) t ht).done n w hd
  rcases h with h | ⟨v, ⟨l, h1, h2, rfl⟩, h3⟩
  · exact .inl h
  · exact .inr ⟨l, h1, h2, h3⟩

/-! ## Switching only at calls is a special case -/

theorem block_is_run (i : Nat) : ∀ (k : Nat) {st : Mem × List Thread} {t : Thread}, st.2[i]? = some t →
    ∃ j, run s st (List.replicate j i) = ((block s k st.1 t).1, st.2.set i (block s k st.1 t).2)
  | 0, st, t, h => ⟨0, by
      obtain ⟨hi, ht⟩ := List.getElem?_eq_some_iff.1 h
      show st = (st.1, st.2.set i t)
      rw [← ht, List.set_getElem_self]⟩
  | k + 1, st, t, h => by
    have hi : i < st.2.length := (List.getElem?_eq_some_iff.1 h).1
    have hs : step s st i = ((stepT s st.1 t).1, st.2.set i (stepT s st.1 t).2) := by
      unfold step
      rw [h]
    unfold block
    split
    · exact ⟨1, hs⟩
    · obtain ⟨j, hj⟩ := block_is_run i k (st := step s st i) (t := (stepT s st.1 t).2) (by
        rw [hs]
        exact List.getElem?_set_self hi)
      refine ⟨j + 1, ?_⟩
      have hrun : run s st (List.replicate (j + 1) i) = run s (step s st i) (List.replicate j i) := rfl
      rw [hrun, hj, hs]
      simp only [List.set_set]

theorem runB_is_run : ∀ (sched : List Nat) (st : Mem × List Thread), ∃ sched', runB s st sched = run s st sched'
  | [], st => ⟨[], rfl⟩
  | i :: l, st => by
    obtain ⟨l', hl'⟩ := runB_is_run l (stepB s st i)
    have hrun : runB s st (i :: l) = runB s (stepB s st i) l := rfl
    cases hi : st.2[i]? with
    | none =>
      have hs : stepB s st i = st := by unfold stepB; rw [hi]
      exact ⟨l', by rw [hrun, hl', hs]⟩
    | some t =>
      have hs : stepB s st i = ((block s 6 st.1 t).1, st.2.set i (block s 6 st.1 t).2) := by unfold stepB; rw [hi]
      obtain ⟨j, hj⟩ := block_is_run (s := s) i 6 hi
      refine ⟨List.replicate j i ++ l', ?_⟩
      rw [hrun, hl', hs, ← hj]
      exact (List.foldl_append ..).symm

/-! ## What goes wrong -/

namespace ExTh
open Commute.ExCm

def readers : List (List Op) := [[.read "p", .read "p"], [.read "q"]]

/-- The second thread finds no cached values; the first one reads `p`, caches it, and finds it among the cached values; the second one makes a
new dictionary; the first one looks there. -/
def unlucky : List Nat := List.replicate 4 1 ++ List.replicate 11 0 ++ [1, 0, 0]

/-- **C131**, false of the code where threads may be switched anywhere: two threads that do nothing but read a configuration that has no cached
values yet (every sampled configuration, every one made from a vector), and one of them gets a KeyError for an active hyperparameter, which
it had read before. -/
theorem C131_reader_raises : ∃ (calls : List Call) (s : Space) (c : Config) (progs : List (List Op)) (sched : List Nat) (t : Thread),
    Reach calls s ∧ CfgReach s c ∧ OnlyReads progs ∧ t ∈ (run s (start c progs) sched).2 ∧
      (Op.read "p", Except.ok (some (Val.str "a"))) ∈ t.done ∧ (Op.read "p", Except.error Err.keyError) ∈ t.done := by
  refine ⟨[callS], spS, startS, readers, unlucky,
    ⟨.idle, [], [(.read "p", .ok (some (.str "a"))), (.read "p", .error .keyError)]⟩, reachS, startS_reach, ?_, ?_, by simp, by simp⟩
  · intro p hp o ho
    simp only [readers, List.mem_cons, List.not_mem_nil, or_false] at hp
    rcases hp with rfl | rfl
    · simp only [List.mem_cons, List.not_mem_nil, or_false] at ho
      exact ⟨"p", by rcases ho with rfl | rfl <;> rfl⟩
    · exact ⟨"q", by simpa using ho⟩
  · have h : (run spS (start startS readers) unlucky).2[0]? =
        some ⟨.idle, [], [(.read "p", .ok (some (.str "a"))), (.read "p", .error .keyError)]⟩ := by decide +kernel
    exact List.mem_of_getElem? h

def readWrite : List (List Op) := [[.read "p"], [.write "p" (.str "b")]]

/-- **C131**, false of the code even if threads are switched only at calls: a thread reads `p` while another one assigns to it.  Both succeed,
and no thread is running any more; the array has the new value, and `config["p"]` still gives the old one. -/
theorem C131_stale : ∃ (calls : List Call) (s : Space) (c : Config) (progs : List (List Op)) (sched : List Nat),
    Reach calls s ∧ CfgReach s c ∧
      (∀ t ∈ (runB s (start c progs) sched).2, t.pc = .idle ∧ t.todo = [] ∧ ∀ o r, (o, r) ∈ t.done → ∃ w, r = .ok w) ∧
      (∃ t ∈ (runB s (start c progs) sched).2, (Op.write "p" (.str "b"), Except.ok none) ∈ t.done) ∧
      (((runB s (start c progs) sched).1.config).getItem s "p").1 = .ok (.str "a") ∧
      (Config.getItem s ⟨(runB s (start c progs) sched).1.vec, none, false⟩ "p").1 = .ok (.str "b") := by
  have h : (runB spS (start startS readWrite) [0, 0, 1, 1, 1, 0]).2 =
      [⟨.idle, [], [(.read "p", .ok (some (.str "a")))]⟩, ⟨.idle, [], [(.write "p" (.str "b"), .ok none)]⟩] := by decide +kernel
  refine ⟨[callS], spS, startS, readWrite, [0, 0, 1, 1, 1, 0], reachS, startS_reach, ?_, ?_, by decide +kernel, by decide +kernel⟩
  · rw [h]
    intro t ht
    simp only [List.mem_cons, List.not_mem_nil, or_false] at ht
    rcases ht with rfl | rfl
    · exact ⟨rfl, rfl, fun o r hm => ⟨some (.str "a"), by simp only [List.mem_singleton, Prod.mk.injEq] at hm; exact hm.2⟩⟩
    · exact ⟨rfl, rfl, fun o r hm => ⟨none, by simp only [List.mem_singleton, Prod.mk.injEq] at hm; exact hm.2⟩⟩
  · rw [h]
    exact ⟨⟨.idle, [], [(.write "p" (.str "b"), .ok none)]⟩, by simp, by simp⟩

def readReadWrite : List (List Op) := [[.read "p", .read "p"], [.write "p" (.str "b")]]

/-- **C131**, false of the code where threads may be switched anywhere: a read next to an assignment raises TypeError. -/
theorem C131_reader_type_error : ∃ (calls : List Call) (s : Space) (c : Config) (progs : List (List Op)) (sched : List Nat) (t : Thread),
    Reach calls s ∧ CfgReach s c ∧ t ∈ (run s (start c progs) sched).2 ∧ (Op.read "p", Except.error Err.typeError) ∈ t.done := by
  have h : (run spS (start startS readReadWrite) (List.replicate 9 0 ++ List.replicate 4 1 ++ [0])).2[0]? =
      some ⟨.idle, [], [(.read "p", .ok (some (.str "a"))), (.read "p", .error .typeError)]⟩ := by decide +kernel
  exact ⟨[callS], spS, startS, readReadWrite, _, _, reachS, startS_reach, List.mem_of_getElem? h, by simp⟩

def writers : List (List Op) := [[.write "p" (.str "b")], [.write "q" (.str "a")]]

/-- **C131**, false of the code even if threads are switched only at calls: two threads assign to two hyperparameters that have nothing to do
with each other.  Both succeed, and one of the assignments is lost: the array is neither what both assignments give in one order nor what they
give in the other. -/
theorem C131_lost_assignment : ∃ (calls : List Call) (s : Space) (c : Config) (sched : List Nat),
    Reach calls s ∧ CfgReach s c ∧
      (runB s (start c writers) sched).2 = [⟨.idle, [], [(.write "p" (.str "b"), .ok none)]⟩, ⟨.idle, [], [(.write "q" (.str "a"), .ok none)]⟩] ∧
      (Loop.assignAll s c [("p", .str "b"), ("q", .str "a")]).2 = none ∧
      (runB s (start c writers) sched).1.vec ≠ (Loop.assignAll s c [("p", .str "b"), ("q", .str "a")]).1.vec ∧
      (Loop.assignAll s c [("q", .str "a"), ("p", .str "b")]).2 = none ∧
      (runB s (start c writers) sched).1.vec ≠ (Loop.assignAll s c [("q", .str "a"), ("p", .str "b")]).1.vec :=
  ⟨[callS], spS, startS, [0, 1, 0, 1, 0, 1], reachS, startS_reach, by decide +kernel, by decide +kernel, by decide +kernel, by decide +kernel,
    by decide +kernel⟩

/-! ## The theorems apply -/

theorem readers_only : OnlyReads readers := by
  intro p hp o ho
  simp only [readers, List.mem_cons, List.not_mem_nil, or_false] at hp
  rcases hp with rfl | rfl
  · simp only [List.mem_cons, List.not_mem_nil, or_false] at ho
    exact ⟨"p", by rcases ho with rfl | rfl <;> rfl⟩
  · exact ⟨"q", by simpa using ho⟩

/-- A configuration with a cached value. -/
def cached : Config := (startS.getItem spS "x").2
example : CfgReach spS cached := .get startS_reach
example : cached.vals = some [("x", .str "w")] := by decide +kernel

-- With cached values, the unlucky schedule does no harm.
example : ∀ t ∈ (run spS (start cached readers) unlucky).2, ∀ o r, (o, r) ∈ t.done → ∃ n, o = .read n ∧ r = alone spS cached n :=
  C131_reads_partial (d := [("x", .str "w")]) (by decide +kernel) readers_only unlucky
example : alone spS cached "p" = .ok (some (.str "a")) := by decide +kernel
example : ∀ t ∈ (run spS (start startS readers) unlucky).2, ∀ o r, (o, r) ∈ t.done →
    ∃ n, o = .read n ∧ (r = alone spS startS n ∨ r = .error .keyError) := C131_never_wrong readers_only unlucky
-- Three blocks for a read that finds nothing cached, one for a read that does.
example : ∀ t ∈ (runB spS (start startS readers) [1, 0, 1, 0, 0, 1, 0]).2, ∀ o r, (o, r) ∈ t.done →
    ∃ n, o = .read n ∧ r = alone spS startS n := C131_reads_at_calls readers_only _
example : (runB spS (start startS readers) [1, 0, 1, 0, 0, 1, 0]).2 =
    [⟨.idle, [], [(.read "p", .ok (some (.str "a"))), (.read "p", .ok (some (.str "a")))]⟩,
      ⟨.idle, [], [(.read "q", .ok (some (.str "b")))]⟩] := by decide +kernel
example : ∃ t, (run spS (start startS readers) (unlucky ++ List.replicate 20 0)).2[0]? = some t ∧
    t.done.map Prod.fst = [.read "p", .read "p"] ∧ t.pc = .idle := C131_ends (i := 0) (by rfl) _ (by decide +kernel)
example : (run spS (start startS writers) [0, 1, 0, 1, 0, 1]).1.vec = [some 0, some 0, some 1, none] := by decide +kernel
example : ∃ l : List (Name × Val), (∀ a ∈ l, ∃ p ∈ writers, .write a.1 a.2 ∈ p) ∧ (Loop.assignAll spS startS l).2 = none ∧
    (Loop.assignAll spS startS l).1.vec = [some 0, some 0, some 1, none] := by
  have h := C131_array_serial (s := spS) (c := startS) (progs := writers) [0, 1, 0, 1, 0, 1]
  have hv : (run spS (start startS writers) [0, 1, 0, 1, 0, 1]).1.vec = [some 0, some 0, some 1, none] := by decide +kernel
  rw [hv] at h
  exact h

-- The first thread reads the old value although the assignment is done.
example : (runB spS (start startS readWrite) [0, 0, 1, 1, 1, 0]).2[0]? = some ⟨.idle, [], [(.read "p", .ok (some (.str "a")))]⟩ := by decide +kernel
example {t : Thread} (ht : t ∈ (run spS (start startS readWrite) (List.replicate 3 0 ++ List.replicate 4 1 ++ List.replicate 4 0)).2)
    (hd : (Op.read "p", Except.ok (some (.str "a"))) ∈ t.done) := C131_no_invented_value _ ht hd
example : (run spS (start startS readWrite) (List.replicate 3 0 ++ List.replicate 4 1 ++ List.replicate 4 0)).2[0]? =
    some ⟨.idle, [], [(.read "p", .ok (some (.str "a")))]⟩ := by decide +kernel

end ExTh

end Verif.Threads
