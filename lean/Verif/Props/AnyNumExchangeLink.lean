import Verif.Props.AnyNumExchange

/-!
# C107: over exact numbers the generator is that of `Model/Exchange.lean`
-/

set_option autoImplicit false

namespace Verif.AnyNum
open Verif Verif.Spec.Any
open Verif.Spec (OwnClauses clauseHps)

variable {calls : List Call} {s : Space}

/-- An entry of `neighbors_to_generate` of `Model/Exchange.lean`. -/
def Task.ofRat (t : Verif.Task) : Task Rat := ⟨t.hp, t.idx, t.plan, t.left, t.pending, t.generated⟩

/-- A state of the generator of `Model/Exchange.lean`. -/
def ExState.ofRat (st : Verif.ExState) : ExState Rat := ⟨st.tasks.map Task.ofRat, st.alive, st.calls, st.out⟩

def Tried.ofRat (r : Verif.Tried) : Tried Rat := ⟨Task.ofRat r.task, r.found, r.calls⟩

theorem exact_default (h : Reach calls s) {n : Name} (hn : n ∈ s.names) :
    defaultAt exact s (s.idx n) = some ((defaultVecs s.com).getD (s.idx n) 0) := by
  have hlt := idx_lt h hn
  have hlen : s.com.length = s.len := (sinv_of_reach h).len.symm
  unfold defaultAt defaultVecs
  rw [List.getD_eq_getElem?_getD, List.getElem?_map, List.getElem?_map]
  cases hx : s.com[s.idx n]? with
  | none => rw [List.getElem?_eq_none_iff] at hx; omega
  | some x => rfl

theorem foldl_congr {γ δ : Type} {f g : γ → δ → γ} : ∀ {xs : List δ} {b : γ}, (∀ c, ∀ x ∈ xs, f c x = g c x) →
    xs.foldl f b = xs.foldl g b
  | [], _, _ => rfl
  | x :: xs, b, h => by
    rw [List.foldl_cons, List.foldl_cons, h b x (by simp)]
    exact foldl_congr (fun c y hy => h c y (by simp [hy]))

theorem exact_applyCNode (h : Reach calls s) {c : CNode} (hc : c ∈ s.minConds) (v : Vec) :
    applyCNode exact s v c = Verif.applyCNode s v c := by
  unfold applyCNode Verif.applyCNode
  rw [exact_satVec _ (group_wf h hc)]
  split
  · refine foldl_congr (fun acc n hn => ?_)
    rw [exact_default h (kids_known h hc n hn)]
    rfl
  · rfl

/-- `change_hp_value` over exact numbers is that of `Model/Space.lean`. -/
theorem exact_changeHp (h : Reach calls s) (v : Vec) (n : Name) (x : Rat) (i : Nat) :
    changeHp exact s v n x i = s.changeHp v n x i := by
  unfold changeHp Space.changeHp
  refine foldl_congr (fun acc j _ => ?_)
  cases hj : s.minConds[j]? with
  | none => rfl
  | some c => exact exact_applyCNode h (List.mem_of_getElem? hj) acc

theorem exact_forbids (h : Reach calls s) (v : Vec) {f : Forb} (hf : f ∈ allForbs calls) :
    Forbids exact (asg s.idx v) f ↔ Spec.Forbids (Verif.asg s.idx v) f := by
  rw [← onVec_iff, ← Verif.onVec_iff, exact_onVec f ((sinv_of_reach h).hist.forbWf f hf)]

theorem exact_lookup (h : Reach calls s) (hown : OwnClauses calls) {v : Vec} (hl : v.length = s.len) (n : Name) :
    (forbLookup (fast exact s) n).any (fun f => onVec exact s.idx v f) =
      (forbLookup s.fast n).any (fun f => f.onVec s.idx v) := by
  rw [Bool.eq_iff_iff, lookup_forbids h hown (exact_legalClauses h) (represents_asg h hl) n,
    Verif.lookup_forbids h hown (Verif.represents_asg h hl) n]
  exact exists_congr (fun f => and_congr_right (fun hf => and_congr_right (fun _ => exact_forbids h v hf)))

theorem exact_tryLoop (h : Reach calls s) (hown : OwnClauses calls) {v : Vec} (hl : v.length = s.len) (nb : Nat → Name → List Rat)
    (was : Bool) : ∀ (m : Nat) (t : Verif.Task) (k : Nat),
    tryLoop exact s v nb was m (Task.ofRat t) k = (Verif.tryLoop s v nb was m t k).map Tried.ofRat
  | 0, t, k => rfl
  | m + 1, ⟨hp, idx, plan, left, pending, gen⟩, k => by
    have ih := exact_tryLoop h hown hl nb was m
    have hlen : ∀ x, (s.changeHp v hp.name x idx).length = s.len := by
      intro x
      rw [← exact_changeHp h, changeHp_length]; exact hl
    rw [show Task.ofRat ⟨hp, idx, plan, left, pending, gen⟩ = ⟨hp, idx, plan, left, pending, gen⟩ from rfl]
    simp only [tryLoop, Verif.tryLoop]
    by_cases hc : (pending.isEmpty && was && !plan.regen) = true
    · rw [if_pos hc, if_pos hc]; rfl
    · rw [if_neg hc, if_neg hc]
      cases pending with
      | nil =>
        simp only [List.isEmpty_nil, if_true]
        cases nb k hp.name with
        | nil => rfl
        | cons x rest =>
          simp only
          rw [exact_changeHp h, exact_lookup h hown (hlen x)]
          split
          · exact ih ⟨hp, idx, plan, left, rest, true⟩ (k + 1)
          · rfl
      | cons x rest =>
        simp only [List.isEmpty_cons, Bool.false_eq_true, if_false]
        rw [exact_changeHp h, exact_lookup h hown (hlen x)]
        split
        · exact ih ⟨hp, idx, plan, left, rest, gen⟩ k
        · rfl

theorem exact_step (h : Reach calls s) (hown : OwnClauses calls) {v : Vec} (hl : v.length = s.len) (nb : Nat → Name → List Rat)
    (st : Verif.ExState) (i : Nat) :
    exchangeStep exact s v nb (ExState.ofRat st) i = (Verif.exchangeStep s v nb st i).map ExState.ofRat := by
  unfold exchangeStep Verif.exchangeStep
  rw [show (ExState.ofRat st).tasks = st.tasks.map Task.ofRat from rfl, List.getElem?_map]
  cases ht : st.tasks[i]? with
  | none => rfl
  | some t =>
    simp only [Option.map_some]
    rw [show (Task.ofRat t).left = t.left from rfl]
    split
    · rfl
    · rw [show (Task.ofRat t).generated = t.generated from rfl, show (Task.ofRat t).plan = t.plan from rfl,
        show (ExState.ofRat st).calls = st.calls from rfl, exact_tryLoop h hown hl]
      cases Verif.tryLoop s v nb t.generated t.plan.maxIter t st.calls with
      | error e => rfl
      | ok r =>
        simp only [Except.map, Tried.ofRat, ExState.ofRat, List.map_set]
        rfl

theorem exact_run (h : Reach calls s) (hown : OwnClauses calls) {v : Vec} (hl : v.length = s.len) (nb : Nat → Name → List Rat) :
    ∀ (is : List Nat) (st : Verif.ExState),
    exchangeRun exact s v nb is (ExState.ofRat st) = (Verif.exchangeRun s v nb is st).map ExState.ofRat
  | [], st => rfl
  | i :: is, st => by
    simp only [exchangeRun, Verif.exchangeRun]
    rw [show (ExState.ofRat st).alive = st.alive from rfl, exact_step h hown hl]
    split
    · rfl
    · cases Verif.exchangeStep s v nb st i with
      | error e => rfl
      | ok st' => exact exact_run h hown hl nb is st'

theorem exact_tasks (c : Config) (num : Nat) : ∀ (xs : List Node),
    exchangeTasks s c.vec (fun n => (c.getItem s n).1) num xs = (Verif.exchangeTasks s c num xs).map (fun ts => ts.map Task.ofRat)
  | [] => rfl
  | x :: xs => by
    have ih := exact_tasks c num xs
    simp only [exchangeTasks, Verif.exchangeTasks, ih]
    rw [show (AVec.at c.vec (s.idx x.name)).isSome = isSet (c.vec.at (s.idx x.name)) from rfl]
    split
    · rfl
    · cases planFor x.hp.kind num (c.getItem s x.name).1 with
      | error e => rfl
      | ok p =>
        simp only
        cases Verif.exchangeTasks s c num xs <;> rfl

/-- **C107, exact numbers**: over exact numbers on linear scales the generator is that of `Model/Exchange.lean` (C10): the same
configurations in the same order, the same exceptions and the same remaining entries. -/
theorem C107_exact (h : Reach calls s) (hown : OwnClauses calls) (c : Config) (hl : c.vec.length = s.len) (num : Nat)
    (nb : Nat → Name → List Rat) (choices : List Nat) :
    oneExchange exact s c.vec (fun n => (c.getItem s n).1) num nb choices =
      (Verif.oneExchange s c num nb choices).map ExState.ofRat := by
  unfold oneExchange Verif.oneExchange exchangeInit Verif.exchangeInit
  rw [exact_tasks]
  cases Verif.exchangeTasks s c num s.dag.nodes with
  | error e => rfl
  | ok ts =>
    have e : (ts.map Task.ofRat).any (fun t => t.left == 0) = ts.any (fun t => t.left == 0) := by
      rw [List.any_map]; rfl
    simp only [Except.map, e]
    cases ts.any (fun t => t.left == 0) with
    | true => rfl
    | false =>
      have := exact_run h hown hl nb choices { tasks := ts, alive := ts.length }
      simp only [ExState.ofRat] at this
      simp only [List.length_map, Bool.false_eq_true, if_false]
      exact this

/-- The example of C10, over any arithmetic: six neighbours, and the generator has ended. -/
example : ∃ st, oneExchange exact Ex.sp2 Ex.cfg2.vec (fun n => (Ex.cfg2.getItem Ex.sp2 n).1) 2 Ex.nb2 [0, 1, 2, 3, 7, 2, 1, 3, 0] = .ok st ∧
    st.alive = 0 ∧ st.out.length = 6 := by
  obtain ⟨st, h1, h2, h3⟩ := Ex.reached2
  refine ⟨ExState.ofRat st, ?_, h2, ?_⟩
  · rw [C107_exact Ex.reach2 Ex.own2 Ex.cfg2 (by decide +kernel), h1]
    rfl
  · show st.out.length = 6
    rw [h3]
    rfl

/-- The number of neighbours, and that the generator ends, on the same example. -/
example : ∃ st, oneExchange exact Ex.sp2 Ex.cfg2.vec (fun n => (Ex.cfg2.getItem Ex.sp2 n).1) 2 Ex.nb2 [0, 1, 2, 3, 7, 2, 1, 3, 0] = .ok st ∧
    ∀ y ∈ allHps [Ex.call1, Ex.call2], y.kind.size = some 1 → yieldedFor st y.name = [] := by
  obtain ⟨st, h1, h2, h3⟩ := Ex.reached2
  have hr : oneExchange exact Ex.sp2 Ex.cfg2.vec (fun n => (Ex.cfg2.getItem Ex.sp2 n).1) 2 Ex.nb2 [0, 1, 2, 3, 7, 2, 1, 3, 0] =
      .ok (ExState.ofRat st) := by
    rw [C107_exact Ex.reach2 Ex.own2 Ex.cfg2 (by decide +kernel), h1]
    rfl
  exact ⟨_, hr, fun y hy hk => (C107_number_of_neighbours Ex.reach2 hr hy).1 (.inr hk)⟩

end Verif.AnyNum
