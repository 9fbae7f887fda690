import Verif.Props.Paused

/-!
# C117: what is added to the space while a neighbourhood is being read

`Props/Paused.lean` has programs that do not add to the space.  Here clauses may be added between two calls of `next`: the
neighbours that follow respect them.  Conditions may not: the generator keeps the old positions.
-/

set_option autoImplicit false

namespace Verif

namespace Spec

/-- The step does not write to array `r`, and adds nothing but clauses to the space. -/
def LeavesOrForbids (r : Nat) : Act → Prop
  | .add k => k.wf ∧ k.hps = [] ∧ k.conds = []
  | b => Leaves r b

/-- The calls of `add` in a program. -/
def addedBy (as : List Act) : List Call := as.filterMap (fun b => match b with
  | .add k => some k
  | _ => none)

end Spec

open Spec

/-! ## The entries of the generator -/

/-- Every entry is about an active hyperparameter of the space, at its position, and holds proposals for it. -/
def TasksFit (calls : List Call) (s : Space) (a : Assign) (nb : Nat → Name → List Rat) (st : ExState) : Prop :=
  ∀ t ∈ st.tasks, t.hp ∈ allHps calls ∧ t.idx = s.idx t.hp.name ∧ (∃ q, a t.hp.name = some q) ∧
    ∀ y ∈ t.pending, ∃ k, y ∈ nb k t.hp.name

/-- What is known of a vector that was given. -/
def Given (calls : List Call) (s : Space) (v : Vec) (a : Assign) (nb : Nat → Name → List Rat) (w : Vec) : Prop :=
  ∃ y ∈ allHps calls, (∃ q, a y.name = some q) ∧ ∃ k x, x ∈ nb k y.name ∧ w = s.changeHp v y.name x (s.idx y.name) ∧
    exBad s v y.name (s.idx y.name) x = false

theorem fit_step {calls : List Call} {s : Space} {v : Vec} {a : Assign} {nb : Nat → Name → List Rat} {st st' : ExState} {i : Nat}
    (hf : TasksFit calls s a nb st) (h : exchangeStep s v nb st i = .ok st') :
    TasksFit calls s a nb st' ∧ ∀ p ∈ st'.out.drop st.out.length, Given calls s v a nb p.2 := by
  rcases step_cases h with ⟨rfl, _⟩ | ⟨t, r, ht, _, hr, rfl⟩
  · exact ⟨hf, by simp⟩
  · obtain ⟨e1, e2, _, e4, _, e6⟩ := tryLoop_spec hr
    obtain ⟨f1, f2, f3, f4⟩ := hf t (List.mem_of_getElem? ht)
    have hsub : ∀ y, (y ∈ t.pending ∨ ∃ k', y ∈ nb k' t.hp.name) → ∃ k, y ∈ nb k t.hp.name := by
      rintro y (hy | hy)
      · exact f4 y hy
      · exact hy
    refine ⟨?_, ?_⟩
    · intro u hu
      rcases List.mem_or_eq_of_mem_set hu with hu | rfl
      · exact hf u hu
      · rw [e1, e2]
        exact ⟨f1, f2, f3, fun y hy => hsub y (e4 y hy)⟩
    · intro p hp
      simp only [List.drop_left] at hp
      cases hfd : r.found with
      | none => rw [hfd] at hp; simp at hp
      | some w =>
        rw [hfd] at hp
        simp only [Option.map_some, Option.toList_some, List.mem_singleton] at hp
        subst hp
        obtain ⟨_, x, hx, hw, hb⟩ := e6 w hfd
        obtain ⟨k, hk⟩ := hsub x hx
        rw [f2] at hw hb
        exact ⟨t.hp, f1, f3, k, x, hk, hw, hb⟩

theorem fit_next {calls : List Call} {s : Space} {v : Vec} {a : Assign} {nb : Nat → Name → List Rat} {ch : Nat → Nat} :
    ∀ (f : Nat) (st : ExState) (k : Nat), TasksFit calls s a nb st →
      match nextFrom s v nb ch f st k with
      | .running => True
      | .stop st' _ => TasksFit calls s a nb st'
      | .raised _ => True
      | .found st' _ x => TasksFit calls s a nb st' ∧ Given calls s v a nb x
  | 0, _, _, _ => trivial
  | f + 1, st, k, h => by
    unfold nextFrom
    by_cases h0 : st.alive = 0
    · rw [if_pos h0]
      exact h
    rw [if_neg h0]
    cases hs : exchangeStep s v nb st (ch k) with
    | error e => trivial
    | ok st' =>
      obtain ⟨h1, h2⟩ := fit_step h hs
      dsimp only
      cases hd : st'.out.drop st.out.length with
      | nil => exact fit_next f st' (k + 1) h1
      | cons p ps =>
        dsimp only
        by_cases hl : p.2.length ≠ s.len
        · rw [if_pos hl]; trivial
        · rw [if_neg hl]
          exact ⟨h1, h2 p (by rw [hd]; exact List.mem_cons_self)⟩

/-! ## The world -/

/-- Generator `g` reads the array `r`, which represents `a`, and its entries fit to the space as it is. -/
structure Reading (calls : List Call) (a : Assign) (nb : Nat → Name → List Rat) (g r : Nat) (w : Prog) : Prop where
  reach : Reach calls w.space
  arr : ∃ b, w.mem.arrs[r]? = some b ∧ Represents w.space b.data a
  gen : ∃ G st k, w.gens[g]? = some G ∧ G.nb = nb ∧ G.run = some (r, st, k) ∧ TasksFit calls w.space a nb st

theorem reading_resume {calls : List Call} {a : Assign} {nb : Nat → Name → List Rat} {g r : Nat} {w : Prog} (h : Reach calls w.space)
    {b : Arr} (hb : w.mem.arrs[r]? = some b) (hv : Represents w.space b.data a) {G : Reader} {st : ExState} {k : Nat}
    (hG : w.gens[g]? = some G) (hnb : G.nb = nb) (hf : TasksFit calls w.space a nb st) (f : Nat) :
    ((w.resume g G f r st k).2 ≠ .running → Reading calls a nb g r (w.resume g G f r st k).1) ∧
      ∀ v, (w.resume g G f r st k).2 = .config v → Given calls w.space b.data a nb v := by
  have hlt : g < w.gens.length := (List.getElem?_eq_some_iff.1 hG).1
  have key := fit_next (v := b.data) (ch := G.ch) f st k hf
  unfold Prog.resume
  rw [hb, hnb]
  dsimp only
  cases hx : nextFrom w.space b.data nb G.ch f st k with
  | running => exact ⟨fun hh => (hh rfl).elim, fun v hh => by cases hh⟩
  | stop st' k' =>
    rw [hx] at key
    exact ⟨fun _ => ⟨h, ⟨b, hb, hv⟩, _, st', k', List.getElem?_set_self hlt, rfl, rfl, key⟩, fun v hh => by cases hh⟩
  | raised e =>
    exact ⟨fun _ => ⟨h, ⟨b, hb, hv⟩, _, st, k, List.getElem?_set_self hlt, rfl, rfl, hf⟩, fun v hh => by cases hh⟩
  | found st' k' x =>
    rw [hx] at key
    refine ⟨fun _ => ⟨h, ⟨b, arrs_fresh _ _ _ _ hb, hv⟩, _, st', k', List.getElem?_set_self hlt, rfl, rfl, key.1⟩, ?_⟩
    intro v hh
    cases hh
    exact key.2

theorem reading_next {calls : List Call} {a : Assign} {nb : Nat → Name → List Rat} {g r : Nat} {w : Prog}
    (h : Reading calls a nb g r w) (f : Nat) : Reading calls a nb g r (w.next g f).1 ∧
      ∀ v, (w.next g f).2 = .config v → ∃ b, Represents w.space b a ∧ Given calls w.space b a nb v := by
  obtain ⟨b, hb, hv⟩ := h.arr
  obtain ⟨G, st, k, hG, hnb, hrun, hf⟩ := h.gen
  have key := reading_resume h.reach hb hv (k := k) hG hnb hf f
  have hsame : (w.resume g G f r st k).2 = .running → (w.resume g G f r st k).1 = w := by
    unfold Prog.resume
    rw [hb]
    dsimp only
    split <;> intro hh <;> first | rfl | cases hh
  unfold Prog.next
  rw [hG]
  dsimp only
  by_cases hcl : G.closed = true
  · rw [if_pos hcl]
    exact ⟨h, fun v hh => by cases hh⟩
  rw [if_neg hcl, hrun]
  dsimp only
  refine ⟨?_, fun v hh => ⟨b.data, hv, key.2 v hh⟩⟩
  by_cases hr : (w.resume g G f r st k).2 = .running
  · rw [hsame hr]; exact h
  · exact key.1 hr

/-- Adding clauses does not move anything. -/
theorem clauses_keep {calls : List Call} {s s' : Space} {k : Call} (h : Reach calls s) (hk : k.wf) (hh : k.hps = []) (hc : k.conds = [])
    (hadd : s.add k.hps k.conds k.forbs = (s', none)) :
    Reach (calls ++ [k]) s' ∧ s'.len = s.len ∧ s'.names = s.names ∧ ∀ n, s'.idx n = s.idx n := by
  have h' : Reach (calls ++ [k]) s' := .snoc h hk hadd
  obtain ⟨e1, e2⟩ := C04_layout_order_independent h h' (by simp [allHps, hh]) (by simp [allConds, hc])
  have hn : s'.names = s.names := by
    have : s'.names = (s'.com.map Node.hp).map HP.name := by rw [List.map_map]; rfl
    rw [this, ← e1, List.map_map]
    rfl
  refine ⟨h', ?_, hn, fun n => (e2 n).symm⟩
  rw [(sinv_of_reach h').len, (sinv_of_reach h).len]
  have := congrArg List.length e1
  simpa using this.symm

theorem addedBy_cons (b : Act) (as : List Act) : addedBy (b :: as) = (match b with
    | .add k => [k]
    | _ => []) ++ addedBy as := by
  cases b <;> rfl

/-- One step of the program. -/
theorem reading_step {calls : List Call} {a : Assign} {nb : Nat → Name → List Rat} {g r : Nat} {w : Prog}
    (h : Reading calls a nb g r w) {b : Act} (hl : LeavesOrForbids r b) (hok : ∀ e, (w.step b).2 ≠ .added (some e)) :
    Reading (calls ++ addedBy [b]) a nb g r (w.step b).1 := by
  by_cases hn : isNextOf g b = true
  · cases b with
    | next q f =>
      have hq : q = g := by simpa [isNextOf] using hn
      subst hq
      rw [addedBy_cons]
      have h1 : Reading calls a nb q r (w.step (.next q f)).1 := (reading_next h f).1
      simpa [addedBy] using h1
    | mem o => cases hn
    | add c => cases hn
    | neighbourhood c num nb ch => cases hn
  · have hn' : isNextOf g b = false := by simpa using hn
    obtain ⟨x, hx, hv⟩ := h.arr
    obtain ⟨G, st, k, hG, hnb, hrun, hf⟩ := h.gen
    by_cases hadd : ∃ c, b = .add c
    · obtain ⟨c, rfl⟩ := hadd
      obtain ⟨hw, hh, hc⟩ := hl
      have hnone : (w.space.add c.hps c.conds c.forbs).2 = none := by
        cases e : (w.space.add c.hps c.conds c.forbs).2 with
        | none => rfl
        | some e' => exact (hok e' (by show Answer.added _ = _; rw [e])).elim
      obtain ⟨k1, k2, k3, k4⟩ := clauses_keep h.reach hw hh hc (s' := (w.space.add c.hps c.conds c.forbs).1)
        (by rw [← hnone])
      refine ⟨k1, ⟨x, hx, ?_⟩, G, st, k, hG, hnb, hrun, ?_⟩
      · show x.data.length = (w.space.add c.hps c.conds c.forbs).1.len ∧ _
        rw [k2]
        refine ⟨hv.1, fun i n hi => hv.2 i n ?_⟩
        change At (w.space.add c.hps c.conds c.forbs).1.names i n at hi
        rwa [k3] at hi
      · intro t ht
        obtain ⟨f1, f2, f3, f4⟩ := hf t ht
        refine ⟨?_, ?_, f3, f4⟩
        · simp only [allHps, List.flatMap_append, List.mem_append]
          exact .inl f1
        · show t.idx = (w.space.add c.hps c.conds c.forbs).1.idx _
          rw [k4]; exact f2
    · have hl' : Leaves r b := by
        cases b with
        | add c => exact (hadd ⟨c, rfl⟩).elim
        | _ => exact hl
      obtain ⟨h1, h2, h3⟩ := step_other (g := g) hl' hn' hx
      have he : calls ++ addedBy [b] = calls := by
        cases b with
        | add c => exact (hadd ⟨c, rfl⟩).elim
        | _ => simp [addedBy]
      rw [he]
      exact ⟨h1 ▸ h.reach, ⟨x, h2, h1 ▸ hv⟩, G, st, k, h3 G hG, hnb, hrun, h1 ▸ hf⟩

theorem reading_run {a : Assign} {nb : Nat → Name → List Rat} {g r : Nat} : ∀ (as : List Act) {calls : List Call} {w : Prog},
    Reading calls a nb g r w → (∀ b ∈ as, LeavesOrForbids r b) → (∀ p ∈ w.trace as, ∀ e, p.2 ≠ .added (some e)) →
    Reading (calls ++ addedBy as) a nb g r (w.run as)
  | [], calls, w, h, _, _ => by
    have h1 : Reading calls a nb g r (w.run []) := h
    simpa [addedBy] using h1
  | b :: as, calls, w, h, hl, hok => by
    have h1 := reading_step h (hl b List.mem_cons_self) (hok (b, (w.step b).2) List.mem_cons_self)
    have h2 := reading_run as h1 (fun x hx => hl x (List.mem_cons_of_mem _ hx)) (fun p hp => hok p (List.mem_cons_of_mem _ hp))
    have e : calls ++ addedBy (b :: as) = calls ++ addedBy [b] ++ addedBy as := by
      rw [addedBy_cons, List.append_assoc]
      cases b <;> rfl
    rw [e]
    exact h2

/-- Clauses add neither hyperparameters nor conditions. -/
theorem added_nothing {r : Nat} : ∀ {as : List Act}, (∀ b ∈ as, LeavesOrForbids r b) → ∀ calls,
    allHps (calls ++ addedBy as) = allHps calls ∧ allConds (calls ++ addedBy as) = allConds calls := by
  intro as hl calls
  have h0 : ∀ k ∈ addedBy as, k.hps = [] ∧ k.conds = [] := by
    intro k hk
    obtain ⟨b, hb, e⟩ := List.mem_filterMap.1 hk
    cases b with
    | add c =>
      simp only [Option.some.injEq] at e
      subst e
      exact (hl _ hb).2
    | _ => cases e
  constructor
  · simp only [allHps, List.flatMap_append, List.append_right_eq_self, List.flatMap_eq_nil_iff]
    exact fun k hk => (h0 k hk).1
  · simp only [allConds, List.flatMap_append, List.append_right_eq_self, List.flatMap_eq_nil_iff]
    exact fun k hk => (h0 k hk).2

/-- After the first neighbour. -/
theorem reading_first {calls : List Call} {w : Prog} (h : Reach calls w.space) {g f : Nat} {G : Reader}
    (hG : w.gens[g]? = some G) (hrun : G.run = none) {o : CfgObj} (ho : w.mem.cfgs[G.cfg]? = some o) {c : Config}
    (hc : w.mem.cfg? G.cfg = some c) {a : Assign} (hv : Represents w.space c.vec a) {v0 : Vec}
    (h0 : (w.step (.next g f)).2 = .config v0) : Reading calls a G.nb g o.ref (w.step (.next g f)).1 := by
  change (w.next g f).2 = _ at h0
  show Reading calls a G.nb g o.ref (w.next g f).1
  have hc' := hc
  unfold Memory.cfg? at hc'
  rw [ho] at hc'
  dsimp only at hc'
  cases ha : w.mem.arrs[o.ref]? with
  | none => rw [ha] at hc'; cases hc'
  | some b =>
    rw [ha] at hc'
    simp only [Option.some.injEq] at hc'
    have hvec : c.vec = b.data := by rw [← hc']
    unfold Prog.next at h0 ⊢
    rw [hG] at h0 ⊢
    dsimp only at h0 ⊢
    by_cases hcl : G.closed = true
    · rw [if_pos hcl] at h0; cases h0
    rw [if_neg hcl, hrun, ho, hc] at h0 ⊢
    dsimp only at h0 ⊢
    cases hi : exchangeInit w.space c G.num with
    | error e => rw [hi] at h0; cases h0
    | ok st =>
      rw [hi] at h0
      dsimp only at h0 ⊢
      obtain ⟨_, _, _, hts, _⟩ := init_spec (nb := G.nb) (v := c.vec) h hi
      refine (reading_resume h ha (hvec ▸ hv) hG rfl ?_ f).1 (by rw [h0]; simp)
      intro t ht
      obtain ⟨t1, t2, t3, _, t5, _, _, _, t9, _⟩ := hts t ht
      refine ⟨t1, t2, ?_, by rw [t9]; simp⟩
      rw [at_idx hv t3] at t5
      cases hq : a t.hp.name with
      | none => rw [hq] at t5; cases t5
      | some q => exact ⟨q, rfl⟩

/-- **C117.** Clauses that are added while a neighbourhood is being read are respected by what follows: whatever the program did since
the first neighbour (except writing to the array of the configuration and adding hyperparameters or conditions), every further neighbour is
the configuration with one active hyperparameter exchanged, what does not depend on it is as in the configuration, and no clause about
the exchanged hyperparameter, old or added meanwhile, is violated. -/
theorem C117_clauses_added_meanwhile {calls : List Call} {w : Prog} (h : Reach calls w.space) {g f : Nat} {G : Reader}
    (hG : w.gens[g]? = some G) (hrun : G.run = none) {o : CfgObj} (ho : w.mem.cfgs[G.cfg]? = some o) {c : Config}
    (hc : w.mem.cfg? G.cfg = some c) {a : Assign} (hv : Represents w.space c.vec a) {v0 : Vec}
    (h0 : (w.step (.next g f)).2 = .config v0) {as : List Act} (hl : ∀ b ∈ as, LeavesOrForbids o.ref b)
    (hok : ∀ p ∈ (w.step (.next g f)).1.trace as, ∀ e, p.2 ≠ .added (some e)) (hown : OwnClauses (calls ++ addedBy as))
    {f' : Nat} {v : Vec} (hn : (((w.step (.next g f)).1.run as).step (.next g f')).2 = .config v) :
    Reach (calls ++ addedBy as) ((w.step (.next g f)).1.run as).space ∧
    ∃ y ∈ allHps calls, (∃ q, a y.name = some q) ∧ ∃ k x b, x ∈ G.nb k y.name ∧
      Represents ((w.step (.next g f)).1.run as).space v b ∧ b y.name = some x ∧
      (∀ m, Known calls m → m ≠ y.name → ¬ Path (ParentOf calls) y.name m → b m = a m) ∧
      (∀ F ∈ allForbs (calls ++ addedBy as), ClauseOn F y.name → ¬ Forbids b F) := by
  obtain ⟨e1, e2⟩ := added_nothing hl calls
  have hr := reading_run as (reading_first h hG hrun ho hc hv h0) hl hok
  refine ⟨hr.reach, ?_⟩
  obtain ⟨u, hu, y, hy, hset, k, x, hx, hw, hbad⟩ := (reading_next hr f').2 v hn
  have hR := hr.reach
  generalize ((w.step (.next g f)).1.run as).space = s at hu hw hbad hR ⊢
  have hyn : y.name ∈ s.names := (reach_isNode hR _).2 ⟨y, hy, rfl⟩
  have hb := represents_asg hR (v := v) (by rw [hw, changeHp_length]; exact hu.1)
  refine ⟨y, e1 ▸ hy, hset, k, x, asg s.idx v, hx, hb, ?_, ?_, ?_⟩
  · rw [hw]; exact changeHp_at hR hu.1 hyn
  · intro m hm hne hp
    have hm' : Known (calls ++ addedBy as) m := by
      unfold Known at hm ⊢
      rwa [e1]
    have hp' : ¬ Path (ParentOf (calls ++ addedBy as)) y.name m := by
      have : ParentOf (calls ++ addedBy as) = ParentOf calls := by
        funext p q
        unfold ParentOf
        rw [e2]
      rwa [this]
    have hmn := (reach_isNode hR m).2 hm'
    rw [← at_idx hu hmn, hw]
    exact changeHp_other hR hu.1 hyn hmn hne hp'
  · intro F hF hon hforb
    have := (lookup_forbids hR hown hb y.name).2 ⟨F, hF, hon, hforb⟩
    unfold exBad at hbad
    rw [← hw, this] at hbad
    cases hbad

namespace ExMw

/-- A clause against the highest value of the ordinal hyperparameter of the two-call example. -/
def noHigh : Call := { forbs := [.eq ⟨"o", .ord [.str "lo", .str "mid", .str "hi"], .str "mid"⟩ (.str "hi") 2] }

/-- The program adds the clause, assigns to the configuration and reads on. -/
def acts : List Act := [.add noHigh, .mem (.set 0 "k" (.int 1)), .next 0 9]

theorem first : ((ExPa.w0.step ExPa.ask).1.step (.next 0 9)).2 = .config [some 0, some 1, some 0, some 1, none] := by decide +kernel

theorem added : ((((ExPa.w0.step ExPa.ask).1.step (.next 0 9)).1.trace acts).map Prod.snd).all (fun x => match x with
    | .added (some _) => false
    | _ => true) = true := by decide +kernel

theorem own : OwnClauses ([Ex.call1, Ex.call2] ++ addedBy acts) := by
  unfold OwnClauses
  decide +kernel

end ExMw

/-- Without the clause the second neighbour has the highest value (`ExPa.atOnce`), with the clause none has. -/
example : answersOf 0 (ExPa.w0.trace (ExPa.ask :: .next 0 9 :: .add ExMw.noHigh :: List.replicate 5 (.next 0 9))) =
    [.config [some 0, some 1, some 0, some 1, none], .config [some 0, some 1, some (2/9), some 0, some (1/2)],
      .config [some 0, some 1, some (2/9), some 1, some 0], .config [some 0, some 1, some 1, some 1, some (1/2)],
      .config [some 0, some 1, some (2/9), some 1, some 1], .stop] := by
  decide +kernel

/-- The theorem for this program, at the third neighbour. -/
example : ∃ y ∈ allHps [Ex.call1, Ex.call2], ∃ b, Represents ((((ExPa.w0.step ExPa.ask).1.step (.next 0 9)).1.run ExMw.acts)).space
      [some 0, some 1, some (2/9), some 1, some 0] b ∧
    ∀ F ∈ allForbs ([Ex.call1, Ex.call2] ++ [ExMw.noHigh]), ClauseOn F y.name → ¬ Forbids b F := by
  obtain ⟨_, y, hy, _, _, _, b, _, hb, _, _, hF⟩ := C117_clauses_added_meanwhile (w := (ExPa.w0.step ExPa.ask).1) (calls := [Ex.call1, Ex.call2])
    Ex.reach2 (g := 0) (f := 9) (G := { cfg := 0, num := 2, nb := Ex.nb2, ch := ExPa.ch2 }) rfl rfl
    (o := { ref := 0, vals := Ex.cfg2.vals }) rfl (c := Ex.cfg2) rfl (represents_asg Ex.reach2 (v := Ex.cfg2.vec) (by decide +kernel))
    ExMw.first (as := ExMw.acts) (by
      intro x hx
      simp only [ExMw.acts, List.mem_cons, List.not_mem_nil, or_false] at hx
      rcases hx with rfl | rfl | rfl
      · exact ⟨by decide +kernel, rfl, rfl⟩
      · exact trivial
      · exact trivial)
    (by
      intro p hp e he
      have := List.all_eq_true.1 ExMw.added p.2 (List.mem_map.2 ⟨p, hp, rfl⟩)
      rw [he] at this
      cases this) ExMw.own (f' := 9) (v := [some 0, some 1, some (2/9), some 1, some 0]) (by decide +kernel)
  exact ⟨y, hy, b, hb, hF⟩

namespace ExMw

def a : HP := ⟨"a", .cat [.str "x", .str "y"], .str "x"⟩
def b : HP := ⟨"b", .cat [.str "p", .str "q", .str "r"], .str "p"⟩
def call0 : Call := { hps := [a, b] }
def s0 : Space := Ex.committed {} call0

/-- A space with two choices, and its default configuration. -/
def w0 : Prog := { space := s0, mem := { arrs := [⟨.float, [some 0, some 0]⟩], cfgs := [{ ref := 0, vals := none }] } }

/-- The other choices of each. -/
def nb (_ : Nat) (n : Name) : List Rat := if n = "a" then [1] else [1, 2]
def ch (k : Nat) : Nat := [1, 0, 1].getD k 0

/-- `a` is active if `b` is `p`: now `b` comes before `a`. -/
def cond : Call := { conds := [.lit ⟨a, b, .bin .eq (.str "p") 0⟩] }

theorem reach0 : Reach [call0] s0 :=
  Reach.snoc (calls := []) .nil (by decide +kernel)
    (Ex.add_of_stages [("a", some (.str "x")), ("b", some (.str "p"))] [some 0, some 0] [("a", .str "x"), ("b", .str "p")]
      (by decide +kernel) (by decide +kernel) (by decide +kernel) (by decide +kernel) (by decide +kernel) (by decide +kernel))

end ExMw

/-- **C117**, false of the code for conditions that are added meanwhile: the generator keeps the positions that the hyperparameters had
when it started.  Here `b` comes before `a` since the condition was added; the value `r` proposed for `b` is then written to the entry of
`a`, which has only two choices, and the configuration that is given is rejected by the check. -/
theorem C117_condition_added_meanwhile :
    Reach [ExMw.call0] ExMw.w0.space ∧
    (ExMw.w0.trace [.neighbourhood 0 2 ExMw.nb ExMw.ch, .next 0 9, .add ExMw.cond, .next 0 9, .next 0 9]).map Prod.snd =
      [.generator, .config [some 0, some 1], .added none, .config [some 1, some 0], .config [some 0, some 2]] ∧
    ((ExMw.w0.step (.add ExMw.cond)).1.space.check [some 1, some 0]).isSome = true ∧
    ((ExMw.w0.step (.add ExMw.cond)).1.space.check [some 0, some 2]).isSome = true :=
  ⟨ExMw.reach0, by decide +kernel, by decide +kernel, by decide +kernel⟩

end Verif
