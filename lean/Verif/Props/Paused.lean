import Verif.Model.Paused
import Verif.Props.Heap
import Verif.Props.Exchange

/-!
# C117: a neighbourhood that is read step by step is not disturbed
-/

set_option autoImplicit false

namespace Verif

namespace Spec

/-- The step is `next` on generator `g`. -/
def isNextOf (g : Nat) : Act → Bool
  | .next h _ => h == g
  | _ => false

/-- What `next` on generator `g` answered in a program. -/
def answersOf (g : Nat) (t : List (Act × Answer)) : List Answer := (t.filter (fun p => isNextOf g p.1)).map Prod.snd

/-- The vectors of the configurations among some answers. -/
def configsIn (l : List Answer) : List Vec := l.filterMap (fun a => match a with
  | .config v => some v
  | _ => none)

/-- The step neither writes to array `r` nor adds to the space. -/
def Leaves (r : Nat) : Act → Prop
  | .mem (.write q _ _) => q ≠ r
  | .add _ => False
  | _ => True

/-- Generator `g` has started, and the array of its configuration was array `r`. -/
def Bound (w : Prog) (g r : Nat) : Prop :=
  (∃ a, w.mem.arrs[r]? = some a) ∧ ∃ G st k, w.gens[g]? = some G ∧ G.run = some (r, st, k)

end Spec

open Spec

/-! ## Two worlds that a generator cannot tell apart -/

/-- Same space, same generator, same array. -/
structure SameFor (g r : Nat) (w w' : Prog) : Prop where
  space : w.space = w'.space
  gen : w.gens[g]? = w'.gens[g]?
  arr : w.mem.arrs[r]? = w'.mem.arrs[r]?
  bound : Bound w g r

theorem arrs_fresh (m : Memory) (a : Arr) (l : Option (List (Name × Val))) (al : Bool) {r : Nat} {b : Arr} (h : m.arrs[r]? = some b) :
    (m.fresh a l al).arrs[r]? = some b := by
  show (m.arrs ++ [a])[r]? = some b
  rw [List.getElem?_append_left (List.getElem?_eq_some_iff.1 h).1, h]

theorem resume_space (w : Prog) (g : Nat) (G : Reader) (fuel r : Nat) (st : ExState) (k : Nat) :
    (w.resume g G fuel r st k).1.space = w.space := by
  unfold Prog.resume
  split
  · rfl
  · split <;> rfl

theorem next_space (w : Prog) (g fuel : Nat) : (w.next g fuel).1.space = w.space := by
  unfold Prog.next
  split
  · rfl
  · split
    · rfl
    · split
      · exact resume_space ..
      · split
        · split
          · rfl
          · exact resume_space ..
        · rfl

theorem resume_arrs (w : Prog) (g : Nat) (G : Reader) (fuel q : Nat) (st : ExState) (k : Nat) {r : Nat} {a : Arr}
    (h : w.mem.arrs[r]? = some a) : (w.resume g G fuel q st k).1.mem.arrs[r]? = some a := by
  unfold Prog.resume
  split
  · exact h
  · split
    · exact h
    · exact h
    · exact h
    · exact arrs_fresh _ _ _ _ h

theorem next_arrs (w : Prog) (g fuel : Nat) {r : Nat} {a : Arr} (h : w.mem.arrs[r]? = some a) :
    (w.next g fuel).1.mem.arrs[r]? = some a := by
  unfold Prog.next
  split
  · exact h
  · split
    · exact h
    · split
      · exact resume_arrs _ _ _ _ _ _ _ h
      · split
        · split
          · exact h
          · exact resume_arrs _ _ _ _ _ _ _ h
        · exact h

theorem resume_gens (w : Prog) {h : Nat} (G : Reader) (fuel q : Nat) (st : ExState) (k : Nat) {g : Nat} (hg : h ≠ g) :
    (w.resume h G fuel q st k).1.gens[g]? = w.gens[g]? := by
  unfold Prog.resume
  split
  · rfl
  · split
    · rfl
    · exact List.getElem?_set_ne hg
    · exact List.getElem?_set_ne hg
    · exact List.getElem?_set_ne hg

theorem next_gens (w : Prog) {h : Nat} (fuel : Nat) {g : Nat} (hg : h ≠ g) : (w.next h fuel).1.gens[g]? = w.gens[g]? := by
  unfold Prog.next
  split
  · rfl
  · split
    · rfl
    · split
      · exact resume_gens w _ _ _ _ _ hg
      · split
        · split
          · exact List.getElem?_set_ne hg
          · exact resume_gens w _ _ _ _ _ hg
        · rfl

theorem mem_arrs (s : Space) (m : Memory) (o : Op) {r : Nat} {a : Arr} (ho : ∀ q i e, o = .write q i e → q ≠ r)
    (h : m.arrs[r]? = some a) : (m.step s o).1.arrs[r]? = some a := by
  by_cases hw : ∃ q i e, o = .write q i e
  · obtain ⟨q, i, e, rfl⟩ := hw
    have hq := ho q i e rfl
    show (m.write q i e).1.arrs[r]? = some a
    unfold Memory.write
    split
    · exact h
    · split
      · exact h
      · split
        · exact h
        · show (m.arrs.set q _)[r]? = some a
          rw [List.getElem?_set_ne hq, h]
  · exact C88_arrays_kept (s := s) m o (fun q i e hh => hw ⟨q, i, e, hh⟩) r a h

/-- Steps that leave array `r` alone and are not steps of generator `g`. -/
theorem step_other {w : Prog} {g r : Nat} {a : Act} (hl : Leaves r a) (hn : isNextOf g a = false) {b : Arr}
    (hb : w.mem.arrs[r]? = some b) :
    (w.step a).1.space = w.space ∧ (w.step a).1.mem.arrs[r]? = some b ∧ ∀ G, w.gens[g]? = some G → (w.step a).1.gens[g]? = some G := by
  cases a with
  | mem o =>
    refine ⟨rfl, mem_arrs _ _ _ ?_ hb, fun G h => h⟩
    intro q i e he
    subst he
    exact hl
  | add c => exact hl.elim
  | neighbourhood c num nb ch =>
    refine ⟨rfl, hb, fun G h => ?_⟩
    show (w.gens ++ [_])[g]? = some G
    rw [List.getElem?_append_left (List.getElem?_eq_some_iff.1 h).1, h]
  | next h f =>
    have hg : h ≠ g := by simpa [isNextOf] using hn
    exact ⟨next_space _ _ _, next_arrs _ _ _ hb, fun G hG => (next_gens w f hg).trans hG⟩

/-- A started generator goes on alike in both worlds. -/
theorem next_same {w w' : Prog} {g r : Nat} (h : SameFor g r w w') (f : Nat) :
    (w.next g f).2 = (w'.next g f).2 ∧ SameFor g r (w.next g f).1 (w'.next g f).1 := by
  obtain ⟨⟨a, ha⟩, G, st, k, hG, hrun⟩ := h.bound
  have hG' : w'.gens[g]? = some G := h.gen ▸ hG
  have ha' : w'.mem.arrs[r]? = some a := h.arr ▸ ha
  have hlt : g < w.gens.length := (List.getElem?_eq_some_iff.1 hG).1
  have hlt' : g < w'.gens.length := (List.getElem?_eq_some_iff.1 hG').1
  unfold Prog.next
  rw [hG, hG']
  dsimp only
  by_cases hcl : G.closed = true
  · rw [if_pos hcl, if_pos hcl]
    exact ⟨rfl, h⟩
  rw [if_neg hcl, if_neg hcl, hrun]
  dsimp only
  unfold Prog.resume
  rw [ha, ha', ← h.space]
  dsimp only
  cases nextFrom w.space a.data G.nb G.ch f st k with
  | running => exact ⟨rfl, h⟩
  | stop st' k' =>
    exact ⟨rfl, rfl, by simp [hlt, hlt'], h.arr, ⟨a, ha⟩, _, st', k', List.getElem?_set_self hlt, rfl⟩
  | raised e =>
    exact ⟨rfl, rfl, by simp [hlt, hlt'], h.arr, ⟨a, ha⟩, _, st, k, List.getElem?_set_self hlt, rfl⟩
  | found st' k' v =>
    refine ⟨rfl, rfl, by simp [hlt, hlt'], ?_, ⟨a, arrs_fresh _ _ _ _ ha⟩, _, st', k', List.getElem?_set_self hlt, rfl⟩
    rw [arrs_fresh _ _ _ _ ha, arrs_fresh _ _ _ _ ha']

theorem answersOf_cons_next {w : Prog} {g : Nat} {a : Act} (as : List Act) (h : isNextOf g a = true) :
    answersOf g (w.trace (a :: as)) = (w.step a).2 :: answersOf g ((w.step a).1.trace as) := by
  simp [answersOf, Prog.trace, h]

theorem answersOf_cons_other {w : Prog} {g : Nat} {a : Act} (as : List Act) (h : isNextOf g a = false) :
    answersOf g (w.trace (a :: as)) = answersOf g ((w.step a).1.trace as) := by
  simp [answersOf, Prog.trace, h]

theorem same_answers {g r : Nat} : ∀ (as : List Act) {w w' : Prog}, SameFor g r w w' → (∀ a ∈ as, Leaves r a) →
    answersOf g (w.trace as) = answersOf g (w'.trace (as.filter (isNextOf g)))
  | [], _, _, _, _ => rfl
  | a :: as, w, w', h, hl => by
    have hl' : ∀ b ∈ as, Leaves r b := fun b hb => hl b (List.mem_cons_of_mem _ hb)
    by_cases hn : isNextOf g a = true
    · rw [List.filter_cons_of_pos hn, answersOf_cons_next _ hn, answersOf_cons_next _ hn]
      cases a with
      | next q f =>
        have hq : q = g := by simpa [isNextOf] using hn
        subst hq
        obtain ⟨h1, h2⟩ := next_same h f
        show (w.next q f).2 :: _ = (w'.next q f).2 :: _
        rw [h1]
        congr 1
        exact same_answers as h2 hl'
      | mem o => cases hn
      | add c => cases hn
      | neighbourhood c num nb ch => cases hn
    · have hn' : isNextOf g a = false := by simpa using hn
      rw [List.filter_cons_of_neg hn, answersOf_cons_other _ hn']
      obtain ⟨⟨b, hb⟩, G, st, k, hG, hrun⟩ := h.bound
      obtain ⟨h1, h2, h3⟩ := step_other (g := g) (hl a List.mem_cons_self) hn' hb
      refine same_answers as ⟨h1.trans h.space, ?_, ?_, ⟨b, h2⟩, G, st, k, h3 G hG, hrun⟩ hl'
      · rw [h3 G hG, ← h.gen, hG]
      · rw [h2, ← h.arr, hb]

/-- **C117**: once a neighbourhood has given its first configuration, what else the program does between two calls of `next` (assigning to
this and other configurations, reading and writing other arrays, making and reading other neighbourhoods) changes none of its answers: they
are those that the calls of `next` alone would have got.  Only writes to the very array of the configuration, and adding to the space, are
excluded. -/
theorem C117_as_if_alone {w : Prog} {g r : Nat} (hb : Bound w g r) {as : List Act} (hl : ∀ a ∈ as, Leaves r a) :
    answersOf g (w.trace as) = answersOf g (w.trace (as.filter (isNextOf g))) :=
  same_answers as ⟨rfl, rfl, rfl, hb⟩ hl

/-- The first `next` that gives a configuration binds the array that the configuration has at that moment. -/
theorem C117_first_next {w : Prog} {g f : Nat} {G : Reader} (hG : w.gens[g]? = some G) (hrun : G.run = none) {o : CfgObj}
    (ho : w.mem.cfgs[G.cfg]? = some o) {v : Vec} (h : (w.step (.next g f)).2 = .config v) : Bound (w.step (.next g f)).1 g o.ref := by
  have hlt : g < w.gens.length := (List.getElem?_eq_some_iff.1 hG).1
  change (w.next g f).2 = _ at h
  show Bound (w.next g f).1 g o.ref
  unfold Prog.next at h ⊢
  rw [hG] at h ⊢
  dsimp only at h ⊢
  by_cases hcl : G.closed = true
  · rw [if_pos hcl] at h; cases h
  rw [if_neg hcl, hrun] at h ⊢
  dsimp only at h ⊢
  rw [ho] at h ⊢
  cases hc : w.mem.cfg? G.cfg with
  | none => rw [hc] at h; cases h
  | some c =>
    rw [hc] at h
    dsimp only at h ⊢
    cases hi : exchangeInit w.space c G.num with
    | error e => rw [hi] at h; cases h
    | ok st =>
      rw [hi] at h
      dsimp only at h ⊢
      unfold Prog.resume at h ⊢
      cases ha : w.mem.arrs[o.ref]? with
      | none => rw [ha] at h; cases h
      | some a =>
        rw [ha] at h
        dsimp only at h ⊢
        cases hx : nextFrom w.space a.data G.nb G.ch f st 0 with
        | running => rw [hx] at h; cases h
        | stop st' k' => rw [hx] at h; cases h
        | raised e => rw [hx] at h; cases h
        | found st' k' x => exact ⟨⟨a, arrs_fresh _ _ _ _ ha⟩, _, st', k', List.getElem?_set_self hlt, rfl⟩

/-! ## What the answers are -/

theorem exchangeRun_append {s : Space} {v : Vec} {nb : Nat → Name → List Rat} : ∀ (xs ys : List Nat) (st : ExState),
    exchangeRun s v nb (xs ++ ys) st = (match exchangeRun s v nb xs st with
      | .error e => .error e
      | .ok st' => exchangeRun s v nb ys st')
  | [], _, _ => rfl
  | x :: xs, ys, st => by
    simp only [List.cons_append, exchangeRun]
    by_cases h0 : st.alive = 0
    · rw [if_pos h0, if_pos h0]
      cases ys with
      | nil => rfl
      | cons y ys => simp only [exchangeRun, h0, if_true]
    · rw [if_neg h0, if_neg h0]
      cases exchangeStep s v nb st x with
      | error e => rfl
      | ok st' => exact exchangeRun_append xs ys st'

theorem exchangeStep_out {s : Space} {v : Vec} {nb : Nat → Name → List Rat} {st st' : ExState} {i : Nat}
    (h : exchangeStep s v nb st i = .ok st') : ∃ l : Option (Name × Vec), st'.out = st.out ++ l.toList := by
  unfold exchangeStep at h
  split at h
  · cases h; exact ⟨none, by simp⟩
  · split at h
    · cases h; exact ⟨none, by simp⟩
    · split at h
      · cases h
      · rename_i t _ _ _ r _
        cases h
        exact ⟨r.found.map (fun w => (t.hp.name, w)), rfl⟩

/-- The draws from number `k` on. -/
theorem map_range_succ (ch : Nat → Nat) (k : Nat) : (List.range (k + 1)).map ch = (List.range k).map ch ++ [ch k] := by
  rw [List.range_succ, List.map_append]; rfl

theorem nextFrom_run {s : Space} {v : Vec} {nb : Nat → Name → List Rat} {ch : Nat → Nat} {st0 : ExState} :
    ∀ (f : Nat) (st : ExState) (k : Nat), exchangeRun s v nb ((List.range k).map ch) st0 = .ok st →
      match nextFrom s v nb ch f st k with
      | .running => True
      | .stop st' k' => exchangeRun s v nb ((List.range k').map ch) st0 = .ok st' ∧ st'.out = st.out ∧ st'.alive = 0
      | .raised _ => True
      | .found st' k' x => exchangeRun s v nb ((List.range k').map ch) st0 = .ok st' ∧ st'.out.map Prod.snd = st.out.map Prod.snd ++ [x]
  | 0, _, _, _ => trivial
  | f + 1, st, k, h => by
    unfold nextFrom
    by_cases h0 : st.alive = 0
    · rw [if_pos h0]
      exact ⟨h, rfl, h0⟩
    rw [if_neg h0]
    cases hs : exchangeStep s v nb st (ch k) with
    | error e => trivial
    | ok st' =>
      have hrun : exchangeRun s v nb ((List.range (k + 1)).map ch) st0 = .ok st' := by
        rw [map_range_succ, exchangeRun_append, h]
        simp only [exchangeRun, if_neg h0, hs]
      obtain ⟨l, hl⟩ := exchangeStep_out hs
      dsimp only
      rw [hl, List.drop_left]
      cases l with
      | none =>
        have ho : st'.out = st.out := by simpa using hl
        have ih := nextFrom_run f st' (k + 1) hrun
        dsimp only [Option.toList]
        cases hx : nextFrom s v nb ch f st' (k + 1) with
        | running => trivial
        | stop a b => rw [hx] at ih; exact ⟨ih.1, ih.2.1.trans ho, ih.2.2⟩
        | raised e => trivial
        | found a b c => rw [hx] at ih; exact ⟨ih.1, ih.2.trans (by rw [ho])⟩
      | some p =>
        dsimp only [Option.toList]
        by_cases hp : p.2.length ≠ s.len
        · rw [if_pos hp]; trivial
        · rw [if_neg hp]
          exact ⟨hrun, by rw [hl]; simp⟩

/-- What generator `g` has given so far is what the loop has given. -/
structure Progress (s : Space) (v : Vec) (g r : Nat) (st0 : ExState) (G0 : Reader) (w : Prog) (given : List Answer) : Prop where
  space : w.space = s
  arr : ∃ a, w.mem.arrs[r]? = some a ∧ a.data = v
  gen : ∃ G st k, w.gens[g]? = some G ∧ G.run = some (r, st, k) ∧ G.nb = G0.nb ∧ G.ch = G0.ch ∧
    exchangeRun s v G0.nb ((List.range k).map G0.ch) st0 = .ok st ∧ configsIn given = st.out.map Prod.snd ∧
    (G.closed = true → (∀ e, .raised e ∉ given) → st.alive = 0) ∧ (.stop ∈ given → G.closed = true)

theorem configsIn_append (l : List Answer) (a : Answer) : configsIn (l ++ [a]) = configsIn l ++ configsIn [a] := by
  simp [configsIn, List.filterMap_append]

theorem progress_resume {s : Space} {v : Vec} {g r : Nat} {st0 : ExState} {G0 : Reader} {w : Prog} {given : List Answer} {a : Arr}
    (hs : w.space = s) (ha : w.mem.arrs[r]? = some a) (hv : a.data = v) {G : Reader} (hG : w.gens[g]? = some G) (hnb : G.nb = G0.nb)
    (hch : G.ch = G0.ch) (hopen : G.closed = false) {st : ExState} {k : Nat}
    (hr : exchangeRun s v G0.nb ((List.range k).map G0.ch) st0 = .ok st) (hgiv : configsIn given = st.out.map Prod.snd)
    (hns : .stop ∉ given) (fuel : Nat) (hnr : (w.resume g G fuel r st k).2 ≠ .running) :
    Progress s v g r st0 G0 (w.resume g G fuel r st k).1 (given ++ [(w.resume g G fuel r st k).2]) := by
  have hlt : g < w.gens.length := (List.getElem?_eq_some_iff.1 hG).1
  have key := nextFrom_run (ch := G0.ch) fuel st k hr
  unfold Prog.resume at hnr ⊢
  rw [ha] at hnr ⊢
  dsimp only at hnr ⊢
  rw [hs, hv, hnb, hch] at hnr ⊢
  cases hx : nextFrom s v G0.nb G0.ch fuel st k with
  | running => rw [hx] at hnr; exact (hnr rfl).elim
  | stop st' k' =>
    rw [hx] at key
    refine ⟨rfl, ⟨a, ha, hv⟩, _, st', k', List.getElem?_set_self hlt, rfl, rfl, rfl, key.1, ?_, fun _ _ => key.2.2, fun _ => rfl⟩
    rw [configsIn_append, hgiv, key.2.1]
    simp [configsIn]
  | raised e =>
    refine ⟨rfl, ⟨a, ha, hv⟩, _, st, k, List.getElem?_set_self hlt, rfl, rfl, rfl, hr, ?_, fun _ h => (h e (by simp)).elim, fun _ => rfl⟩
    rw [configsIn_append, hgiv]
    simp [configsIn]
  | found st' k' x =>
    rw [hx] at key
    refine ⟨rfl, ⟨a, arrs_fresh _ _ _ _ ha, hv⟩, _, st', k', List.getElem?_set_self hlt, rfl, rfl, rfl, key.1, ?_, ?_, ?_⟩
    · rw [configsIn_append, hgiv, key.2]
      simp [configsIn]
    · intro h
      change G.closed = true at h
      rw [hopen] at h; cases h
    · intro h
      simp only [List.mem_append, List.mem_singleton] at h
      rcases h with h | h
      · exact (hns h).elim
      · cases h

theorem progress_next {s : Space} {v : Vec} {g r : Nat} {st0 : ExState} {G0 : Reader} {w : Prog} {given : List Answer}
    (h : Progress s v g r st0 G0 w given) (f : Nat) (hnr : (w.next g f).2 ≠ .running) :
    Progress s v g r st0 G0 (w.next g f).1 (given ++ [(w.next g f).2]) := by
  obtain ⟨a, ha, hv⟩ := h.arr
  obtain ⟨G, st, k, hG, hrun, hnb, hch, hx, hgiv, hclosed, hstop⟩ := h.gen
  unfold Prog.next at hnr ⊢
  rw [hG] at hnr ⊢
  dsimp only at hnr ⊢
  by_cases hcl : G.closed = true
  · rw [if_pos hcl]
    refine ⟨h.space, h.arr, G, st, k, hG, hrun, hnb, hch, hx, ?_, fun _ hne => hclosed hcl (fun e he => hne e (by simp [he])), fun _ => hcl⟩
    rw [configsIn_append, hgiv]
    simp [configsIn]
  · rw [if_neg hcl, hrun] at hnr ⊢
    exact progress_resume h.space ha hv hG hnb hch (by simpa using hcl) hx hgiv (fun hh => hcl (hstop hh)) f hnr

theorem progress_trace {s : Space} {v : Vec} {g r : Nat} {st0 : ExState} {G0 : Reader} : ∀ (as : List Act) {w : Prog} {given : List Answer},
    Progress s v g r st0 G0 w given → (∀ a ∈ as, Leaves r a) → .running ∉ answersOf g (w.trace as) →
    ∃ w', Progress s v g r st0 G0 w' (given ++ answersOf g (w.trace as))
  | [], w, given, h, _, _ => ⟨w, by simpa [answersOf, Prog.trace] using h⟩
  | a :: as, w, given, h, hl, hnr => by
    have hl' : ∀ b ∈ as, Leaves r b := fun b hb => hl b (List.mem_cons_of_mem _ hb)
    by_cases hn : isNextOf g a = true
    · rw [answersOf_cons_next _ hn] at hnr ⊢
      cases a with
      | next q f =>
        have hq : q = g := by simpa [isNextOf] using hn
        subst hq
        have hp := progress_next h f (fun hh => hnr (by
          have : (w.step (.next q f)).2 = .running := hh
          simp [this]))
        obtain ⟨w', hw'⟩ := progress_trace as hp hl' (fun hh => hnr (List.mem_cons_of_mem _ hh))
        refine ⟨w', ?_⟩
        rw [List.append_assoc] at hw'
        exact hw'
      | mem o => cases hn
      | add c => cases hn
      | neighbourhood c num nb ch => cases hn
    · have hn' : isNextOf g a = false := by simpa using hn
      rw [answersOf_cons_other _ hn'] at hnr ⊢
      obtain ⟨b, hb, hv⟩ := h.arr
      obtain ⟨h1, h2, h3⟩ := step_other (g := g) (hl a List.mem_cons_self) hn' hb
      obtain ⟨G, st, k, hG, rest⟩ := h.gen
      exact progress_trace as ⟨h1.trans h.space, ⟨b, h2, hv⟩, G, st, k, h3 G hG, rest⟩ hl' hnr

/-- **C117**: the configurations that a program reads from a neighbourhood, whatever else it does in between (but for writes to the very
array of the configuration, and adding to the space), are those of the one-exchange neighbourhood of the configuration as it was at the
first `next`, in their order; if the neighbourhood has ended without an exception, all of them. -/
theorem C117_configurations {w : Prog} {g f : Nat} {G : Reader} (hG : w.gens[g]? = some G) (hrun : G.run = none) (hopen : G.closed = false)
    {o : CfgObj} (ho : w.mem.cfgs[G.cfg]? = some o) {c : Config} (hc : w.mem.cfg? G.cfg = some c) {as : List Act}
    (hl : ∀ a ∈ as, Leaves o.ref a) (hret : .running ∉ answersOf g (w.trace (.next g f :: as))) :
    (∃ e, (w.step (.next g f)).2 = .raised e ∧ oneExchange w.space c G.num G.nb [] = .error e) ∨
    ∃ n st, oneExchange w.space c G.num G.nb ((List.range n).map G.ch) = .ok st ∧
      configsIn (answersOf g (w.trace (.next g f :: as))) = st.out.map Prod.snd ∧
      (.stop ∈ answersOf g (w.trace (.next g f :: as)) → (∀ e, .raised e ∉ answersOf g (w.trace (.next g f :: as))) → st.alive = 0) := by
  have hn : isNextOf g (.next g f) = true := by simp [isNextOf]
  rw [answersOf_cons_next _ hn] at hret ⊢
  have hfirst : (w.next g f).2 ≠ .running := fun hh => hret (by
    have : (w.step (.next g f)).2 = .running := hh
    simp [this])
  have hvec : ∃ a, w.mem.arrs[o.ref]? = some a ∧ a.data = c.vec := by
    unfold Memory.cfg? at hc
    rw [ho] at hc
    dsimp only at hc
    cases ha : w.mem.arrs[o.ref]? with
    | none => rw [ha] at hc; cases hc
    | some a => rw [ha] at hc; cases hc; exact ⟨a, rfl, rfl⟩
  obtain ⟨a, ha, hav⟩ := hvec
  cases hi : exchangeInit w.space c G.num with
  | error e =>
    refine .inl ⟨e, ?_, by unfold oneExchange; rw [hi]⟩
    show (w.next g f).2 = _
    unfold Prog.next
    rw [hG]
    dsimp only
    rw [if_neg (by simp [hopen]), hrun]
    dsimp only
    rw [ho, hc]
    dsimp only
    rw [hi]
  | ok st0 =>
    right
    have e1 : w.next g f = w.resume g G f o.ref st0 0 := by
      unfold Prog.next
      rw [hG]
      dsimp only
      rw [if_neg (by simp [hopen]), hrun]
      dsimp only
      rw [ho, hc]
      dsimp only
      rw [hi]
    have hout : st0.out = [] := by
      unfold exchangeInit at hi
      split at hi
      · cases hi
      · split at hi
        · cases hi
        · cases hi; rfl
    have hp := progress_resume (given := []) (st0 := st0) (G0 := G) rfl ha hav hG rfl rfl hopen (st := st0) (k := 0) rfl (by
      rw [hout]; rfl) (by simp) f (e1 ▸ hfirst)
    rw [← e1] at hp
    obtain ⟨w', hw'⟩ := progress_trace as hp hl (fun hh => hret (List.mem_cons_of_mem _ hh))
    obtain ⟨G', st, k, _, _, _, _, hx, hgiv, hcl, hst⟩ := hw'.gen
    refine ⟨k, st, ?_, hgiv, fun h1 h2 => hcl (hst h1) h2⟩
    unfold oneExchange
    rw [hi]
    exact hx

/-! ## What reading a neighbourhood does to the rest of the program -/

theorem cfg_fresh {m : Memory} {a : Arr} {l : Option (List (Name × Val))} {al : Bool} {i : Nat} {c : Config} (h : m.cfg? i = some c) :
    (m.fresh a l al).cfg? i = some c := by
  unfold Memory.cfg? at h ⊢
  cases ho : m.cfgs[i]? with
  | none => rw [ho] at h; cases h
  | some o =>
    rw [ho] at h
    dsimp only at h
    have e : (m.fresh a l al).cfgs[i]? = some o := by
      show (m.cfgs ++ [_])[i]? = some o
      rw [List.getElem?_append_left (List.getElem?_eq_some_iff.1 ho).1, ho]
    rw [e]
    dsimp only
    cases ha : m.arrs[o.ref]? with
    | none => rw [ha] at h; cases h
    | some b => rw [ha] at h; rw [arrs_fresh _ _ _ _ ha]; exact h

theorem resume_answer (w : Prog) (g : Nat) (G : Reader) (fuel r : Nat) (st : ExState) (k : Nat) :
    (w.resume g G fuel r st k).1.mem = (match (w.resume g G fuel r st k).2 with
      | .config v => w.mem.fresh ⟨.float, v⟩ none false
      | _ => w.mem) := by
  unfold Prog.resume
  split
  · rfl
  · split <;> rfl

theorem next_answer (w : Prog) (g fuel : Nat) :
    (w.next g fuel).1.mem = (match (w.next g fuel).2 with
      | .config v => w.mem.fresh ⟨.float, v⟩ none false
      | _ => w.mem) := by
  unfold Prog.next
  split
  · rfl
  · split
    · rfl
    · split
      · exact resume_answer ..
      · split
        · split
          · rfl
          · exact resume_answer ..
        · rfl

/-- **C117**: `next` leaves the space, every array and every configuration as they are.  A configuration that it gives is new, has the
given vector, and refers to an array of its own: no configuration that was there before refers to that array. -/
theorem C117_next_disturbs_nothing (w : Prog) (g f : Nat) :
    (w.step (.next g f)).1.space = w.space ∧
    (∀ (r : Nat) (a : Arr), w.mem.arrs[r]? = some a → (w.step (.next g f)).1.mem.arrs[r]? = some a) ∧
    (∀ i c, w.mem.cfg? i = some c → (w.step (.next g f)).1.mem.cfg? i = some c) ∧
    ∀ v, (w.step (.next g f)).2 = .config v → (w.step (.next g f)).1.mem.cfg? w.mem.cfgs.length = some { vec := v } ∧
      ∃ o, (w.step (.next g f)).1.mem.cfgs[w.mem.cfgs.length]? = some o ∧
        ∀ (i : Nat) (k : CfgObj) (c : Config), w.mem.cfg? i = some c → (w.step (.next g f)).1.mem.cfgs[i]? = some k → k.ref ≠ o.ref := by
  have hmem : (w.step (.next g f)).1.mem = _ := next_answer w g f
  refine ⟨next_space w g f, fun r a h => next_arrs w g f h, ?_, ?_⟩
  · intro i c h
    rw [hmem]
    cases (w.next g f).2 with
    | config v => exact cfg_fresh h
    | did o => exact h
    | added e => exact h
    | generator => exact h
    | stop => exact h
    | raised e => exact h
    | running => exact h
  · intro v hv
    have hv' : (w.next g f).2 = .config v := hv
    rw [hv'] at hmem
    dsimp only at hmem
    rw [hmem]
    have e1 : (w.mem.fresh ⟨.float, v⟩ none false).cfgs[w.mem.cfgs.length]? = some { ref := w.mem.arrs.length } := by
      show (w.mem.cfgs ++ [_])[w.mem.cfgs.length]? = _
      simp
    have e2 : (w.mem.fresh ⟨.float, v⟩ none false).arrs[w.mem.arrs.length]? = some ⟨.float, v⟩ := by
      show (w.mem.arrs ++ [_])[w.mem.arrs.length]? = _
      simp
    refine ⟨by unfold Memory.cfg?; rw [e1]; dsimp only; rw [e2], _, e1, ?_⟩
    intro i k c hc hk
    unfold Memory.cfg? at hc
    cases ho : w.mem.cfgs[i]? with
    | none => rw [ho] at hc; cases hc
    | some o =>
      have e3 : (w.mem.fresh ⟨.float, v⟩ none false).cfgs[i]? = some o := by
        show (w.mem.cfgs ++ [_])[i]? = some o
        rw [List.getElem?_append_left (List.getElem?_eq_some_iff.1 ho).1, ho]
      rw [e3] at hk
      rw [← Option.some.inj hk]
      rw [ho] at hc
      dsimp only at hc
      cases ha : w.mem.arrs[o.ref]? with
      | none => rw [ha] at hc; cases hc
      | some b =>
        have hlt := (List.getElem?_eq_some_iff.1 ha).1
        show o.ref ≠ w.mem.arrs.length
        omega

/-- **C117** (partial: the conditions are weakly layered and separable, as in C38): every configuration that a program reads from the
neighbourhood of a valid configuration is valid, whatever it does in between. -/
theorem C117_read_valid_partial {calls : List Call} {w : Prog} (h : Reach calls w.space) (hsep : Separable calls) (hown : OwnClauses calls)
    (hlay : WeaklyLayered calls) {g f : Nat} {G : Reader} (hG : w.gens[g]? = some G) (hrun : G.run = none) (hopen : G.closed = false)
    {o : CfgObj} (ho : w.mem.cfgs[G.cfg]? = some o) {c : Config} (hc : w.mem.cfg? G.cfg = some c) {a : Assign}
    (hv : Represents w.space c.vec a) (ha : Valid calls a) (hnb : LegalProposals calls G.nb) (hcov : ∀ y ∈ allHps calls, y.kind.size ≠ some 1 → Covered calls y.name)
    {as : List Act} (hl : ∀ b ∈ as, Leaves o.ref b) (hret : .running ∉ answersOf g (w.trace (.next g f :: as)))
    {v : Vec} (hmem : v ∈ configsIn (answersOf g (w.trace (.next g f :: as)))) :
    ∃ b, Represents w.space v b ∧ Valid calls b ∧ w.space.check v = none := by
  rcases C117_configurations hG hrun hopen ho hc hl hret with ⟨e, he, hx⟩ | ⟨n, st, hx, hgiv, _⟩
  · exfalso
    -- the generator is closed by the exception: it gives no configuration
    have hcl : ∀ (as : List Act) (w' : Prog), (∃ G', w'.gens[g]? = some G' ∧ G'.closed = true) →
        configsIn (answersOf g (w'.trace as)) = [] := by
      intro as
      induction as with
      | nil => intro w' _; rfl
      | cons b bs ih =>
        rintro w' ⟨G', hG', hc'⟩
        have hgens : ∃ G'', (w'.step b).1.gens[g]? = some G'' ∧ G''.closed = true := by
          cases b with
          | mem q => exact ⟨G', hG', hc'⟩
          | add q => exact ⟨G', hG', hc'⟩
          | neighbourhood q num nb ch =>
            refine ⟨G', ?_, hc'⟩
            show (w'.gens ++ [_])[g]? = some G'
            rw [List.getElem?_append_left (List.getElem?_eq_some_iff.1 hG').1, hG']
          | next q f =>
            by_cases hq : q = g
            · subst hq
              refine ⟨G', ?_, hc'⟩
              show (w'.next q f).1.gens[q]? = some G'
              unfold Prog.next
              rw [hG']
              dsimp only
              rw [if_pos hc']
              exact hG'
            · exact ⟨G', (next_gens w' f hq).trans hG', hc'⟩
        by_cases hn : isNextOf g b = true
        · rw [answersOf_cons_next _ hn]
          cases b with
          | next q f =>
            have hq : q = g := by simpa [isNextOf] using hn
            subst hq
            have e2 : (w'.step (.next q f)).2 = .stop := by
              show (w'.next q f).2 = .stop
              unfold Prog.next
              rw [hG']
              dsimp only
              rw [if_pos hc']
            have := ih _ hgens
            rw [e2]
            exact this
          | mem q => cases hn
          | add q => cases hn
          | neighbourhood q num nb ch => cases hn
        · rw [answersOf_cons_other _ (by simpa using hn)]
          exact ih _ hgens
    have hlt : g < w.gens.length := (List.getElem?_eq_some_iff.1 hG).1
    have hi : exchangeInit w.space c G.num = .error e := by
      unfold oneExchange at hx
      cases hi : exchangeInit w.space c G.num with
      | error e' => rw [hi] at hx; cases hx; rfl
      | ok st => rw [hi] at hx; cases hx
    have e1 : (w.step (.next g f)).1.gens[g]? = some { G with closed := true } := by
      show (w.next g f).1.gens[g]? = _
      unfold Prog.next
      rw [hG]
      dsimp only
      rw [if_neg (by simp [hopen]), hrun]
      dsimp only
      rw [ho, hc]
      dsimp only
      rw [hi]
      exact List.getElem?_set_self hlt
    rw [answersOf_cons_next _ (by simp [isNextOf]), he] at hmem
    have := hcl as _ ⟨_, e1, rfl⟩
    have hm : v ∈ configsIn (answersOf g ((w.step (.next g f)).1.trace as)) := hmem
    rw [this] at hm
    cases hm
  · rw [hgiv, List.mem_map] at hmem
    obtain ⟨⟨m, u⟩, hu, rfl⟩ := hmem
    obtain ⟨y, hy, rfl, _⟩ := C38_one_value_exchanged h hown hv hx hu
    refine C38_neighbours_valid_partial h hsep hown hlay hv ha hnb hx hu (hcov y hy (fun h1 => ?_))
    have he := (C56_number_of_neighbours h hx hy).1 (.inr h1)
    have hm : u ∈ yieldedFor st y.name := List.mem_map.2 ⟨(y.name, u), List.mem_filter.2 ⟨hu, by simp⟩, rfl⟩
    rw [he] at hm
    cases hm

/-! ## What does disturb it -/

theorem nextFrom_length {s : Space} {v : Vec} {nb : Nat → Name → List Rat} {ch : Nat → Nat} (hv : v.length ≠ s.len) :
    ∀ (f : Nat) (st : ExState) (k : Nat) (st' : ExState) (k' : Nat) (x : Vec), nextFrom s v nb ch f st k ≠ .found st' k' x
  | 0, _, _, _, _, _ => by unfold nextFrom; exact fun h => by cases h
  | f + 1, st, k, st', k', x => by
    unfold nextFrom
    split
    · exact fun h => by cases h
    · split
      · exact fun h => by cases h
      · rename_i st1 hs
        split
        · exact nextFrom_length hv f st1 (k + 1) st' k' x
        · rename_i p ps hp
          have hlen : p.2.length = v.length := by
            unfold exchangeStep at hs
            split at hs
            · cases hs; simp at hp
            · split at hs
              · cases hs; simp at hp
              · split at hs
                · cases hs
                · rename_i t _ _ _ r hr
                  cases hs
                  rw [List.drop_left] at hp
                  cases hf : r.found with
                  | none => rw [hf] at hp; cases hp
                  | some u =>
                    rw [hf] at hp
                    simp only [Option.map_some, Option.toList_some, List.cons.injEq] at hp
                    obtain ⟨_, y, _, hy, _⟩ := (tryLoop_spec hr).2.2.2.2.2 u hf
                    rw [← hp.1, hy]
                    exact changeHp_length
          rw [if_pos (by rw [hlen]; exact hv)]
          exact fun h => by cases h

/-- **C117**, false of the code: "a neighbourhood can be read to its end while the space grows".  Once the space has more (or fewer)
hyperparameters than the array of the configuration has entries, `next` never gives another configuration. -/
theorem C117_growing_space_ends_it {w : Prog} {g r : Nat} (hb : Bound w g r) {a : Arr} (ha : w.mem.arrs[r]? = some a)
    (hlen : a.data.length ≠ w.space.len) (f : Nat) (v : Vec) : (w.step (.next g f)).2 ≠ .config v := by
  obtain ⟨_, G, st, k, hG, hrun⟩ := hb
  show (w.next g f).2 ≠ _
  unfold Prog.next
  rw [hG]
  dsimp only
  split
  · exact fun h => by cases h
  · rw [hrun]
    dsimp only
    unfold Prog.resume
    rw [ha]
    dsimp only
    cases hx : nextFrom w.space a.data G.nb G.ch f st k with
    | running => exact fun h => by cases h
    | stop st' k' => exact fun h => by cases h
    | raised e => exact fun h => by cases h
    | found st' k' x => exact absurd hx (nextFrom_length hlen f st k st' k' x)

/-- Nothing of the body runs before the first `next`: a step made between the call of `get_one_exchange_neighbourhood` and the first `next`
might as well have been made before the call. -/
theorem C117_starts_late (w : Prog) (c num : Nat) (nb : Nat → Name → List Rat) (ch : Nat → Nat) (o : Op) (as : List Act) :
    answersOf w.gens.length (w.trace (.neighbourhood c num nb ch :: .mem o :: as)) =
      answersOf w.gens.length (w.trace (.mem o :: .neighbourhood c num nb ch :: as)) := rfl

namespace ExPa

/-- The space of the two-call example, with its default configuration. -/
def w0 : Prog := { space := Ex.sp2, mem := { arrs := [⟨.float, Ex.cfg2.vec⟩], cfgs := [{ ref := 0, vals := Ex.cfg2.vals }] } }

/-- The integers that are drawn. -/
def ch2 (k : Nat) : Nat := [0, 1, 2, 3, 7, 2, 1, 3, 0].getD k 0

def ask : Act := .neighbourhood 0 2 Ex.nb2 ch2

/-- The answers when the neighbourhood is read at once. -/
theorem atOnce : answersOf 0 (w0.trace (ask :: List.replicate 7 (.next 0 9))) =
    [.config [some 0, some 1, some 0, some 1, none], .config [some 0, some 1, some (2/9), some 2, some (1/2)],
      .config [some 0, some 1, some (2/9), some 1, some 0], .config [some 0, some 1, some (2/9), some 0, some (1/2)],
      .config [some 0, some 1, some 1, some 1, some (1/2)], .config [some 0, some 1, some (2/9), some 1, some 1], .stop] := by
  decide +kernel

/-- A program that reads and writes in between: it assigns to the configuration itself, spoils the array of the first neighbour, and
starts a second neighbourhood with the second one. -/
def between : List Act :=
  [.mem (.set 0 "k" (.int 1)), .next 0 9, .mem (.write 1 0 none), .neighbourhood 2 2 Ex.nb2 ch2, .next 1 9, .next 0 9, .next 0 9,
    .next 1 9, .mem (.get 0 "k"), .next 0 9, .next 0 9, .mem (.ofArray 0 true), .next 0 9]

/-- The world after the first `next`. -/
def w1 : Prog := w0.run [ask, .next 0 9]

theorem bound1 : Bound w1 0 0 := by
  have h := C117_first_next (w := (w0.step ask).1) (g := 0) (f := 9) (G := { cfg := 0, num := 2, nb := Ex.nb2, ch := ch2 }) rfl rfl
    (o := { ref := 0, vals := Ex.cfg2.vals }) rfl (v := [some 0, some 1, some 0, some 1, none]) (by decide +kernel)
  exact h

theorem leavesBetween : ∀ a ∈ between, Leaves 0 a := by
  intro a ha
  simp only [between, List.mem_cons, List.not_mem_nil, or_false] at ha
  rcases ha with rfl | rfl | rfl | rfl | rfl | rfl | rfl | rfl | rfl | rfl | rfl | rfl | rfl <;> simp [Leaves]

end ExPa

/-- All the same, the remaining answers are those of reading at once. -/
example : answersOf 0 (ExPa.w1.trace ExPa.between) =
    [.config [some 0, some 1, some (2/9), some 2, some (1/2)],
      .config [some 0, some 1, some (2/9), some 1, some 0], .config [some 0, some 1, some (2/9), some 0, some (1/2)],
      .config [some 0, some 1, some 1, some 1, some (1/2)], .config [some 0, some 1, some (2/9), some 1, some 1], .stop] := by
  rw [C117_as_if_alone ExPa.bound1 ExPa.leavesBetween]
  decide +kernel

/-- They are the one-exchange neighbourhood of the configuration as it was at the first `next`. -/
example : ∃ n st, oneExchange Ex.sp2 Ex.cfg2 2 Ex.nb2 ((List.range n).map ExPa.ch2) = .ok st ∧
    (configsIn (answersOf 0 ((ExPa.w0.step ExPa.ask).1.trace (.next 0 9 :: ExPa.between)))) = st.out.map Prod.snd ∧ st.alive = 0 := by
  have h1 : .stop ∈ answersOf 0 ((ExPa.w0.step ExPa.ask).1.trace (.next 0 9 :: ExPa.between)) ∧
      .running ∉ answersOf 0 ((ExPa.w0.step ExPa.ask).1.trace (.next 0 9 :: ExPa.between)) ∧
      (answersOf 0 ((ExPa.w0.step ExPa.ask).1.trace (.next 0 9 :: ExPa.between))).all (fun a => match a with
        | .raised _ => false
        | _ => true) = true := by
    decide +kernel
  rcases C117_configurations (w := (ExPa.w0.step ExPa.ask).1) (g := 0) (f := 9) (G := { cfg := 0, num := 2, nb := Ex.nb2, ch := ExPa.ch2 })
    rfl rfl rfl (o := { ref := 0, vals := Ex.cfg2.vals }) rfl (c := Ex.cfg2) rfl ExPa.leavesBetween h1.2.1 with ⟨e, he, _⟩ | ⟨n, st, hx, hg, hs⟩
  · exfalso
    have : ((ExPa.w0.step ExPa.ask).1.step (.next 0 9)).2 = .config [some 0, some 1, some 0, some 1, none] := by decide +kernel
    rw [this] at he
    cases he
  · refine ⟨n, st, hx, hg, hs h1.1 ?_⟩
    intro e he
    have := List.all_eq_true.1 h1.2.2 _ he
    cases this

/-- The first neighbour is a new configuration, the second of the program, and the given configuration is as it was. -/
example : ((ExPa.w0.step ExPa.ask).1.step (.next 0 9)).1.mem.cfg? 1 = some { vec := [some 0, some 1, some 0, some 1, none] } ∧
    ((ExPa.w0.step ExPa.ask).1.step (.next 0 9)).1.mem.cfg? 0 = some Ex.cfg2 :=
  ⟨((C117_next_disturbs_nothing (ExPa.w0.step ExPa.ask).1 0 9).2.2.2 _ (by decide +kernel)).1,
    (C117_next_disturbs_nothing (ExPa.w0.step ExPa.ask).1 0 9).2.2.1 0 Ex.cfg2 rfl⟩

/-- **C117**, false of the code: "the neighbours are those of the configuration that was given".  The call only makes a generator: with an
assignment `config["k"] = 1` between the call and the first `next`, the second neighbour of the two-call example has the new value and
not the one that the configuration had at the call. -/
theorem C117_not_those_of_the_call :
    answersOf 0 (ExPa.w0.trace [ExPa.ask, .mem (.set 0 "k" (.int 1)), .next 0 9, .next 0 9]) =
      [.config [some 0, some 1, some 0, some 1, none], .config [some 0, some 1, some 0, some 2, none]] ∧
    answersOf 0 (ExPa.w0.trace [ExPa.ask, .next 0 9, .next 0 9]) =
      [.config [some 0, some 1, some 0, some 1, none], .config [some 0, some 1, some (2/9), some 2, some (1/2)]] := by
  constructor <;> decide +kernel

/-- **C117**, false of the code: "a started neighbourhood is not disturbed by anything".  The generator keeps the array of the configuration
and not a copy of it: a write to the array between two calls of `next` (here `config.get_array()[2] = 1`) changes the neighbours that
follow. -/
theorem C117_write_changes_neighbours :
    answersOf 0 (ExPa.w0.trace [ExPa.ask, .next 0 9, .mem (.write 0 2 (some 1)), .next 0 9]) ≠
      answersOf 0 (ExPa.w0.trace [ExPa.ask, .next 0 9, .next 0 9]) := by
  decide +kernel

namespace ExPa

/-- One more hyperparameter. -/
def more : Call := { hps := [⟨"z", .int 0 3, .int 1⟩], conds := [], forbs := [] }

end ExPa

/-- The two-call example, read with interruptions: all neighbours are valid. -/
example {v : Vec} (hv : v ∈ configsIn (answersOf 0 ((ExPa.w0.step ExPa.ask).1.trace (.next 0 9 :: ExPa.between)))) :
    ∃ b, Represents Ex.sp2 v b ∧ Valid [Ex.call1, Ex.call2] b ∧ Ex.sp2.check v = none := by
  have hrep := represents_asg Ex.reach2 (v := Ex.cfg2.vec) (by decide +kernel)
  have hval : Valid [Ex.call1, Ex.call2] (asg Ex.sp2.idx Ex.cfg2.vec) := by
    refine C16_accepted_legal_roots_partial Ex.reach2 Ex.sep2 Ex.own2 hrep ?_ (by decide +kernel)
    have : ∀ h ∈ allHps [Ex.call1, Ex.call2], (asg Ex.sp2.idx Ex.cfg2.vec h.name).all h.kind.legalVec = true := by
      decide +kernel
    intro h hh _ q hq
    have := this h hh
    rw [hq] at this
    exact this
  refine C117_read_valid_partial (calls := [Ex.call1, Ex.call2]) (w := (ExPa.w0.step ExPa.ask).1) Ex.reach2 Ex.sep2 Ex.own2 Ex.weakly2 (g := 0) (f := 9)
    (G := { cfg := 0, num := 2, nb := Ex.nb2, ch := ExPa.ch2 }) rfl rfl rfl (o := { ref := 0, vals := Ex.cfg2.vals }) rfl (c := Ex.cfg2) rfl
    hrep hval Ex.legalNb2 ?_ ExPa.leavesBetween (by decide +kernel) hv
  have hn : ∀ y ∈ allHps [Ex.call1, Ex.call2], y.kind.size ≠ some 1 → y.name ∈ ["alg", "k", "o", "x"] := by decide +kernel
  exact fun y hy h1 => Ex.covered2 _ (hn y hy h1)

theorem bound_add {w : Prog} {g r : Nat} (h : Bound w g r) (c : Call) : Bound (w.step (.add c)).1 g r := h

theorem growing_add {w : Prog} {g r : Nat} (hb : Bound w g r) {a : Arr} (ha : w.mem.arrs[r]? = some a) {c : Call}
    (hlen : a.data.length ≠ (w.space.add c.hps c.conds c.forbs).1.len) (f : Nat) (v : Vec) :
    ((w.step (.add c)).1.step (.next g f)).2 ≠ .config v :=
  C117_growing_space_ends_it (bound_add hb c) (a := a) ha hlen f v

/-- So `C117_growing_space_ends_it` applies after `space.add(z)`, whatever has happened to the arrays and generators. -/
example {w : Prog} (hs : w.space = Ex.sp2) {g r : Nat} (hb : Bound w g r) {a : Arr} (ha : w.mem.arrs[r]? = some a)
    (hl : a.data.length = 5) (f : Nat) (v : Vec) : ((w.step (.add ExPa.more)).1.step (.next g f)).2 ≠ .config v := by
  refine growing_add hb ha ?_ f v
  have : (Ex.sp2.add ExPa.more.hps ExPa.more.conds ExPa.more.forbs).1.len = 6 := by decide +kernel
  rw [hl, hs, this]
  decide

/-- With one more hyperparameter added in between, the next `next` raises `ValueError`, and no later one gives a configuration. -/
example : answersOf 0 (ExPa.w0.trace [ExPa.ask, .next 0 9, .add ExPa.more, .next 0 9, .next 0 9]) =
    [.config [some 0, some 1, some 0, some 1, none], .raised .valueError, .stop] := by
  decide +kernel

end Verif
