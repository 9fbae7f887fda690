import Verif.Lemmas.Seeded
import Verif.Props.Draws
import Verif.Props.SpaceEq

/-!
# C93: sampling is reproducible, and the order of construction does not matter
-/

set_option autoImplicit false

namespace Verif
open Verif.Spec

variable {calls calls' : List Call} {s s' : Space} {σ : Type}

/-- **C93, same parts.** Two spaces made of the same hyperparameters, conditions and clauses, added in any order and in any number of
calls, answer alike: they accept and reject the same vectors with the same exceptions, build the same configurations from
values, have the same default configuration, change configurations in the same way, and, with a generator in the same
state, sample the same configurations and leave the generator in the same state. -/
theorem C93_same_parts (h : Reach calls s) (h' : Reach calls' s') (hp : SameParts calls calls') (h1 : OneCondition calls)
    (ho : OwnClauses calls) (g : Rng σ) :
    (∀ v al, s.check v al = s'.check v al) ∧ (∀ d al, Config.ofValues s d al = Config.ofValues s' d al) ∧
    s.defaultConfig = s'.defaultConfig ∧ (∀ (c : Config) n w, c.setItem s n w = c.setItem s' n w) ∧
    ∀ fuel st size, s.draw g fuel st size = s'.draw g fuel st size := by
  have a := alike h h' hp h1 ho
  exact ⟨a.check, a.config, a.default, a.setItem, a.draw g⟩

/-- **C93, reproducible.** Whatever was done before, once the generator is seeded the answers only depend on the parts of the
space, on the seed and on the calls that follow.  The programs `p` and `q` may differ in the order in which they add things,
and in what they sample, check and seed; `r` may sample, seed, add more things, check, build and change configurations. -/
theorem C93_reproducible (g : Rng σ) {fuel : Nat} {p q r : List Cmd} {n : Int} {st st' : σ} {x y : RSpace σ} {as bs : List Ans}
    (hp : RSpace.run g fuel (p ++ .seed n :: r) { random := st } = some (x, as))
    (hq : RSpace.run g fuel (q ++ .seed n :: r) { random := st' } = some (y, bs))
    (hwp : WfProgram (p ++ r)) (hwq : WfProgram q) (ha : NoneFailed as) (hb : NoneFailed bs)
    (hs : SameParts (adds p) (adds q)) (h1 : OneCondition (adds (p ++ r))) (ho : OwnClauses (adds (p ++ r))) :
    as.drop p.length = bs.drop q.length := by
  obtain ⟨x1, as1, as2, p1, p2, rfl, p4⟩ := run_append g fuel p _ _ _ _ hp
  obtain ⟨y1, bs1, bs2, q1, q2, rfl, q4⟩ := run_append g fuel q _ _ _ _ hq
  rw [← p4, ← q4, List.drop_left, List.drop_left]
  rw [adds_append] at h1 ho
  have hwp' : WfProgram p := fun k hk => hwp k (by rw [adds_append]; exact List.mem_append_left _ hk)
  have hwr : WfProgram r := fun k hk => hwp k (by rw [adds_append]; exact List.mem_append_right _ hk)
  have hx := run_reach g fuel p .nil hwp' p1 (fun e he => ha e (List.mem_append_left _ he))
  have hy := run_reach g fuel q .nil hwq q1 (fun e he => hb e (List.mem_append_left _ he))
  rw [List.nil_append] at hx hy
  simp only [RSpace.run, RSpace.step] at p2 q2
  cases f : RSpace.run g fuel r ⟨x1.space, g.seeded n⟩ with
  | none => rw [f] at p2; cases p2
  | some u =>
  obtain ⟨u, us⟩ := u
  cases f' : RSpace.run g fuel r ⟨y1.space, g.seeded n⟩ with
  | none => rw [f'] at q2; cases q2
  | some u' =>
  obtain ⟨u', us'⟩ := u'
  rw [f] at p2
  rw [f'] at q2
  simp only [Option.some.injEq, Prod.mk.injEq] at p2 q2
  obtain ⟨rfl, rfl⟩ := p2
  obtain ⟨rfl, rfl⟩ := q2
  have := run_same g fuel r (x := ⟨x1.space, g.seeded n⟩) (x' := ⟨y1.space, g.seeded n⟩) hx hy rfl hs h1 ho hwr f f'
    (fun e he => ha e (List.mem_append_right _ (List.mem_cons_of_mem _ he)))
    (fun e he => hb e (List.mem_append_right _ (List.mem_cons_of_mem _ he)))
  rw [this]

/-- **C93, the generator is one of those the other theorems speak about.** Sampling with a generator whose state goes from draw to draw
gives what the sampler gives for certain matrices of draws, one row per hyperparameter; if the generator returns legal
entries, these matrices consist of legal entries.  So C25, C26, C27, C55 and C70 hold of every `sample_configuration` in a program. -/
theorem C93_sampling_refines (h : Reach calls s) {g : Rng σ} (hg : Spec.Rng.Exact g) {fuel : Nat} {st st' : σ} {size : Option Int}
    {r : Sampled} (hr : s.draw g fuel st size = some (r, st')) :
    ∃ rng, Draws s rng ∧ s.sampleConfiguration rng fuel size = some r ∧ (Spec.Rng.Legal g → LegalDraws calls s rng) := by
  have i := sinv_of_reach h
  have hd : Draws s (drawnRows s g (size.getD 1).toNat st) := by
    intro b w
    refine ⟨?_, fun row hr => rows_width hg w _ _ row hr⟩
    unfold drawnRows
    rw [rows_length, List.length_map, i.len]
  refine ⟨_, hd, ?_, fun hl => ⟨hd, ?_⟩⟩
  · rw [← draw_eq, hr]; rfl
  · intro b w x hx j row hj hrow
    have hw : x.wf = true := (reach_wf h).1 x hx
    refine rows_legal hl w _ _ j x row ?_ hw hrow
    obtain ⟨nd, hnd, e⟩ : ∃ nd, s.com[j]? = some nd ∧ nd.name = x.name := by
      have : s.names[j]? = some x.name := hj
      simpa [Space.names] using this
    have hmem : nd.hp ∈ allHps calls :=
      (hps_perm h).mem_iff.1 (List.mem_map.2 ⟨nd, List.mem_of_getElem? hnd, rfl⟩)
    rw [List.getElem?_map, hnd, Option.map_some, reach_hp_inj h _ hmem _ hx e]

/-- **C93, hash order.** The clauses that are noted for a hyperparameter, and so everything that is computed from them, do not depend on
the order in which Python lists the elements of a set; if no relation compares a hyperparameter with itself, they are the
clauses about the hyperparameter, each once, in the order of the clauses. -/
theorem C93_hash_order {order order' : Forb → List Name} (h : SetOrder order) (h' : SetOrder order') (fast : List Forb) (n : Name) :
    ((noteClauses order fast).lookup n).getD [] = ((noteClauses order' fast).lookup n).getD [] ∧
    ((∀ op l r, Forb.rel op l r ∈ fast → l.name ≠ r.name) → ((noteClauses order fast).lookup n).getD [] = forbLookup fast n) := by
  rw [noteClauses_lookup, noteClauses_lookup]
  refine ⟨?_, fun hs => ?_⟩
  · congr 1
    funext f
    cases f with
    | eq x v w => rw [h.2.1, h'.2.1]
    | isIn x v w => rw [h.2.2.1, h'.2.2.1]
    | rel op l r => rw [h.2.2.2, h'.2.2.2]
    | and cs =>
      have a := h.1 cs
      have b := h'.1 cs
      rw [((List.perm_ext_iff_of_nodup a.1 b.1).2 (fun k => (a.2 k).trans (b.2 k).symm)).count_eq]
  · unfold forbLookup
    have key : ∀ f ∈ fast, (order f).Nodup ∧ ∀ k, k ∈ order f ↔ k ∈ f.names := by
      intro f hf
      cases f with
      | eq x v w => rw [h.2.1]; simp [Forb.names]
      | isIn x v w => rw [h.2.2.1]; simp [Forb.names]
      | rel op l r => rw [h.2.2.2]; exact ⟨by simpa using hs op l r hf, by simp [Forb.names]⟩
      | and cs => exact h.1 cs
    clear hs
    induction fast with
    | nil => rfl
    | cons f fast ih =>
      rw [List.flatMap_cons, ih (fun f hf => key f (List.mem_cons_of_mem _ hf)), List.filter_cons]
      obtain ⟨hn, hm⟩ := key f List.mem_cons_self
      by_cases e : n ∈ f.names
      · have := hn.count (a := n)
        rw [if_pos ((hm n).2 e)] at this
        simp [e, this]
      · have := List.count_eq_zero_of_not_mem (fun x => e ((hm n).1 x))
        simp [e, this]

/-! ## Examples -/

namespace ExK

/-- First entry of a hyperparameter. -/
def lo : Kind → Rat
  | .const _ => 1
  | _ => 0

/-- Last entry of a hyperparameter. -/
def hi : Kind → Rat
  | .cat cs => ((cs.length - 1 : Nat) : Rat)
  | .ord cs => ((cs.length - 1 : Nat) : Rat)
  | _ => 1

/-- A generator that counts its draws, and gives the first and the last entries in turn. -/
def gen : Rng Nat where
  seeded n := n.toNat
  draw h w st := ((List.range w).map (fun i => if (st + i) % 2 = 0 then lo h.kind else hi h.kind), st + w)

theorem exact : Spec.Rng.Exact gen := by intro h w st; simp [gen]

theorem entry_legal {h : HP} (hw : h.wf = true) :
    h.kind.legalVec (lo h.kind) = true ∧ h.kind.legalVec (hi h.kind) = true := by
  have key : ∀ n : Nat, 0 < n → (0 : Rat) < n ∧ ((n - 1 : Nat) : Rat) < n :=
    fun n h => ⟨by exact_mod_cast h, by exact_mod_cast Nat.sub_lt h Nat.one_pos⟩
  have z : closeToInt 0 = true := closeToInt_nat 0
  unfold HP.wf at hw
  cases e : h.kind with
  | cat cs =>
    rw [e] at hw
    simp only [Bool.and_eq_true, Bool.not_eq_true', List.isEmpty_eq_false_iff] at hw
    have := key cs.length (List.length_pos_of_ne_nil hw.1.1)
    simp [Kind.legalVec, lo, hi, this.1, this.2, z, closeToInt_nat]
  | ord cs =>
    rw [e] at hw
    simp only [Bool.and_eq_true, Bool.not_eq_true', List.isEmpty_eq_false_iff] at hw
    have := key cs.length (List.length_pos_of_ne_nil hw.1.1)
    simp [Kind.legalVec, lo, hi, this.1, this.2, z, closeToInt_nat]
  | const v => simp [Kind.legalVec, lo, hi]
  | int l u =>
    have : closeToInt ((u : Rat) - l) = true := by
      have := closeToInt_int (u - l)
      push_cast at this
      exact this
    simp [Kind.legalVec, lo, hi, z, this]
  | flt l u => simp [Kind.legalVec, lo, hi]

theorem legal : Spec.Rng.Legal gen := by
  intro h w st hw q hq
  obtain ⟨i, _, rfl⟩ := List.mem_map.1 hq
  split
  · exact (entry_legal hw).1
  · exact (entry_legal hw).2

theorem parts : SameParts [Ex.call1] [Ex.call1a, Ex.call1b, Ex.call1c] := by
  refine ⟨?_, ?_, ?_⟩
  · have e1 : allHps [Ex.call1a, Ex.call1b, Ex.call1c] = [Ex.hpAlg, Ex.hpC, Ex.hpO, Ex.hpK, Ex.hpX] := rfl
    have e2 : allHps [Ex.call1] = [Ex.hpX, Ex.hpK, Ex.hpO, Ex.hpAlg, Ex.hpC] := rfl
    rw [e1, e2]
    decide +kernel
  · intro c
    simp [allConds, Ex.call1, Ex.call1a, Ex.call1b, Ex.call1c]
    constructor <;> (rintro (h | h | h) <;> simp [h])
  · exact List.Perm.swap _ _ _

theorem one : OneCondition [Ex.call1] := by
  intro c hc d hd e
  simp only [allConds, Ex.call1, List.flatMap_cons, List.flatMap_nil, List.append_nil, List.mem_cons, List.not_mem_nil,
    or_false] at hc hd
  rcases hc with rfl | rfl | rfl <;> rcases hd with rfl | rfl | rfl <;>
    first | rfl | exact absurd e (by decide +kernel)

theorem own : OwnClauses [Ex.call1] := by
  intro f hf h hh
  simp only [allForbs, Ex.call1, List.flatMap_cons, List.flatMap_nil, List.append_nil, List.mem_cons, List.not_mem_nil,
    or_false] at hf
  rcases hf with rfl | rfl <;> (revert h; decide +kernel)

end ExK

/-- Everything in one call, and the same things in three calls in another order. -/
example : (∀ v al, Ex.sp1.check v al = Ex.sp1c.check v al) ∧
    ∀ fuel st size, Ex.sp1.draw ExK.gen fuel st size = Ex.sp1c.draw ExK.gen fuel st size := by
  have h := C93_same_parts Ex.reach1 Ex.reach1c ExK.parts ExK.one ExK.own ExK.gen
  exact ⟨h.1, h.2.2.2.2⟩

namespace ExK

theorem add1a : ({} : Space).add Ex.call1a.hps Ex.call1a.conds Ex.call1a.forbs = (Ex.sp1a, none) :=
  Ex.add_of_stages [("alg", some (.str "a")), ("c", some (.int 7))] [some 0, some 1]
    [("alg", .str "a"), ("c", .int 7)]
    (by decide +kernel) (by decide +kernel) (by decide +kernel)
    (by decide +kernel) (by decide +kernel) (by decide +kernel)

theorem add1b : Ex.sp1a.add Ex.call1b.hps Ex.call1b.conds Ex.call1b.forbs = (Ex.sp1b, none) :=
  Ex.add_of_stages
    [("alg", some (.str "a")), ("c", some (.int 7)), ("k", some (.int 3)), ("o", some (.str "mid"))]
    [some 0, some 1, some (2/9), some 1]
    [("alg", .str "a"), ("c", .int 7), ("k", .int 3), ("o", .str "mid")]
    (by decide +kernel) (by decide +kernel) (by decide +kernel)
    (by decide +kernel) (by decide +kernel) (by decide +kernel)

/-- Reads what was sampled off its evaluation. -/
theorem evaluated {x : Option (Sampled × Nat)} {vs : List Vec} {n : Nat}
    (h : x.map (fun r => (r.1.all.map Config.vec, r.2)) = some (vs, n)) :
    ∃ r, x = some (r, n) ∧ r.all.map Config.vec = vs := by
  cases x with
  | none => cases h
  | some r =>
    obtain ⟨r, m⟩ := r
    simp only [Option.map_some, Option.some.injEq, Prod.mk.injEq] at h
    exact ⟨r, by rw [h.2], h.1⟩

theorem draw1 : ∃ r, Ex.sp1.draw gen 3 7 (some 3) = some (r, 57) ∧ r.all.map Config.vec = List.replicate 3 [some 0, some 1, some 0, some 2, none] :=
  evaluated (by decide +kernel)

end ExK

/-- One program adds everything at once and samples before it seeds; the other adds in three calls, is seeded otherwise at first, and asks for the default. -/
example : ∃ x y as bs,
    RSpace.run ExK.gen 3 ([.add Ex.call1, .sample (some 2)] ++ .seed 7 :: [.sample (some 3), .sample none, .default]) { random := 0 } =
      some (x, as) ∧
    RSpace.run ExK.gen 3 ([.seed 4, .add Ex.call1a, .add Ex.call1b, .add Ex.call1c, .default] ++
      .seed 7 :: [.sample (some 3), .sample none, .default]) { random := 5 } = some (y, bs) ∧
    as.drop 2 = bs.drop 5 ∧ (∃ r, as[3]? = some (.sampled r) ∧ r.all.length = 3) := by
  have a1 := Ex.add1
  have a1a := ExK.add1a
  have a1b := ExK.add1b
  have a1c := Ex.add1c
  obtain ⟨r1, e1, _⟩ := ExK.evaluated (x := Ex.sp1.draw ExK.gen 3 0 (some 2)) (vs := List.replicate 2 [some 0, some 1, some 0, some 2, none]) (n := 25) (by decide +kernel)
  obtain ⟨r2, e2, e4⟩ := ExK.draw1
  obtain ⟨r3, e3, _⟩ := ExK.evaluated (x := Ex.sp1.draw ExK.gen 3 57 none) (vs := [[some 0, some 1, some 0, some 2, none]]) (n := 82) (by decide +kernel)
  have dr := (C93_same_parts Ex.reach1 Ex.reach1c ExK.parts ExK.one ExK.own ExK.gen).2.2.2.2
  have f2 := (dr 3 7 (some 3)).symm.trans e2
  have f3 := (dr 3 57 none).symm.trans e3
  have hp : RSpace.run ExK.gen 3 ([.add Ex.call1, .sample (some 2)] ++ .seed 7 :: [.sample (some 3), .sample none, .default]) { random := 0 } =
      some (⟨Ex.sp1, 82⟩, [.added none, .sampled r1, .done, .sampled r2, .sampled r3, .config Ex.sp1.defaultConfig]) := by
    simp [RSpace.run, RSpace.step, a1, e1, e2, e3, show ExK.gen.seeded 7 = 7 from rfl]
  have hq : RSpace.run ExK.gen 3 ([.seed 4, .add Ex.call1a, .add Ex.call1b, .add Ex.call1c, .default] ++
      .seed 7 :: [.sample (some 3), .sample none, .default]) { random := 5 } =
      some (⟨Ex.sp1c, 82⟩, [.done, .added none, .added none, .added none, .config Ex.sp1c.defaultConfig, .done, .sampled r2, .sampled r3,
        .config Ex.sp1c.defaultConfig]) := by
    simp [RSpace.run, RSpace.step, a1a, a1b, a1c, f2, f3, show ExK.gen.seeded 7 = 7 from rfl]
  refine ⟨_, _, _, _, hp, hq, ?_, r2, rfl, by rw [← List.length_map (f := Config.vec), e4]; rfl⟩
  exact C93_reproducible ExK.gen hp hq (by intro k hk; simp [adds] at hk; subst hk; decide +kernel)
    (by intro k hk; simp [adds] at hk; rcases hk with rfl | rfl | rfl <;> decide +kernel)
    (by intro e; simp) (by intro e; simp) ExK.parts ExK.one ExK.own

/-- The generator above on the space with five hyperparameters. -/
example : ∃ r st', Ex.sp1.draw ExK.gen 3 7 (some 3) = some (r, st') ∧
    ∃ rng, LegalDraws [Ex.call1] Ex.sp1 rng ∧ Ex.sp1.sampleConfiguration rng 3 (some 3) = some r := by
  obtain ⟨r, e, _⟩ := ExK.draw1
  obtain ⟨rng, _, h2, h3⟩ := C93_sampling_refines Ex.reach1 ExK.exact e
  exact ⟨r, _, e, rng, h3 ExK.legal, h2⟩

/-- Two orders of the names in a conjunction. -/
example : SetOrder (fun f => match f with | .and cs => (Forb.and cs).names.dedup | .rel _ l r => [l.name, r.name] | f => f.names) ∧
    SetOrder (fun f => match f with | .and cs => (Forb.and cs).names.dedup.reverse | .rel _ l r => [l.name, r.name] | f => f.names) := by
  refine ⟨⟨fun cs => ⟨List.nodup_dedup _, fun n => List.mem_dedup⟩, fun _ _ _ => rfl, fun _ _ _ => rfl, fun _ _ _ => rfl⟩,
    ⟨fun cs => ⟨List.nodup_reverse.2 (List.nodup_dedup _), fun n => by rw [List.mem_reverse, List.mem_dedup]⟩,
      fun _ _ _ => rfl, fun _ _ _ => rfl, fun _ _ _ => rfl⟩⟩

/-! ## Repeated clauses -/

namespace ExK

def hpA : HP := ⟨"a", .cat [.int 0, .int 1, .int 2], .int 0⟩
def hpB : HP := ⟨"b", .cat [.int 0, .int 1, .int 2], .int 0⟩
/-- not (a == 1) -/
def notA : Forb := .eq hpA (.int 1) 1
def once : Call := ⟨[hpA, hpB], [], [notA]⟩
def twice : Call := ⟨[hpA, hpB], [], [notA, notA]⟩
def sp1 : Space := Ex.committed {} once
def sp2 : Space := Ex.committed {} twice

theorem reach1 : Reach [once] sp1 :=
  Reach.snoc (calls := []) .nil (by decide +kernel)
    (Ex.add_of_stages [("a", some (.int 0)), ("b", some (.int 0))] [some 0, some 0] [("a", .int 0), ("b", .int 0)]
      (by decide +kernel) (by decide +kernel) (by decide +kernel) (by decide +kernel) (by decide +kernel) (by decide +kernel))

theorem reach2 : Reach [twice] sp2 :=
  Reach.snoc (calls := []) .nil (by decide +kernel)
    (Ex.add_of_stages [("a", some (.int 0)), ("b", some (.int 0))] [some 0, some 0] [("a", .int 0), ("b", .int 0)]
      (by decide +kernel) (by decide +kernel) (by decide +kernel) (by decide +kernel) (by decide +kernel) (by decide +kernel))

end ExK

/-- **C93 is false of the code for clauses that are repeated.** A clause given a second time forbids nothing new, and the two spaces
accept the same vectors; but the size of the batches depends on the number of clauses, so that the same seed gives other
configurations, and leaves the generator in another state. -/
theorem C93_repeated_clause_changes_samples :
    ∃ (calls calls' : List Call) (s s' : Space) (g : Rng Nat) (r r' : Sampled) (st st' : Nat),
      Reach calls s ∧ Reach calls' s' ∧ allHps calls = allHps calls' ∧ allConds calls = allConds calls' ∧
      (∀ f, f ∈ allForbs calls ↔ f ∈ allForbs calls') ∧ OneCondition calls ∧ OwnClauses calls ∧ OwnClauses calls' ∧
      s.draw g 3 (g.seeded 0) (some 6) = some (r, st) ∧ s'.draw g 3 (g.seeded 0) (some 6) = some (r', st') ∧
      r.all.map Config.vec ≠ r'.all.map Config.vec ∧ st ≠ st' := by
  obtain ⟨r, e1, e2⟩ := ExK.evaluated (x := ExK.sp1.draw ExK.gen 3 0 (some 6)) (n := 20)
    (vs := [[some 0, some 2], [some 2, some 0], [some 0, some 2], [some 2, some 0], [some 0, some 2], [some 0, some 2]])
    (by decide +kernel)
  obtain ⟨r', e1', e2'⟩ := ExK.evaluated (x := ExK.sp2.draw ExK.gen 3 0 (some 6)) (n := 12)
    (vs := [[some 0, some 0], [some 2, some 2], [some 0, some 0], [some 2, some 2], [some 0, some 0], [some 2, some 2]])
    (by decide +kernel)
  refine ⟨_, _, _, _, ExK.gen, r, r', _, _, ExK.reach1, ExK.reach2, rfl, rfl, ?_, ?_, ?_, ?_, e1, e1', ?_, by decide⟩
  · intro f; simp [allForbs, ExK.once, ExK.twice]
  · intro c hc; simp [allConds, ExK.once] at hc
  · intro f hf h hh
    simp only [allForbs, ExK.once, List.flatMap_cons, List.flatMap_nil, List.append_nil, List.mem_singleton] at hf
    subst hf
    revert h
    decide +kernel
  · intro f hf h hh
    simp only [allForbs, ExK.twice, List.flatMap_cons, List.flatMap_nil, List.append_nil, List.mem_cons, List.not_mem_nil, or_false,
      or_self] at hf
    subst hf
    revert h
    decide +kernel
  · rw [e2, e2']
    decide +kernel

/-- Two orders of the names in a conjunction, for a space with two clauses about `a`. -/
example : ∀ n, ((noteClauses (fun f => match f with | .and cs => (Forb.and cs).names.dedup | .rel _ l r => [l.name, r.name] | f => f.names)
      [ExK.notA, .and [ExK.notA, .eq ExK.hpB (.int 2) 2]]).lookup n).getD [] =
    ((noteClauses (fun f => match f with | .and cs => (Forb.and cs).names.dedup.reverse | .rel _ l r => [l.name, r.name] | f => f.names)
      [ExK.notA, .and [ExK.notA, .eq ExK.hpB (.int 2) 2]]).lookup n).getD [] :=
  fun n => (C93_hash_order
    ⟨fun cs => ⟨List.nodup_dedup _, fun n => List.mem_dedup⟩, fun _ _ _ => rfl, fun _ _ _ => rfl, fun _ _ _ => rfl⟩
    ⟨fun cs => ⟨List.nodup_reverse.2 (List.nodup_dedup _), fun n => by rw [List.mem_reverse, List.mem_dedup]⟩,
      fun _ _ _ => rfl, fun _ _ _ => rfl, fun _ _ _ => rfl⟩ _ n).1

end Verif
