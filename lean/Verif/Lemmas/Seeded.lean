import Verif.Spec.Seeded
import Verif.Spec.Sample
import Verif.Lemmas.Rebuild

/-!
# Lemmas: spaces made of the same parts, and sampling with a generator
-/

set_option autoImplicit false

namespace Verif
open Spec

variable {calls calls' : List Call} {s s' : Space}

/-! ## Spaces made of the same parts -/

/-- Two spaces that cannot be told apart. -/
structure Alike (s s' : Space) : Prop where
  core : s.com.map Node.core = s'.com.map Node.core
  nodes : s.dag.nodes = s.com
  nodes' : s'.dag.nodes = s'.com
  len : s.len = s'.len
  mins : s.minConds = s'.minConds
  lookup : s.lookup = s'.lookup
  uncond : s.dag.uncond.Perm s'.dag.uncond
  condF : s.dag.condF.Perm s'.dag.condF
  check : ∀ v al, s.check v al = s'.check v al
  config : ∀ d al, Config.ofValues s d al = Config.ofValues s' d al
  default : s.defaultConfig = s'.defaultConfig

theorem Alike.idx (a : Alike s s') : s.idx = s'.idx := by
  funext n
  simp [Space.idx, idxOf, names_core a.core]

theorem lastCond_mem {C : List Cond} {n : Name} {c : Cond} (h : lastCond C n = some c) : c ∈ C ∧ childName c = some n := by
  unfold lastCond at h
  have := List.mem_of_getLast? h
  simpa [childName] using List.mem_filter.1 this

theorem lastCond_of_mem {C : List Cond} {n : Name} {c : Cond} (h : c ∈ C) (hc : childName c = some n) :
    ∃ d, lastCond C n = some d := by
  cases e : lastCond C n with
  | some d => exact ⟨d, rfl⟩
  | none =>
    unfold lastCond at e
    rw [List.getLast?_eq_none_iff] at e
    have : c ∈ C.filter (fun c => decide (c.child?.map HP.name = some n)) :=
      List.mem_filter.2 ⟨h, by simpa [childName] using hc⟩
    rw [e] at this
    cases this

theorem lastCond_same (h1 : OneCondition calls) (hp : SameParts calls calls') (n : Name) :
    lastCond (allConds calls) n = lastCond (allConds calls') n := by
  cases e : lastCond (allConds calls) n with
  | none =>
    cases e' : lastCond (allConds calls') n with
    | none => rfl
    | some d =>
      obtain ⟨hd, hn⟩ := lastCond_mem e'
      obtain ⟨c, hc⟩ := lastCond_of_mem ((hp.conds d).2 hd) hn
      rw [e] at hc
      cases hc
  | some c =>
    obtain ⟨hc, hn⟩ := lastCond_mem e
    obtain ⟨d, hd⟩ := lastCond_of_mem ((hp.conds c).1 hc) hn
    obtain ⟨hd', hn'⟩ := lastCond_mem hd
    rw [hd, h1 c hc d ((hp.conds d).2 hd') (hn.trans hn'.symm)]

theorem uncond_eq_filter (h : Reach calls s) : s.dag.uncond = s.forbs.filter (isUncondForb s.dag.roots) ∧
    s.dag.condF = s.forbs.filter (fun f => !isUncondForb s.dag.roots f) := by
  have i := sinv_of_reach h
  unfold Space.forbs
  rw [List.filter_append, List.filter_append]
  constructor
  · rw [List.filter_eq_self.2 i.uncond, List.filter_eq_nil_iff.2 (fun f hf => by simp [i.condF f hf]), List.append_nil]
  · rw [List.filter_eq_nil_iff.2 (fun f hf => by simp [i.uncond f hf]),
      List.filter_eq_self.2 (fun f hf => by simp [i.condF f hf]), List.nil_append]

theorem changeLookup_core {ns ns' : Nodes} (h : ns.map Node.core = ns'.map Node.core) (cs : List CNode) :
    changeLookup ns cs = changeLookup ns' cs := by
  have hs : shallowest ns = shallowest ns' := by
    funext c
    unfold shallowest
    rw [depthOf_core h]
  unfold changeLookup
  rw [hs]

theorem alike (h : Reach calls s) (h' : Reach calls' s') (hp : SameParts calls calls') (h1 : OneCondition calls)
    (hown : OwnClauses calls) : Alike s s' := by
  have i := sinv_of_reach h
  have i' := sinv_of_reach h'
  have hE : parentRel (allConds calls) = parentRel (allConds calls') := by
    funext a b
    exact propext ⟨parentRel_mono (fun c hc => (hp.conds c).1 hc) a b, parentRel_mono (fun c hc => (hp.conds c).2 hc) a b⟩
  have hcore := core_eq (pre_of_reach h) (pre_of_reach h') hp.hps hE (lastCond_same h1 hp)
  obtain ⟨k1, k2, k3⟩ := same_default (pre_of_reach h) (pre_of_reach h') hp.hps hown (fun f => hp.forbs.mem_iff) hcore
  have hroots : s.dag.roots = s'.dag.roots := by rw [i.roots, i'.roots, rootNames_core hcore]
  have hf : s.forbs.Perm s'.forbs := i.hist.forbs.trans (hp.forbs.trans i'.hist.forbs.symm)
  have hmins : s.minConds = s'.minConds := by rw [i.mins, i'.mins, minCondsSorted_core hcore]
  refine ⟨hcore, i.com, i'.com, ?_, hmins, ?_, ?_, ?_, k1, k2, k3⟩
  · rw [i.len, i'.len]
    simpa using congrArg List.length hcore
  · rw [i.lookup, i'.lookup, hmins, changeLookup_core hcore]
  · rw [(uncond_eq_filter h).1, (uncond_eq_filter h').1, hroots]
    exact hf.filter _
  · rw [(uncond_eq_filter h).2, (uncond_eq_filter h').2, hroots]
    exact hf.filter _

/-! ## Sampling in them -/

theorem zipWith_or_comm : ∀ (acc a b : List Bool),
    List.zipWith (· || ·) (List.zipWith (· || ·) acc a) b = List.zipWith (· || ·) (List.zipWith (· || ·) acc b) a
  | [], _, _ => by simp
  | _ :: _, [], _ => by simp
  | _ :: _, _ :: _, [] => by simp
  | x :: xs, y :: ys, z :: zs => by
    simp only [List.zipWith_cons_cons, zipWith_or_comm xs ys zs, List.cons.injEq, and_true]
    cases x <;> cases y <;> cases z <;> rfl

theorem forbMask_perm (hidx : s.idx = s'.idx) {fs gs : List Forb} (hp : fs.Perm gs) (w : Nat) (m : Mat) :
    forbMask s w m fs = forbMask s' w m gs := by
  unfold forbMask
  rw [hidx]
  exact hp.foldl_eq' (fun f _ g _ acc => zipWith_or_comm acc _ _) _

theorem maskKids_idx (hidx : s.idx = s'.idx) : maskKids s = maskKids s' := by
  funext m c sat
  unfold maskKids
  rw [hidx]

theorem Alike.sampleBatch (a : Alike s s') (w : Nat) (m : Mat) : s.sampleBatch w m = s'.sampleBatch w m := by
  unfold Space.sampleBatch
  simp only [forbMask_perm a.idx a.uncond, forbMask_perm a.idx a.condF, a.mins, maskKids_idx a.idx, a.idx]

theorem Alike.hps (a : Alike s s') : s.com.map Node.hp = s'.com.map Node.hp :=
  map_of_core (fun c => c.1) a.core

theorem Alike.condNames (a : Alike s s') : s.condNames.length = s'.condNames.length := by
  have key : ∀ ns : Nodes, ((ns.filter (fun x => !decide (x.depth = 1))).map Node.name).length =
      ((ns.map Node.core).filter (fun c => !decide (c.2.1 = 1))).length := by
    intro ns
    rw [List.length_map, List.filter_map, List.length_map]
    rfl
  unfold Space.condNames
  rw [key, key, a.core]

theorem Alike.batchWidth (a : Alike s s') (n : Nat) : s.batchWidth n = s'.batchWidth n := by
  have hf : s.forbs.length = s'.forbs.length := (a.uncond.append a.condF).length_eq
  unfold Space.batchWidth Space.mult
  rw [hf, a.condNames, a.len]

variable {σ : Type}

theorem Alike.drawLoop (a : Alike s s') (g : Rng σ) (size : Nat) : ∀ (fuel : Nat) (st : σ) (need : Nat) (acc : List Vec),
    s.drawLoop g size fuel st need acc = s'.drawLoop g size fuel st need acc := by
  intro fuel
  induction fuel with
  | zero => intros; rfl
  | succ k ih =>
    intro st need acc
    unfold Space.drawLoop
    simp only [a.batchWidth, a.hps, a.sampleBatch, ih]

theorem Alike.draw (a : Alike s s') (g : Rng σ) (fuel : Nat) (st : σ) (size : Option Int) :
    s.draw g fuel st size = s'.draw g fuel st size := by
  unfold Space.draw
  rw [a.len]
  simp only [a.drawLoop]

/-! ## The loop with a generator is the loop with its draws -/

theorem rows_length (g : Rng σ) (w : Nat) : ∀ (hs : List HP) (st : σ), (g.rows hs w st).1.length = hs.length
  | [], _ => rfl
  | h :: hs, st => by simp [Rng.rows, rows_length g w hs]

theorem rows_width {g : Rng σ} (hg : Spec.Rng.Exact g) (w : Nat) : ∀ (hs : List HP) (st : σ),
    ∀ row ∈ (g.rows hs w st).1, row.length = w
  | [], _, row, hr => by simp [Rng.rows] at hr
  | h :: hs, st, row, hr => by
    simp only [Rng.rows, List.mem_cons] at hr
    rcases hr with rfl | hr
    · rw [List.length_map]; exact hg _ _ _
    · exact rows_width hg w hs _ row hr

theorem rows_legal {g : Rng σ} (hg : Spec.Rng.Legal g) (w : Nat) : ∀ (hs : List HP) (st : σ) (i : Nat) (h : HP) (row : List NV),
    hs[i]? = some h → h.wf = true → (g.rows hs w st).1[i]? = some row → ∀ e ∈ row, ∃ q, e = some q ∧ h.kind.legalVec q = true
  | [], _, i, h, row, hi, _, _ => by simp at hi
  | x :: hs, st, 0, h, row, hi, hw, hr => by
    simp only [List.getElem?_cons_zero, Option.some.injEq] at hi
    simp only [Rng.rows, List.getElem?_cons_zero, Option.some.injEq] at hr
    subst hi
    subst hr
    intro e he
    obtain ⟨q, hq, rfl⟩ := List.mem_map.1 he
    exact ⟨q, rfl, hg _ _ _ hw q hq⟩
  | x :: hs, st, i + 1, h, row, hi, hw, hr => by
    simp only [List.getElem?_cons_succ] at hi
    simp only [Rng.rows, List.getElem?_cons_succ] at hr
    exact rows_legal hg w hs _ i h row hi hw hr

/-- State of the loop after some batches. -/
def loopState (s : Space) (g : Rng σ) (size : Nat) (st : σ) : Nat → σ × Nat × List Vec
  | 0 => (st, size, [])
  | b + 1 =>
    let x := loopState s g size st b
    let w := s.batchWidth x.2.1
    let r := g.rows (s.com.map Node.hp) w x.1
    let acc' := x.2.2 ++ s.sampleBatch w r.1
    (r.2, size - acc'.length, acc')

/-- The matrices that the generator gives. -/
def drawnRows (s : Space) (g : Rng σ) (size : Nat) (st : σ) (b w : Nat) : Mat :=
  (g.rows (s.com.map Node.hp) w (loopState s g size st b).1).1

theorem drawLoop_eq (s : Space) (g : Rng σ) (size : Nat) (st : σ) : ∀ (fuel b : Nat),
    (s.drawLoop g size fuel (loopState s g size st b).1 (loopState s g size st b).2.1 (loopState s g size st b).2.2).map Prod.fst =
    s.sampleLoop (drawnRows s g size st) size fuel b (loopState s g size st b).2.1 (loopState s g size st b).2.2 := by
  intro fuel
  induction fuel with
  | zero =>
    intro b
    unfold Space.drawLoop Space.sampleLoop
    split <;> rfl
  | succ k ih =>
    intro b
    unfold Space.drawLoop Space.sampleLoop
    split
    · rfl
    · exact ih (b + 1)

theorem draw_eq (s : Space) (g : Rng σ) (fuel : Nat) (st : σ) (size : Option Int) :
    (s.draw g fuel st size).map Prod.fst = s.sampleConfiguration (drawnRows s g (size.getD 1).toNat st) fuel size := by
  unfold Space.draw Space.sampleConfiguration
  split
  · cases size <;> rfl
  · dsimp only
    split
    · rfl
    · have := drawLoop_eq s g (size.getD 1).toNat st fuel 0
      simp only [loopState] at this
      rw [← this]
      cases s.drawLoop g (size.getD 1).toNat fuel st (size.getD 1).toNat [] with
      | none => rfl
      | some r =>
        obtain ⟨acc, st'⟩ := r
        simp only [Option.map_some]
        split
        · cases acc.head? <;> rfl
        · rfl

/-! ## Programs -/

theorem adds_append : ∀ (p q : List Cmd), adds (p ++ q) = adds p ++ adds q
  | [], q => rfl
  | .add k :: p, q => by simp [adds, adds_append p q]
  | .seed _ :: p, q => by simp [adds, adds_append p q]
  | .sample _ :: p, q => by simp [adds, adds_append p q]
  | .check _ _ :: p, q => by simp [adds, adds_append p q]
  | .config _ _ :: p, q => by simp [adds, adds_append p q]
  | .assign _ _ _ :: p, q => by simp [adds, adds_append p q]
  | .default :: p, q => by simp [adds, adds_append p q]

theorem run_append (g : Rng σ) (fuel : Nat) : ∀ (p q : List Cmd) (x z : RSpace σ) (as : List Ans),
    RSpace.run g fuel (p ++ q) x = some (z, as) → ∃ y bs cs, RSpace.run g fuel p x = some (y, bs) ∧
      RSpace.run g fuel q y = some (z, cs) ∧ as = bs ++ cs ∧ bs.length = p.length
  | [], q, x, z, as, h => ⟨x, [], as, rfl, h, rfl, rfl⟩
  | c :: p, q, x, z, as, h => by
    simp only [List.cons_append, RSpace.run] at h ⊢
    cases e : x.step g fuel c with
    | none => rw [e] at h; cases h
    | some r =>
      obtain ⟨y, a⟩ := r
      rw [e] at h
      dsimp only at h ⊢
      cases e' : RSpace.run g fuel (p ++ q) y with
      | none => rw [e'] at h; cases h
      | some r' =>
        obtain ⟨z', as'⟩ := r'
        rw [e'] at h
        simp only [Option.some.injEq, Prod.mk.injEq] at h
        obtain ⟨rfl, rfl⟩ := h
        obtain ⟨y', bs, cs, h1, h2, h3, h4⟩ := run_append g fuel p q y z' as' e'
        refine ⟨y', a :: bs, cs, ?_, h2, by simp [h3], by simp [h4]⟩
        rw [h1]

theorem wf_cons {c : Cmd} {p : List Cmd} (h : WfProgram (c :: p)) : WfProgram p := by
  intro k hk
  apply h
  cases c <;> simp [adds, hk]

/-- After a program whose calls of `add` all succeed the space is reached by these calls. -/
theorem run_reach (g : Rng σ) (fuel : Nat) : ∀ (p : List Cmd) {calls : List Call} {x y : RSpace σ} {as : List Ans},
    Reach calls x.space → WfProgram p → RSpace.run g fuel p x = some (y, as) → NoneFailed as →
    Reach (calls ++ adds p) y.space := by
  intro p
  induction p with
  | nil =>
    intro calls x y as h _ hr _
    simp only [RSpace.run, Option.some.injEq, Prod.mk.injEq] at hr
    obtain ⟨rfl, _⟩ := hr
    simpa [adds] using h
  | cons c p ih =>
    intro calls x y as h hw hr hn
    simp only [RSpace.run] at hr
    cases e : x.step g fuel c with
    | none => rw [e] at hr; cases hr
    | some r =>
      obtain ⟨x1, a⟩ := r
      rw [e] at hr
      dsimp only at hr
      cases e' : RSpace.run g fuel p x1 with
      | none => rw [e'] at hr; cases hr
      | some r' =>
        obtain ⟨y', as'⟩ := r'
        rw [e'] at hr
        simp only [Option.some.injEq, Prod.mk.injEq] at hr
        obtain ⟨rfl, rfl⟩ := hr
        have hn' : NoneFailed as' := fun e he => hn e (List.mem_cons_of_mem _ he)
        have hw' := wf_cons hw
        cases c with
        | add k =>
          simp only [RSpace.step, Option.some.injEq, Prod.mk.injEq] at e
          obtain ⟨rfl, rfl⟩ := e
          have hok : (x.space.add k.hps k.conds k.forbs).2 = none := by
            cases ho : (x.space.add k.hps k.conds k.forbs).2 with
            | none => rfl
            | some e => exact absurd (by rw [ho]; simp) (hn e)
          have := ih (.snoc h (hw k (by simp [adds])) (Prod.ext rfl hok)) hw' e' hn'
          simpa [adds, List.append_assoc] using this
        | seed n =>
          simp only [RSpace.step, Option.some.injEq, Prod.mk.injEq] at e
          obtain ⟨rfl, rfl⟩ := e
          exact ih (x := ⟨x.space, g.seeded n⟩) h hw' e' hn'
        | sample size =>
          simp only [RSpace.step] at e
          cases hd : x.space.draw g fuel x.random size with
          | none => rw [hd] at e; cases e
          | some r =>
            obtain ⟨r, st⟩ := r
            rw [hd] at e
            simp only [Option.some.injEq, Prod.mk.injEq] at e
            obtain ⟨rfl, rfl⟩ := e
            exact ih (x := ⟨x.space, st⟩) h hw' e' hn'
        | check v al =>
          simp only [RSpace.step, Option.some.injEq, Prod.mk.injEq] at e
          obtain ⟨rfl, rfl⟩ := e
          exact ih h hw' e' hn'
        | config d al =>
          simp only [RSpace.step, Option.some.injEq, Prod.mk.injEq] at e
          obtain ⟨rfl, rfl⟩ := e
          exact ih h hw' e' hn'
        | assign c n w =>
          simp only [RSpace.step, Option.some.injEq, Prod.mk.injEq] at e
          obtain ⟨rfl, rfl⟩ := e
          exact ih h hw' e' hn'
        | default =>
          simp only [RSpace.step, Option.some.injEq, Prod.mk.injEq] at e
          obtain ⟨rfl, rfl⟩ := e
          exact ih h hw' e' hn'

theorem Alike.changeHp (a : Alike s s') (v : Vec) (n : Name) (q : Rat) (i : Nat) : s.changeHp v n q i = s'.changeHp v n q i := by
  have hap : applyCNode s = applyCNode s' := by
    funext v c
    unfold applyCNode defaultVecs
    have hd : s.com.map (fun x => x.hp.defVec) = s'.com.map (fun x => x.hp.defVec) :=
      map_of_core (fun c => c.1.defVec) a.core
    rw [a.idx, hd]
  unfold Space.changeHp
  rw [a.lookup, a.mins, hap]

theorem Alike.setItem (a : Alike s s') (c : Config) (n : Name) (w : Val) : c.setItem s n w = c.setItem s' n w := by
  have hfind := findNode_core n a.core
  unfold Config.setItem
  rw [a.nodes, a.nodes']
  cases e : findNode s.com n with
  | none =>
    rw [e] at hfind
    cases e' : findNode s'.com n with
    | none => rfl
    | some y => rw [e'] at hfind; simp at hfind
  | some x =>
    rw [e] at hfind
    cases e' : findNode s'.com n with
    | none => rw [e'] at hfind; simp at hfind
    | some y =>
      rw [e'] at hfind
      simp only [Option.map_some, Option.some.injEq, Node.core, Prod.mk.injEq] at hfind
      simp only [hfind.1, a.idx, a.changeHp, a.check]

theorem own_prefix {l : List Call} (h : Reach calls s) (h' : Reach (calls ++ l) s') (ho : OwnClauses (calls ++ l)) :
    OwnClauses calls := by
  have i := sinv_of_reach h
  have sub : ∀ {x}, x ∈ allHps calls → x ∈ allHps (calls ++ l) := by
    intro x hx
    simp only [allHps, List.flatMap_append, List.mem_append]
    exact Or.inl hx
  intro f hf x hx
  have hx' := ho f (by simp only [allForbs, List.flatMap_append, List.mem_append]; exact Or.inl hf) x hx
  have hnode := i.hist.forbNames f hf x.name (by rw [names_eq]; exact List.mem_map.2 ⟨x, hx, rfl⟩)
  rw [i.hist.isNode] at hnode
  obtain ⟨y, hy, e⟩ := hnode
  rwa [← reach_hp_inj h' y (sub hy) x hx' e]

theorem one_prefix {l : List Call} (h : OneCondition (calls ++ l)) : OneCondition calls := by
  intro c hc d hd e
  refine h c ?_ d ?_ e <;> simp only [allConds, List.flatMap_append, List.mem_append]
  · exact Or.inl hc
  · exact Or.inl hd

theorem sameParts_snoc (h : SameParts calls calls') (k : Call) : SameParts (calls ++ [k]) (calls' ++ [k]) := by
  refine ⟨?_, ?_, ?_⟩
  · simp only [allHps, List.flatMap_append]
    exact h.hps.append_right _
  · intro c
    simp only [allConds, List.flatMap_append, List.mem_append]
    exact or_congr (h.conds c) Iff.rfl
  · simp only [allForbs, List.flatMap_append]
    exact h.forbs.append_right _

/-- Programs on spaces made of the same parts, with generators in the same state, give the same answers. -/
theorem run_same (g : Rng σ) (fuel : Nat) : ∀ (r : List Cmd) {calls calls' : List Call} {x x' y y' : RSpace σ} {as as' : List Ans},
    Reach calls x.space → Reach calls' x'.space → x.random = x'.random → SameParts calls calls' →
    OneCondition (calls ++ adds r) → OwnClauses (calls ++ adds r) → WfProgram r →
    RSpace.run g fuel r x = some (y, as) → RSpace.run g fuel r x' = some (y', as') → NoneFailed as → NoneFailed as' →
    as = as' := by
  intro r
  induction r with
  | nil =>
    intro calls calls' x x' y y' as as' _ _ _ _ _ _ _ h1 h2 _ _
    simp only [RSpace.run, Option.some.injEq, Prod.mk.injEq] at h1 h2
    rw [← h1.2, ← h2.2]
  | cons c r ih =>
    intro calls calls' x x' y y' as as' h h' hr hp h1 ho hw hrun hrun' hn hn'
    have hfull := run_reach g fuel _ h hw hrun hn
    have a := alike h h' hp (one_prefix h1) (own_prefix h hfull ho)
    simp only [RSpace.run] at hrun hrun'
    have hw' := wf_cons hw
    cases e : x.step g fuel c with
    | none => rw [e] at hrun; cases hrun
    | some z =>
    obtain ⟨x1, b⟩ := z
    cases e' : x'.step g fuel c with
    | none => rw [e'] at hrun'; cases hrun'
    | some z' =>
    obtain ⟨x1', b'⟩ := z'
    rw [e] at hrun
    rw [e'] at hrun'
    dsimp only at hrun hrun'
    cases f : RSpace.run g fuel r x1 with
    | none => rw [f] at hrun; cases hrun
    | some u =>
    obtain ⟨y1, bs⟩ := u
    cases f' : RSpace.run g fuel r x1' with
    | none => rw [f'] at hrun'; cases hrun'
    | some u' =>
    obtain ⟨y1', bs'⟩ := u'
    rw [f] at hrun
    rw [f'] at hrun'
    simp only [Option.some.injEq, Prod.mk.injEq] at hrun hrun'
    obtain ⟨rfl, rfl⟩ := hrun
    obtain ⟨rfl, rfl⟩ := hrun'
    have hn1 : NoneFailed bs := fun e he => hn e (List.mem_cons_of_mem _ he)
    have hn1' : NoneFailed bs' := fun e he => hn' e (List.mem_cons_of_mem _ he)
    cases c with
    | add k =>
      simp only [RSpace.step, Option.some.injEq, Prod.mk.injEq] at e e'
      obtain ⟨rfl, rfl⟩ := e
      obtain ⟨rfl, rfl⟩ := e'
      have hok : (x.space.add k.hps k.conds k.forbs).2 = none := by
        cases ho : (x.space.add k.hps k.conds k.forbs).2 with
        | none => rfl
        | some e => exact absurd (by rw [ho]; simp) (hn e)
      have hok' : (x'.space.add k.hps k.conds k.forbs).2 = none := by
        cases ho : (x'.space.add k.hps k.conds k.forbs).2 with
        | none => rfl
        | some e => exact absurd (by rw [ho]; simp) (hn' e)
      have hk := hw k (by simp [adds])
      have e1 : calls ++ adds (.add k :: r) = calls ++ [k] ++ adds r := by simp [adds]
      rw [e1] at h1 ho
      have := ih (x := ⟨(x.space.add k.hps k.conds k.forbs).1, x.random⟩) (x' := ⟨(x'.space.add k.hps k.conds k.forbs).1, x'.random⟩)
        (.snoc h hk (Prod.ext rfl hok)) (.snoc h' hk (Prod.ext rfl hok')) hr (sameParts_snoc hp k) h1 ho hw' f f' hn1 hn1'
      rw [hok, hok', this]
    | seed n =>
      simp only [RSpace.step, Option.some.injEq, Prod.mk.injEq] at e e'
      obtain ⟨rfl, rfl⟩ := e
      obtain ⟨rfl, rfl⟩ := e'
      have := ih (x := ⟨x.space, g.seeded n⟩) (x' := ⟨x'.space, g.seeded n⟩) h h' rfl hp h1 ho hw' f f' hn1 hn1'
      rw [this]
    | sample size =>
      simp only [RSpace.step] at e e'
      rw [← hr, ← a.draw] at e'
      cases hd : x.space.draw g fuel x.random size with
      | none => rw [hd] at e; cases e
      | some z =>
        obtain ⟨z, st⟩ := z
        rw [hd] at e e'
        simp only [Option.some.injEq, Prod.mk.injEq] at e e'
        obtain ⟨rfl, rfl⟩ := e
        obtain ⟨rfl, rfl⟩ := e'
        have := ih (x := ⟨x.space, st⟩) (x' := ⟨x'.space, st⟩) h h' rfl hp h1 ho hw' f f' hn1 hn1'
        rw [this]
    | check v al =>
      simp only [RSpace.step, Option.some.injEq, Prod.mk.injEq] at e e'
      obtain ⟨rfl, rfl⟩ := e
      obtain ⟨rfl, rfl⟩ := e'
      rw [ih h h' hr hp h1 ho hw' f f' hn1 hn1', a.check]
    | config d al =>
      simp only [RSpace.step, Option.some.injEq, Prod.mk.injEq] at e e'
      obtain ⟨rfl, rfl⟩ := e
      obtain ⟨rfl, rfl⟩ := e'
      rw [ih h h' hr hp h1 ho hw' f f' hn1 hn1', a.config]
    | assign c n w =>
      simp only [RSpace.step, Option.some.injEq, Prod.mk.injEq] at e e'
      obtain ⟨rfl, rfl⟩ := e
      obtain ⟨rfl, rfl⟩ := e'
      rw [ih h h' hr hp h1 ho hw' f f' hn1 hn1', a.setItem]
    | default =>
      simp only [RSpace.step, Option.some.injEq, Prod.mk.injEq] at e e'
      obtain ⟨rfl, rfl⟩ := e
      obtain ⟨rfl, rfl⟩ := e'
      rw [ih h h' hr hp h1 ho hw' f f' hn1 hn1', a.default]

/-! ## The order of sets -/

theorem lookup_cons_if {β : Type} (m : List (Name × β)) (n a : Name) (b : β) :
    List.lookup n ((a, b) :: m) = if n = a then some b else m.lookup n := by
  rw [List.lookup_cons]
  by_cases e : n = a
  · subst e; simp
  · have : (n == a) = false := by simpa using e
    rw [this, if_neg e]

theorem lookup_append_single {β : Type} (m : List (Name × β)) (n k : Name) (v : β) :
    (m ++ [(k, v)]).lookup n = if (m.lookup n).isSome then m.lookup n else if n = k then some v else none := by
  induction m with
  | nil => simp [lookup_cons_if]
  | cons p m ih =>
    obtain ⟨a, b⟩ := p
    rw [List.cons_append, lookup_cons_if, lookup_cons_if, ih]
    by_cases e : n = a
    · simp only [if_pos e, Option.isSome_some, if_true]
    · simp only [if_neg e]

theorem noteClause_lookup (m : List (Name × List Forb)) (f : Forb) (n k : Name) :
    ((noteClause m f k).lookup n).getD [] = (m.lookup n).getD [] ++ (if n = k then [f] else []) := by
  unfold noteClause
  cases e : m.lookup k with
  | none =>
    dsimp only
    rw [lookup_append_single]
    by_cases h : n = k
    · subst h; simp [e]
    · simp only [if_neg h, List.append_nil]
      cases m.lookup n <;> simp
  | some fs =>
    dsimp only
    rw [dictSet_lookup]
    by_cases h : n = k
    · subst h; simp [e]
    · simp [h]

theorem noteNames_lookup (f : Forb) (n : Name) : ∀ (ks : List Name) (m : List (Name × List Forb)),
    ((ks.foldl (fun m k => noteClause m f k) m).lookup n).getD [] = (m.lookup n).getD [] ++ List.replicate (ks.count n) f
  | [], m => by simp
  | k :: ks, m => by
    rw [List.foldl_cons, noteNames_lookup f n ks, noteClause_lookup, List.append_assoc, List.count_cons]
    by_cases h : n = k
    · subst h
      simp [List.replicate_succ]
    · have : ¬ k = n := fun e => h e.symm
      simp [h, this]

theorem noteClauses_lookup (order : Forb → List Name) (n : Name) (fast : List Forb) :
    ((noteClauses order fast).lookup n).getD [] = fast.flatMap (fun f => List.replicate ((order f).count n) f) := by
  have key : ∀ (fs : List Forb) (m : List (Name × List Forb)),
      ((fs.foldl (fun m f => (order f).foldl (fun m n => noteClause m f n) m) m).lookup n).getD [] =
        (m.lookup n).getD [] ++ fs.flatMap (fun f => List.replicate ((order f).count n) f) := by
    intro fs
    induction fs with
    | nil => intro m; simp
    | cons f fs ih =>
      intro m
      rw [List.foldl_cons, ih, noteNames_lookup, List.flatMap_cons, List.append_assoc]
  have := key fast []
  simpa [noteClauses] using this

end Verif
