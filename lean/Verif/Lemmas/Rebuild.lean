import Verif.Lemmas.Accept
import Verif.Lemmas.Round
import Verif.Lemmas.Stable
import Verif.Lemmas.Check
import Verif.Lemmas.Build
import Verif.Props.Graph
import Verif.Props.Forbid

/-!
# Comparing two spaces node by node

What the default configuration and validation look at, of a node: the hyperparameter, the depth and the condition.
The order of `children` and `parents` may differ.
-/

set_option autoImplicit false

namespace Verif
open Spec

/-- What matters of a node. -/
def Node.core (x : Node) : HP × Nat × Option Cond := (x.hp, x.depth, x.cond)

/-- The invariant of a space before its default configuration is checked. -/
structure Pre (s : Space) (H : List HP) (C : List Cond) (F : List Forb) : Prop where
  hist : HInv s.dag H C F
  com : s.dag.nodes = s.com
  sorted : s.com.Pairwise (fun a b => keyLe (a.depth, a.name) (b.depth, b.name) = true)
  roots : s.dag.roots = rootNames s.com
  len : s.len = s.com.length
  fast : optimizedForbs (idxOf s.com) (s.dag.uncond ++ s.dag.condF) = .ok s.fast
  mins : s.minConds = minCondsSorted s.com

theorem pre_of_reach {calls : List Call} {s : Space} (h : Reach calls s) :
    Pre s (allHps calls) (allConds calls) (allForbs calls) :=
  let i := sinv_of_reach h
  ⟨i.hist, i.com, i.sorted, i.roots, i.len, i.fast, i.mins⟩

/-- What `add` does when the arguments fit: only the check of the default configuration is left. -/
theorem add_candidate {calls : List Call} {s : Space} (h : Reach calls s) {k : Call} (hk : k.wf) (hf : Fits calls k)
    (hown : OwnClauses (calls ++ [k])) (hne : NoEmptyClause (allForbs (calls ++ [k]))) :
    ∃ s', Pre s' (allHps (calls ++ [k])) (allConds (calls ++ [k])) (allForbs (calls ++ [k])) ∧
      s.add k.hps k.conds k.forbs = (s', match s'.defaultConfig with
        | .error e => some e
        | .ok _ => none) := by
  obtain ⟨g, hg, hi⟩ := addAll_ok h hk hf
  obtain ⟨s1, hs1⟩ := commit_total (s := s) hi hown hne
  obtain ⟨m1, m2, m3, m4, m5, m6, m7, m8, m9⟩ := commit_ok hi hs1
  refine ⟨{ s1 with len := s1.dag.nodes.length }, ⟨m1, m2, ?_, m4, ?_, m7, m8⟩, ?_⟩
  · simp only [m3]
    exact sortBy_pairwise
      (le := fun a b : Node => keyLe (a.depth, a.name) (b.depth, b.name))
      (fun a b => keyLe_total _ _) (fun a b c => keyLe_trans _ _ _) _
  · simp only [m2]
  · unfold Space.add
    rw [hg]
    simp only [hs1]
    split <;> rename_i hd <;> simp [hd]

theorem map_core {ns : Nodes} (hnd : (namesOf ns).Nodup) :
    ns.map (fun x => (some x.hp, x.depth, x.cond)) = (namesOf ns).map (fun n => (hpAt ns n, depthOf ns n, condAt ns n)) := by
  unfold namesOf
  rw [List.map_map]
  apply List.map_congr_left
  intro x hx
  simp [depthOf, hpAt, condAt, findNode_of_mem hnd hx]

/-- Spaces with the same hyperparameters and the same parents have the same names and depths, in the same order. -/
theorem keys_eq {s s' : Space} {H H' : List HP} {C C' : List Cond} {F F' : List Forb} (p : Pre s H C F)
    (p' : Pre s' H' C' F') (hh : H.Perm H') (hE : parentRel C = parentRel C') :
    namesOf s.com = namesOf s'.com ∧ (∀ n, IsNode s.com n → depthOf s.com n = depthOf s'.com n) ∧
    ∀ n, hpAt s.com n = hpAt s'.com n := by
  have hn : NInv s.com := p.com ▸ p.hist.ninv
  have hn' : NInv s'.com := p'.com ▸ p'.hist.ninv
  have hV : IsNode s.com = IsNode s'.com := by
    funext n
    apply propext
    rw [← p.com, ← p'.com, p.hist.isNode, p'.hist.isNode]
    constructor
    · rintro ⟨x, hx, e⟩; exact ⟨x, hh.mem_iff.1 hx, e⟩
    · rintro ⟨x, hx, e⟩; exact ⟨x, hh.mem_iff.2 hx, e⟩
  have hE' : Edge s.com = Edge s'.com := by
    funext a b
    apply propext
    rw [← p.com, ← p'.com, p.hist.edge, p'.hist.edge]
    exact iff_of_eq (congrFun (congrFun hE a) b)
  have hD : ∀ n, IsNode s.com n → depthOf s.com n = depthOf s'.com n := by
    intro n hnode
    have l1 := hn.toDInv.longest hnode
    have l2 := hn'.toDInv.longest (hV ▸ hnode)
    rw [hV, hE'] at l1
    exact Nat.le_antisymm (l2.2 _ l1.1) (l1.2 _ l2.1)
  have hhp : ∀ n, hpAt s.com n = hpAt s'.com n := by
    intro n
    cases e : hpAt s'.com n with
    | some x =>
      rw [← p'.com, p'.hist.hp] at e
      rw [← p.com, p.hist.hp]
      exact ⟨hh.mem_iff.2 e.1, e.2⟩
    | none =>
      cases e' : hpAt s.com n with
      | none => rfl
      | some x =>
        rw [← p.com, p.hist.hp] at e'
        have : hpAt s'.com n = some x := by
          rw [← p'.com, p'.hist.hp]
          exact ⟨hh.mem_iff.1 e'.1, e'.2⟩
        rw [e] at this
        cases this
  have hkey : ∀ (t : Space), (namesOf t.com).Nodup →
      t.com.map (fun x => (x.depth, x.name)) = (namesOf t.com).map (fun n => (depthOf t.com n, n)) := by
    intro t hnd
    unfold namesOf
    rw [List.map_map]
    apply List.map_congr_left
    intro x hx
    simp [depthOf, findNode_of_mem hnd hx]
  have hperm : (s.com.map (fun x => (x.depth, x.name))).Perm
      (s'.com.map (fun x => (x.depth, x.name))) := by
    rw [hkey s hn.nodup, hkey s' hn'.nodup]
    have e1 : (namesOf s.com).map (fun n => (depthOf s.com n, n))
        = (namesOf s.com).map (fun n => (depthOf s'.com n, n)) := by
      apply List.map_congr_left
      intro n hnm
      rw [hD n hnm]
    rw [e1]
    apply List.Perm.map
    have p1 : (namesOf s.com).Perm (H.map HP.name) := by
      have := p.hist.hps.map HP.name
      rw [p.com, List.map_map] at this
      exact this
    have p2 : (namesOf s'.com).Perm (H'.map HP.name) := by
      have := p'.hist.hps.map HP.name
      rw [p'.com, List.map_map] at this
      exact this
    exact p1.trans ((hh.map HP.name).trans p2.symm)
  have hkeys : s.com.map (fun x => (x.depth, x.name)) = s'.com.map (fun x => (x.depth, x.name)) := by
    refine perm_sorted_eq (R := fun a b => keyLe a b = true) keyLe_antisymm hperm ?_ ?_
    · exact List.pairwise_map.2 p.sorted
    · exact List.pairwise_map.2 p'.sorted
  have hnames : namesOf s.com = namesOf s'.com := by
    have := congrArg (List.map Prod.snd) hkeys
    simpa [List.map_map, Function.comp_def, namesOf] using this
  exact ⟨hnames, hD, hhp⟩

/-- Spaces with the same hyperparameters and conditions have the same nodes, up to the order of children and
parents. -/
theorem core_eq {s s' : Space} {H H' : List HP} {C C' : List Cond} {F F' : List Forb} (p : Pre s H C F)
    (p' : Pre s' H' C' F') (hh : H.Perm H') (hE : parentRel C = parentRel C')
    (hc : ∀ n, lastCond C n = lastCond C' n) : s.com.map Node.core = s'.com.map Node.core := by
  have hn : NInv s.com := p.com ▸ p.hist.ninv
  have hn' : NInv s'.com := p'.com ▸ p'.hist.ninv
  obtain ⟨hnames, hD, hhp⟩ := keys_eq p p' hh hE
  have hcond : ∀ n, condAt s.com n = condAt s'.com n := by
    intro n
    rw [← p.com, ← p'.com, p.hist.cond, p'.hist.cond, hc]
  have hcore : s.com.map (fun x => (some x.hp, x.depth, x.cond)) = s'.com.map (fun x => (some x.hp, x.depth, x.cond)) := by
    rw [map_core hn.nodup, map_core hn'.nodup, ← hnames]
    apply List.map_congr_left
    intro n hnm
    rw [hhp, hD n hnm, hcond]
  have hinj : Function.Injective (fun c : HP × Nat × Option Cond => ((some c.1, c.2.1, c.2.2) : Option HP × Nat × Option Cond)) := by
    rintro ⟨a, b, c⟩ ⟨a', b', c'⟩ h
    simp only [Prod.mk.injEq, Option.some.injEq] at h
    simp [h]
  have h1 : ∀ (t : Nodes), t.map (fun x => (some x.hp, x.depth, x.cond)) =
      (t.map Node.core).map (fun c : HP × Nat × Option Cond => ((some c.1, c.2.1, c.2.2) : Option HP × Nat × Option Cond)) := by
    intro t
    rw [List.map_map]; rfl
  rw [h1, h1] at hcore
  exact (List.map_injective_iff.2 hinj) hcore

/-! ## What only depends on the core -/

theorem map_of_core {ns ns' : Nodes} {β : Type} (f : HP × Nat × Option Cond → β) (h : ns.map Node.core = ns'.map Node.core) :
    ns.map (fun x => f x.core) = ns'.map (fun x => f x.core) := by
  have := congrArg (List.map f) h
  simpa [List.map_map, Function.comp_def] using this

theorem defaultValues_core : ∀ {ns ns' : Nodes} (d : Dict), ns.map Node.core = ns'.map Node.core →
    defaultValues ns d = defaultValues ns' d
  | [], [], _, _ => rfl
  | [], _ :: _, _, h => by simp at h
  | _ :: _, [], _, h => by simp at h
  | x :: xs, y :: ys, d, h => by
    simp only [List.map_cons, List.cons.injEq, Node.core, Prod.mk.injEq] at h
    obtain ⟨⟨h1, h2, h3⟩, h4⟩ := h
    have hnm : x.name = y.name := by simp [Node.name, h1]
    unfold defaultValues
    rw [h3, hnm, h1]
    have ih := fun d => defaultValues_core (ns := xs) (ns' := ys) d h4
    simp only [ih]

theorem fillValues_core {s s' : Space} (hidx : s.idx = s'.idx) : ∀ {ns ns' : Nodes} (d : Dict) (v : Vec)
    (vals : List (Name × Val)), ns.map Node.core = ns'.map Node.core → fillValues s d ns v vals = fillValues s' d ns' v vals
  | [], [], _, _, _, _ => rfl
  | [], _ :: _, _, _, _, h => by simp at h
  | _ :: _, [], _, _, _, h => by simp at h
  | x :: xs, y :: ys, d, v, vals, h => by
    simp only [List.map_cons, List.cons.injEq, Node.core, Prod.mk.injEq] at h
    obtain ⟨⟨h1, h2, h3⟩, h4⟩ := h
    have hnm : x.name = y.name := by simp [Node.name, h1]
    unfold fillValues
    rw [hnm, h1, hidx]
    have ih := fun d v vals => fillValues_core (ns := xs) (ns' := ys) hidx d v vals h4
    simp only [ih]

theorem findNode_core : ∀ {ns ns' : Nodes} (n : Name), ns.map Node.core = ns'.map Node.core →
    (findNode ns n).map Node.core = (findNode ns' n).map Node.core
  | [], [], _, _ => rfl
  | [], _ :: _, _, h => by simp at h
  | _ :: _, [], _, h => by simp at h
  | x :: xs, y :: ys, n, h => by
    simp only [List.map_cons, List.cons.injEq] at h
    have hnm : x.name = y.name := by
      have := h.1
      simp only [Node.core, Prod.mk.injEq] at this
      simp [Node.name, this.1]
    have ih := findNode_core (ns := xs) (ns' := ys) n h.2
    unfold findNode at ih ⊢
    rw [List.find?_cons, List.find?_cons, hnm]
    split
    · simp [h.1]
    · exact ih

theorem minConditions_core {ns ns' : Nodes} (h : ns.map Node.core = ns'.map Node.core) :
    minConditions ns = minConditions ns' := by
  have key : ∀ {ns ns' : Nodes} (gs : List CNode), ns.map Node.core = ns'.map Node.core →
      ns.foldl (fun gs x => match x.cond with
        | none => gs
        | some c => addToGroups gs x.name c) gs = ns'.foldl (fun gs x => match x.cond with
        | none => gs
        | some c => addToGroups gs x.name c) gs := by
    intro ns
    induction ns with
    | nil =>
      intro ns' gs h
      cases ns' with
      | nil => rfl
      | cons y ys => simp at h
    | cons x xs ih =>
      intro ns' gs h
      cases ns' with
      | nil => simp at h
      | cons y ys =>
        simp only [List.map_cons, List.cons.injEq, Node.core, Prod.mk.injEq] at h
        obtain ⟨⟨h1, h2, h3⟩, h4⟩ := h
        have hnm : x.name = y.name := by simp [Node.name, h1]
        simp only [List.foldl_cons]
        rw [h3, hnm]
        exact ih _ h4
  exact key [] h

theorem depthOf_core {ns ns' : Nodes} (h : ns.map Node.core = ns'.map Node.core) : depthOf ns = depthOf ns' := by
  funext n
  have := congrArg (Option.map (fun c : HP × Nat × Option Cond => c.2.1)) (findNode_core n h)
  simp only [Option.map_map] at this
  unfold depthOf
  cases h1 : findNode ns n <;> cases h2 : findNode ns' n <;> rw [h1, h2] at this <;>
    simp_all [Node.core]

theorem minCondsSorted_core {ns ns' : Nodes} (h : ns.map Node.core = ns'.map Node.core) :
    minCondsSorted ns = minCondsSorted ns' := by
  unfold minCondsSorted shallowest
  rw [minConditions_core h, depthOf_core h]

theorem names_core {ns ns' : Nodes} (h : ns.map Node.core = ns'.map Node.core) : ns.map Node.name = ns'.map Node.name :=
  map_of_core (fun c => c.1.name) h

theorem rootNames_core {ns ns' : Nodes} (h : ns.map Node.core = ns'.map Node.core) : rootNames ns = rootNames ns' := by
  have key : ∀ (t : Nodes), rootNames t = ((t.map Node.core).filter (fun c => decide (c.2.1 = 1))).map (fun c => c.1.name) := by
    intro t
    unfold rootNames
    rw [List.filter_map, List.map_map]
    rfl
  rw [key, key, h]

theorem checkConds_core {s s' : Space} (hidx : s.idx = s'.idx) (hhp : s.hp? = s'.hp?) (v : Vec) (al : Bool) :
    ∀ cs, checkConds s v al cs = checkConds s' v al cs
  | [] => rfl
  | c :: cs => by
    unfold checkConds
    rw [checkConds_core hidx hhp v al cs, hidx]
    unfold firstWith Space.legalAt
    rw [hhp, hidx]

/-- Validation, construction from values and the default configuration are the same in two spaces with the same
nodes whose clauses forbid the same. -/
theorem same_default_on {s s' : Space} {H H' : List HP} {C C' : List Cond} {F F' : List Forb} (p : Pre s H C F)
    (p' : Pre s' H' C' F') (hh : H.Perm H') (hown : ∀ f ∈ F, ∀ h ∈ clauseHps f, h ∈ H)
    (hown' : ∀ f ∈ F', ∀ h ∈ clauseHps f, h ∈ H') (hF : ∀ a : Assign, (∃ f ∈ F, Forbids a f) ↔ ∃ f ∈ F', Forbids a f)
    (hcore : s.com.map Node.core = s'.com.map Node.core) :
    (∀ v al, s.check v al = s'.check v al) ∧ (∀ d al, Config.ofValues s d al = Config.ofValues s' d al) ∧
    s.defaultConfig = s'.defaultConfig := by
  have hidx : s.idx = s'.idx := by
    funext n
    simp [Space.idx, idxOf, names_core hcore]
  have hhp : s.hp? = s'.hp? := by
    funext n
    have := congrArg (Option.map (fun c : HP × Nat × Option Cond => c.1)) (findNode_core n hcore)
    simpa [Space.hp?, Option.map_map, Function.comp_def, Node.core] using this
  have hnd : (H.map HP.name).Nodup := by
    have : (s.dag.nodes.map Node.hp).map HP.name = namesOf s.dag.nodes := by simp [namesOf, Node.name]
    exact ((p.hist.hps.map HP.name).nodup_iff).1 (this ▸ p.hist.ninv.nodup)
  have hinj : ∀ x ∈ H, ∀ y ∈ H, x.name = y.name → x = y :=
    fun x hx y hy e => List.inj_on_of_nodup_map hnd hx hy e
  have hfast : ∀ v, (s.fast.any (fun f => f.onVec s.idx v)) = (s'.fast.any (fun f => f.onVec s'.idx v)) := by
    intro v
    rw [Bool.eq_iff_iff, forb_any_iff, forb_any_iff, hidx,
      optimizedForbs_on (H := H) hinj (fun f hf => hown f (p.hist.forbs.mem_iff.1 hf))
        (fun f hf => p.hist.forbWf f (p.hist.forbs.mem_iff.1 hf)) p.fast,
      optimizedForbs_on (H := H) hinj
        (fun f hf x hx => hh.mem_iff.2 (hown' f (p'.hist.forbs.mem_iff.1 hf) x hx))
        (fun f hf => p'.hist.forbWf f (p'.hist.forbs.mem_iff.1 hf)) p'.fast]
    simp only [p.hist.forbs.mem_iff, p'.hist.forbs.mem_iff, hF]
  have hcheck : ∀ v al, s.check v al = s'.check v al := by
    intro v al
    unfold Space.check
    rw [p.roots, p'.roots, rootNames_core hcore, p.mins, p'.mins, minCondsSorted_core hcore,
      checkConds_core hidx hhp, hfast]
    unfold firstWith
    rw [hidx]
  have hof : ∀ d al, Config.ofValues s d al = Config.ofValues s' d al := by
    intro d al
    unfold Config.ofValues
    have hlen : s.len = s'.len := by
      rw [p.len, p'.len]
      simpa using congrArg List.length hcore
    rw [p.com, p'.com, names_core hcore, hlen, fillValues_core hidx _ _ _ hcore]
    simp only [hcheck]
  refine ⟨hcheck, hof, ?_⟩
  unfold Space.defaultConfig
  rw [p.com, p'.com, defaultValues_core [] hcore]
  split
  · rfl
  · exact hof _ _

/-- Validation, construction from values and the default configuration are the same in two spaces with the same
nodes and the same set of clauses. -/
theorem same_default {s s' : Space} {H H' : List HP} {C C' : List Cond} {F F' : List Forb} (p : Pre s H C F)
    (p' : Pre s' H' C' F') (hh : H.Perm H') (hown : ∀ f ∈ F, ∀ h ∈ clauseHps f, h ∈ H) (hF : ∀ f, f ∈ F ↔ f ∈ F')
    (hcore : s.com.map Node.core = s'.com.map Node.core) :
    (∀ v al, s.check v al = s'.check v al) ∧ (∀ d al, Config.ofValues s d al = Config.ofValues s' d al) ∧
    s.defaultConfig = s'.defaultConfig :=
  same_default_on p p' hh hown (fun f hf x hx => hh.mem_iff.1 (hown f ((hF f).2 hf) x hx)) (fun a => by simp only [hF]) hcore

/-! ## Spaces without conditions -/

theorem defaultValues_plain : ∀ {ns : Nodes} {d : Dict}, (∀ x ∈ ns, x.cond = none) →
    defaultValues ns d = .ok (d ++ ns.map (fun x => (x.name, some x.hp.default)))
  | [], d, _ => by simp [defaultValues]
  | x :: xs, d, h => by
    unfold defaultValues
    rw [h x (by simp)]
    simp only
    rw [defaultValues_plain (fun y hy => h y (by simp [hy]))]
    simp

theorem minConditions_plain {ns : Nodes} (h : ∀ x ∈ ns, x.cond = none) : minConditions ns = [] := by
  unfold minConditions
  induction ns with
  | nil => rfl
  | cons x xs ih =>
    simp only [List.foldl_cons]
    rw [h x (by simp)]
    exact ih (fun y hy => h y (by simp [hy]))

theorem lookup_defaults {ns : Nodes} (hnd : (namesOf ns).Nodup) {x : Node} (hx : x ∈ ns) :
    (ns.map (fun x => (x.name, some x.hp.default)) : Dict).lookup x.name = some (some x.hp.default) := by
  induction ns with
  | nil => cases hx
  | cons y ys ih =>
    simp only [namesOf, List.map_cons, List.nodup_cons] at hnd
    rw [List.map_cons, List.lookup_cons]
    rcases List.mem_cons.1 hx with rfl | hx
    · simp
    · have hne : x.name ≠ y.name := fun e => hnd.1 (e ▸ List.mem_map.2 ⟨x, hx, rfl⟩)
      rw [beq_false_of_ne hne]
      exact ih hnd.2 hx

/-- The default configuration of a space without conditions: all defaults, checked against the clauses. -/
theorem uncond_check {s : Space} {H : List HP} {F : List Forb} (p : Pre s H [] F) (hw : ∀ h ∈ H, h.wf = true)
    (hown : ∀ f ∈ F, ∀ h ∈ clauseHps f, h ∈ H) :
    ∃ a : Assign, (∀ h ∈ H, a h.name = h.kind.toVec h.default) ∧
      ((∃ f ∈ F, Forbids a f) ∧ s.defaultConfig = .error .forbidden ∨
        (¬ ∃ f ∈ F, Forbids a f) ∧ ∃ c, s.defaultConfig = .ok c) := by
  have hn : NInv s.com := p.com ▸ p.hist.ninv
  have hc : ∀ x ∈ s.com, x.cond = none := by
    intro x hx
    have := p.hist.cond x.name
    rw [p.com] at this
    simpa [condAt, findNode_of_mem hn.nodup hx, lastCond] using this
  have hwx : ∀ x ∈ s.com, x.hp.wf = true := by
    intro x hx
    apply hw
    rw [← p.com] at hx
    exact p.hist.hps.mem_iff.1 (List.mem_map.2 ⟨x, hx, rfl⟩)
  have hlk := fun {x : Node} (hx : x ∈ s.com) => lookup_defaults hn.nodup hx
  have hidx : ∀ x ∈ s.com, s.idx x.name < s.com.length := by
    intro x hx
    have : x.name ∈ s.com.map Node.name := List.mem_map.2 ⟨x, hx, rfl⟩
    simpa [Space.idx, idxOf] using List.idxOf_lt_length_of_mem this
  have hidn : (s.com.map (fun x => s.idx x.name)).Nodup := by
    have h1 : s.com.map (fun x => s.idx x.name) = (s.com.map Node.name).map s.idx := by simp
    rw [h1]
    refine List.Nodup.map_on ?_ hn.nodup
    intro a ha b hb e
    exact (List.idxOf_inj ha).1 e
  obtain ⟨⟨v, vals⟩, hf⟩ := fillValues_total (s := s)
    (d := (s.com.map (fun x => (x.name, some x.hp.default)) : Dict)) (xs := s.com)
    (v := List.replicate s.len none) (vals := []) hwx (by
      intro x hx w e
      rw [hlk hx] at e
      cases e
      exact HP.wf_legal (hwx x hx))
  obtain ⟨_, h2, _, _⟩ := fillValues_spec hf hidn hn.nodup (by
      intro x hx
      rw [List.length_replicate, p.len]
      exact hidx x hx) (by simp)
  have hset : ∀ n ∈ rootNames s.com, isSet (v.at (s.idx n)) = true := by
    intro n hnr
    obtain ⟨x, hx, rfl⟩ := List.mem_map.1 hnr
    have hx := (List.mem_filter.1 hx).1
    rcases h2 x hx with ⟨w, q, _, _, _, e, _⟩ | ⟨e | e, _⟩
    · rw [e]; rfl
    · rw [hlk hx] at e; cases e
    · rw [hlk hx] at e; cases e
  have hnd : (H.map HP.name).Nodup := by
    have : (s.dag.nodes.map Node.hp).map HP.name = namesOf s.dag.nodes := by simp [namesOf, Node.name]
    exact ((p.hist.hps.map HP.name).nodup_iff).1 (this ▸ p.hist.ninv.nodup)
  have hfast : s.fast.any (fun f => f.onVec s.idx v) = true ↔ ∃ f ∈ F, Forbids (asg s.idx v) f := by
    rw [forb_any_iff,
      optimizedForbs_on (H := H) (fun x hx y hy e => List.inj_on_of_nodup_map hnd hx hy e)
        (fun f hf => hown f (p.hist.forbs.mem_iff.1 hf)) (fun f hf => p.hist.forbWf f (p.hist.forbs.mem_iff.1 hf)) p.fast]
    simp only [p.hist.forbs.mem_iff]
  have hall : ∀ h ∈ H, asg s.idx v h.name = h.kind.toVec h.default := by
    intro h hh
    obtain ⟨x, hx, rfl⟩ := List.mem_map.1 (p.hist.hps.mem_iff.2 hh)
    rw [p.com] at hx
    rcases h2 x hx with ⟨w, q, e1, _, e3, e, _⟩ | ⟨e | e, _⟩
    · rw [hlk hx] at e1
      cases e1
      rw [HP.wf_default_round (hwx x hx)] at e3
      exact e.trans e3.symm
    · rw [hlk hx] at e; cases e
    · rw [hlk hx] at e; cases e
  have hchk : s.check v false = if s.fast.any (fun f => f.onVec s.idx v) then some .forbidden else none := by
    unfold Space.check
    have h1 : firstWith (fun e => !isSet e) s v s.dag.roots = none := by
      unfold firstWith
      rw [List.find?_eq_none, p.roots]
      intro n hnr
      simp [hset n hnr]
    rw [h1, p.mins, minCondsSorted, minConditions_plain hc]
    simp [sortBy, checkConds]
  have hdef : s.defaultConfig = match s.check v false with
      | some e => .error e
      | none => .ok ⟨v, some vals, false⟩ := by
    unfold Space.defaultConfig
    rw [p.com, defaultValues_plain hc]
    simp only [List.nil_append]
    unfold Config.ofValues
    rw [if_neg, p.com, hf]
    · rfl
    · rw [p.com, List.any_eq_true]
      rintro ⟨kv, hkv, hb⟩
      obtain ⟨x, hx, rfl⟩ := List.mem_map.1 hkv
      have : x.name ∈ s.com.map Node.name := List.mem_map.2 ⟨x, hx, rfl⟩
      simp only [this, not_true_eq_false, decide_false, Bool.false_and, Bool.false_eq_true] at hb
  refine ⟨asg s.idx v, hall, ?_⟩
  cases hb : s.fast.any (fun f => f.onVec s.idx v) with
  | true => exact .inl ⟨hfast.1 hb, by rw [hdef, hchk, hb]; rfl⟩
  | false =>
    refine .inr ⟨fun he => ?_, _, by rw [hdef, hchk, hb]; rfl⟩
    rw [hfast.2 he] at hb
    cases hb

/-- The default configuration of a space without conditions exists if the clauses do not forbid it. -/
theorem uncond_default {s : Space} {H : List HP} {F : List Forb} (p : Pre s H [] F) (hw : ∀ h ∈ H, h.wf = true)
    (hown : ∀ f ∈ F, ∀ h ∈ clauseHps f, h ∈ H)
    (hno : ∀ a : Assign, (∀ h ∈ H, a h.name = h.kind.toVec h.default) → ∀ f ∈ F, ¬ Forbids a f) :
    ∃ c, s.defaultConfig = .ok c := by
  obtain ⟨a, h1, ⟨⟨f, hf, hb⟩, -⟩ | ⟨-, h2⟩⟩ := uncond_check p hw hown
  · exact absurd hb (hno a h1 f hf)
  · exact h2

/-- The default configuration of a space without conditions is rejected if the clauses forbid it. -/
theorem uncond_forbidden {s : Space} {H : List HP} {F : List Forb} (p : Pre s H [] F) (hw : ∀ h ∈ H, h.wf = true)
    (hown : ∀ f ∈ F, ∀ h ∈ clauseHps f, h ∈ H) {b : Assign} (hall : ∀ h ∈ H, b h.name = h.kind.toVec h.default) {f : Forb}
    (hf : f ∈ F) (hb : Forbids b f) : s.defaultConfig = .error .forbidden := by
  obtain ⟨a, h1, ⟨-, h2⟩ | ⟨h2, -⟩⟩ := uncond_check p hw hown
  · exact h2
  · exact absurd ⟨f, hf, (forbids_congr f fun x hx => by rw [h1 x (hown f hf x hx), hall x (hown f hf x hx)]).2 hb⟩ h2

/-- The default configuration of a space without conditions and clauses exists. -/
theorem plain_default {s : Space} {H : List HP} (p : Pre s H [] []) (hw : ∀ h ∈ H, h.wf = true) :
    ∃ c, s.defaultConfig = .ok c := uncond_default p hw (by simp) (by simp)

theorem eqParts_nil {cs : List Forb} (h : cs = []) : (Forb.and cs).eqConj? = some [] := by
  subst h; rfl

theorem optGroups_nil_mem : ∀ {ps : List (List EqPart)} {acc gs : List ((Name × List (Name × Rat)) × OptGroup)},
    optGroups ps acc = .ok gs → [] ∉ ps
  | [], _, _, _ => by simp
  | p :: ps, acc, gs, h => by
    unfold optGroups at h
    intro hm
    rcases List.mem_cons.1 hm with e | hm
    · subst e
      simp [splitLast] at h
    · split at h
      · cases h
      · exact optGroups_nil_mem h hm

/-- A committed space has no empty conjunction among its clauses. -/
theorem noEmpty_of_pre {s : Space} {H : List HP} {C : List Cond} {F : List Forb} (p : Pre s H C F) :
    NoEmptyClause F := by
  intro hm
  have hm := p.hist.forbs.mem_iff.2 hm
  have hf := p.fast
  unfold optimizedForbs at hf
  simp only at hf
  split at hf
  · cases hf
  · rename_i gs hgs
    refine optGroups_nil_mem hgs (List.mem_map.2 ⟨[], List.mem_filterMap.2 ⟨_, hm, rfl⟩, ?_⟩)
    rfl

/-! ## Building a space again -/

section
variable {calls : List Call} {s : Space}

/-- The hyperparameters of a space, as one call of `add`. -/
def Space.hpCall (s : Space) : Call := { hps := s.com.map Node.hp }

/-- The conditions and clauses of a space, as one call of `add`. -/
def Space.ruleCall (s : Space) : Call := { conds := s.com.filterMap Node.cond, forbs := s.forbs }

theorem hpCall_wf (h : Reach calls s) : s.hpCall.wf := by
  refine ⟨?_, ?_, ?_⟩
  · intro x hx
    obtain ⟨y, hy, rfl⟩ := List.mem_map.1 hx
    exact node_wf h hy
  · simp [Space.hpCall]
  · simp [Space.hpCall]

theorem mem_nodeConds (h : Reach calls s) {c : Cond} (hc : c ∈ s.com.filterMap Node.cond) :
    ∃ x ∈ s.com, x.cond = some c ∧ c ∈ allConds calls ∧ childName c = some x.name := by
  obtain ⟨x, hx, e⟩ := List.mem_filterMap.1 hc
  obtain ⟨h1, h2, _⟩ := node_cond h hx e
  exact ⟨x, hx, e, h1, h2⟩

theorem mem_forbs (h : Reach calls s) (f : Forb) : f ∈ s.forbs ↔ f ∈ allForbs calls :=
  (sinv_of_reach h).hist.forbs.mem_iff

theorem ruleCall_wf (h : Reach calls s) : s.ruleCall.wf := by
  refine ⟨by simp [Space.ruleCall], ?_, ?_⟩
  · intro c hc
    obtain ⟨_, _, _, h1, _⟩ := mem_nodeConds h hc
    exact (reach_wf h).2.1 c h1
  · intro f hf
    exact (reach_wf h).2.2 f ((mem_forbs h f).1 hf)

theorem hps_perm (h : Reach calls s) : (s.com.map Node.hp).Perm (allHps calls) := by
  have hi := sinv_of_reach h
  rw [← hi.com]; exact hi.hist.hps

theorem hps_nodup (h : Reach calls s) : ((s.com.map Node.hp).map HP.name).Nodup := by
  have : (s.com.map Node.hp).map HP.name = namesOf s.com := by simp [namesOf, Node.name]
  rw [this]; exact (reach_ninv h).nodup

/-- Adding the hyperparameters of a space to an empty space succeeds. -/
theorem add_hps (h : Reach calls s) :
    ∃ s1, ({} : Space).add s.hpCall.hps [] [] = (s1, none) ∧ Reach [s.hpCall] s1 := by
  have hk := hpCall_wf h
  have hfit : Fits [] s.hpCall := by
    refine ⟨?_, ?_, ?_, ?_, ?_, ?_⟩
    · simpa [allHps, Space.hpCall] using hps_nodup h
    · simp [Space.hpCall]
    · simp [Space.hpCall]
    · simp [Space.hpCall]
    · intro n hn
      have : ∀ a b, ¬ ParentOf ([] ++ [s.hpCall]) a b := by
        rintro a b ⟨c, hc, _⟩
        simp [allConds, Space.hpCall] at hc
      cases hn with
      | edge hb => exact this _ _ hb
      | cons hb _ => exact this _ _ hb
    · simp [Space.hpCall]
  obtain ⟨s1, p1, ha⟩ := add_candidate Reach.nil hk hfit (by
    intro f hf; simp [allForbs, Space.hpCall] at hf) (by
    intro hf; simp [allForbs, Space.hpCall] at hf)
  have e1 : allHps ([] ++ [s.hpCall]) = s.hpCall.hps := by simp [allHps]
  have e2 : allConds ([] ++ [s.hpCall]) = [] := by simp [allConds, Space.hpCall]
  have e3 : allForbs ([] ++ [s.hpCall]) = [] := by simp [allForbs, Space.hpCall]
  rw [e1, e2, e3] at p1
  obtain ⟨c, hc⟩ := plain_default p1 hk.1
  rw [hc] at ha
  exact ⟨s1, ha, Reach.snoc Reach.nil hk ha⟩

/-- A space with the same history of hyperparameters, the same conditions of nodes and the same clauses. -/
theorem lastCond_nodeConds (h : Reach calls s) (n : Name) :
    lastCond (s.com.filterMap Node.cond) n = lastCond (allConds calls) n := by
  have hi := sinv_of_reach h
  have hn := reach_ninv h
  have hl : lastCond (allConds calls) n = condAt s.com n := by rw [← hi.hist.cond, hi.com]
  rw [hl]
  cases hc : lastCond (s.com.filterMap Node.cond) n with
  | some c =>
    obtain ⟨hm, hch⟩ := lastCond_some hc
    obtain ⟨x, hx, e, _, h2⟩ := mem_nodeConds h hm
    rw [hch] at h2
    cases h2
    simp [condAt, findNode_of_mem hn.nodup hx, e]
  | none =>
    symm
    rw [lastCond_none] at hc
    cases hcn : condAt s.com n with
    | none => rfl
    | some c =>
      exfalso
      unfold condAt at hcn
      cases hf : findNode s.com n with
      | none => rw [hf] at hcn; simp at hcn
      | some x =>
        rw [hf] at hcn
        have hx := List.mem_of_find?_eq_some hf
        have hcn : x.cond = some c := by simpa using hcn
        have hxn : x.name = n := by simpa using List.find?_some hf
        exact hc c (List.mem_filterMap.2 ⟨x, hx, hcn⟩) (hxn ▸ (node_cond h hx hcn).2.1)

theorem parentRel_nodeConds (h : Reach calls s) : parentRel (s.com.filterMap Node.cond) = parentRel (allConds calls) := by
  funext p n
  apply propext
  constructor
  · rintro ⟨c, hc, h1, h2⟩
    obtain ⟨x, hx, _, h3, _⟩ := mem_nodeConds h hc
    exact ⟨c, h3, h1, h2⟩
  · rintro ⟨d, hd, h1, h2⟩
    obtain ⟨x, hx, e, c, hc⟩ := node_of_child h hd h1
    obtain ⟨k1, k2, k3⟩ := node_cond h hx hc
    refine ⟨c, List.mem_filterMap.2 ⟨x, hx, hc⟩, by rw [k2, e], ?_⟩
    exact (pyEq_parents c d (k3 d hd (by rw [h1, e])) p).2 h2

theorem rebuild_fits (h : Reach calls s) : Fits [s.hpCall] s.ruleCall := by
  have hi := sinv_of_reach h
  have eH : allHps ([s.hpCall] ++ [s.ruleCall]) = s.com.map Node.hp := by simp [allHps, Space.hpCall, Space.ruleCall]
  have eC : allConds ([s.hpCall] ++ [s.ruleCall]) = s.com.filterMap Node.cond := by
    simp [allConds, Space.hpCall, Space.ruleCall]
  have hknown : ∀ n, n ∈ s.names → Known ([s.hpCall] ++ [s.ruleCall]) n := by
    intro n hn
    obtain ⟨x, hx, e⟩ := List.mem_map.1 hn
    unfold Known
    rw [eH]
    exact ⟨x.hp, List.mem_map.2 ⟨x, hx, rfl⟩, e⟩
  refine ⟨by rw [eH]; exact hps_nodup h, ?_, ?_, ?_, ?_, ?_⟩
  · intro c hc n hn
    obtain ⟨x, hx, _, _, h2⟩ := mem_nodeConds h hc
    rw [h2] at hn
    cases hn
    exact hknown _ (List.mem_map.2 ⟨x, hx, rfl⟩)
  · intro c hc l hl
    obtain ⟨x, hx, _, h1, h2⟩ := mem_nodeConds h hc
    exact hknown _ (cond_parents_known h h1 (parents_iff.2 ⟨l, hl, rfl⟩))
  · intro c hc d hd e
    rw [eC] at hd
    obtain ⟨x, hx, hxc, h1, h2⟩ := mem_nodeConds h hc
    obtain ⟨y, hy, hyd, h3, h4⟩ := mem_nodeConds h hd
    rw [h2, h4] at e
    have hxy : x = y := by
      have a := findNode_of_mem (reach_ninv h).nodup hx
      have b := findNode_of_mem (reach_ninv h).nodup hy
      rw [← Option.some.inj e, b] at a
      exact (Option.some.inj a).symm
    subst hxy
    rw [hxc] at hyd
    cases hyd
    exact Cond.pyEq_refl _
  · rw [← parentRel_iff, eC, parentRel_nodeConds h]
    exact hi.hist.acyclic
  · intro f hf n hn
    apply hknown
    have := hi.hist.forbNames f ((mem_forbs h f).1 hf) n hn
    rw [hi.com] at this
    exact this

/-- **Rebuilding.** Adding the hyperparameters of a space to an empty space and then its conditions and clauses
succeeds, and the result cannot be told from the original. -/
theorem rebuild (h : Reach calls s) (hown : OwnClauses calls) :
    ∃ s1 s2, ({} : Space).add s.hpCall.hps [] [] = (s1, none) ∧ Reach [s.hpCall] s1 ∧
      s1.add [] s.ruleCall.conds s.ruleCall.forbs = (s2, none) ∧ Reach [s.hpCall, s.ruleCall] s2 ∧
      s2.com.map Node.core = s.com.map Node.core ∧ s2.forbs = s.forbs ∧
      (∀ v al, s2.check v al = s.check v al) ∧ (∀ d al, Config.ofValues s2 d al = Config.ofValues s d al) ∧
      s2.defaultConfig = s.defaultConfig := by
  obtain ⟨s1, ha, h1⟩ := add_hps h
  have eH : allHps ([s.hpCall] ++ [s.ruleCall]) = s.com.map Node.hp := by simp [allHps, Space.hpCall, Space.ruleCall]
  have eC : allConds ([s.hpCall] ++ [s.ruleCall]) = s.com.filterMap Node.cond := by
    simp [allConds, Space.hpCall, Space.ruleCall]
  have eF : allForbs ([s.hpCall] ++ [s.ruleCall]) = s.forbs := by simp [allForbs, Space.hpCall, Space.ruleCall]
  have p := pre_of_reach h
  obtain ⟨s2, p2, hb⟩ := add_candidate h1 (ruleCall_wf h) (rebuild_fits h) (by
      intro f hf x hx
      rw [eF] at hf
      rw [eH]
      exact (hps_perm h).mem_iff.2 (hown f ((mem_forbs h f).1 hf) x hx)) (by
      intro hf
      rw [eF] at hf
      exact noEmpty_of_pre p ((mem_forbs h _).1 hf))
  rw [eH, eC, eF] at p2
  have hcore : s.com.map Node.core = s2.com.map Node.core :=
    core_eq p p2 (hps_perm h).symm (parentRel_nodeConds h).symm (fun n => (lastCond_nodeConds h n).symm)
  obtain ⟨k1, k2, k3⟩ := same_default p p2 (hps_perm h).symm hown (fun f => (mem_forbs h f).symm) hcore
  obtain ⟨c, hc⟩ := (sinv_of_reach h).default
  rw [k3] at hc
  rw [hc] at hb
  have hforbs : s2.forbs = s.forbs := by
    have h2 := Reach.snoc h1 (ruleCall_wf h) hb
    refine readd_clauses h ?_ ?_ hb ?_
    · simpa [Space.forbs, allForbs, Space.hpCall] using (sinv_of_reach h1).hist.forbs
    · intro f hf
      unfold isUncondForb
      rw [List.all_eq_true]
      intro n hn
      refine decide_eq_true ((C06_roots_no_condition h1 n).2 ⟨?_, ?_⟩)
      · have := p.hist.forbNames f ((mem_forbs h f).1 hf) n hn
        rw [p.com] at this
        obtain ⟨x, hx, e⟩ := List.mem_map.1 this
        exact ⟨x.hp, by simpa [allHps, Space.hpCall] using ⟨x, hx, rfl⟩, e⟩
      · simp [Conditional, allConds, Space.hpCall]
    · rw [(sinv_of_reach h2).roots, p.roots, rootNames_core hcore]
  refine ⟨s1, s2, ha, h1, hb, Reach.snoc h1 (ruleCall_wf h) hb, hcore.symm, hforbs, ?_, ?_, k3.symm⟩
  · exact fun v al => (k1 v al).symm
  · exact fun d al => (k2 d al).symm

end

end Verif
