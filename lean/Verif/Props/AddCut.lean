import Verif.Model.AddCut
import Verif.Lemmas.Caught
import Verif.Lemmas.Stable
import Verif.Props.Atomic
import Verif.Props.CommuteCfg

/-!
# C133: a call of `add` that is interrupted
-/

set_option autoImplicit false

namespace Verif.AddCut
open Spec Caught

variable {calls : List Call} {s s' : Space}

/-- The items of a call after the first `n`. -/
def rest (n : Nat) (k : Call) : Call :=
  ⟨k.hps.drop n, k.conds.drop (n - k.hps.length), k.forbs.drop (n - k.hps.length - k.conds.length)⟩

theorem items_rest (n : Nat) (k : Call) : items (rest n k) = (items k).drop n := by
  simp [items, rest, List.drop_append, List.map_drop]

/-- All items of a call get through exactly if the first ones do and then the others. -/
theorem addAll_split {g g' : Dag} {k : Call} (h : g.addAll k.hps k.conds k.forbs = (g', none)) (n : Nat) :
    ∃ g1, g.addAll (first n k).hps (first n k).conds (first n k).forbs = (g1, none) ∧
      g1.addAll (rest n k).hps (rest n k).conds (rest n k).forbs = (g', none) := by
  rw [addAll_items, ← List.take_append_drop n (items k), runAll_append] at h
  cases h1 : runAll step g ((items k).take n) with
  | mk g1 e1 =>
    rw [h1] at h
    cases e1 with
    | some e => cases h
    | none =>
      refine ⟨g1, ?_, ?_⟩
      · rw [addAll_items, items_first]
        exact h1
      · rw [addAll_items, items_rest]
        exact h

theorem add_ok {k : Call} (h : s.add k.hps k.conds k.forbs = (s', none)) :
    ∃ g, s.dag.addAll k.hps k.conds k.forbs = (g, none) := by
  unfold Space.add at h
  cases hg : s.dag.addAll k.hps k.conds k.forbs with
  | mk g e =>
    cases e with
    | none => exact ⟨g, rfl⟩
    | some e =>
      rw [hg] at h
      cases h

/-- A commit that succeeds, and what follows it, depends on the graph only. -/
theorem add_same {t : Space} {a b : Call} {g : Dag} (hs : s.dag.addAll a.hps a.conds a.forbs = (g, none))
    (ht : t.dag.addAll b.hps b.conds b.forbs = (g, none)) (h : s.add a.hps a.conds a.forbs = (s', none)) :
    t.add b.hps b.conds b.forbs = (s', none) := by
  have hc : ∀ u : Space, (u.commit g) = match optimizedForbs (idxOf (sortNodes g.nodes))
        (((sortForbs (g.uncond ++ g.condF)).filter (isUncondForb (rootNames (sortNodes g.nodes)))) ++
          ((sortForbs (g.uncond ++ g.condF)).filter (fun f => !isUncondForb (rootNames (sortNodes g.nodes)) f))) with
      | .error e => ({ u with
          dag := ⟨sortNodes g.nodes, rootNames (sortNodes g.nodes), (sortForbs (g.uncond ++ g.condF)).filter (isUncondForb (rootNames (sortNodes g.nodes))),
            (sortForbs (g.uncond ++ g.condF)).filter (fun f => !isUncondForb (rootNames (sortNodes g.nodes)) f)⟩,
          com := sortNodes g.nodes }, some e)
      | .ok fast => (⟨⟨sortNodes g.nodes, rootNames (sortNodes g.nodes), (sortForbs (g.uncond ++ g.condF)).filter (isUncondForb (rootNames (sortNodes g.nodes))),
            (sortForbs (g.uncond ++ g.condF)).filter (fun f => !isUncondForb (rootNames (sortNodes g.nodes)) f)⟩, u.len, sortNodes g.nodes, fast,
            minCondsSorted (sortNodes g.nodes), changeLookup (sortNodes g.nodes) (minCondsSorted (sortNodes g.nodes))⟩, none) := by
    intro u
    unfold Space.commit
    rfl
  unfold Space.add at h ⊢
  rw [hs] at h
  rw [ht]
  simp only at h ⊢
  rw [hc s] at h
  rw [hc t]
  cases ho : optimizedForbs (idxOf (sortNodes g.nodes))
        (((sortForbs (g.uncond ++ g.condF)).filter (isUncondForb (rootNames (sortNodes g.nodes)))) ++
          ((sortForbs (g.uncond ++ g.condF)).filter (fun f => !isUncondForb (rootNames (sortNodes g.nodes)) f))) with
  | error e =>
    rw [ho] at h
    cases h
  | ok fast =>
    rw [ho] at h
    exact h

/-- **C133.** A call of `add` that would succeed is interrupted after any number of its items.  Calling `add` with the other items gives exactly the
space that the call would have given. -/
theorem C133_resume {k : Call} (h : s.add k.hps k.conds k.forbs = (s', none)) (n : Nat) :
    (s.addInterrupted (first n k).hps (first n k).conds (first n k).forbs).add (rest n k).hps (rest n k).conds (rest n k).forbs = (s', none) := by
  obtain ⟨g, hg⟩ := add_ok h
  obtain ⟨g1, h1, h2⟩ := addAll_split hg n
  refine add_same hg ?_ h
  unfold Space.addInterrupted
  rw [h1]
  exact h2

/-- What was entered before the interruption is there. -/
theorem entered (hr : Reach calls s) {k : Call} (hk : k.wf) (h : s.add k.hps k.conds k.forbs = (s', none)) (n : Nat) {x : HP}
    (hx : x ∈ k.hps.take n) :
    ∃ y, findNode (s.addInterrupted (first n k).hps (first n k).conds (first n k).forbs).dag.nodes x.name = some y := by
  obtain ⟨g, hg⟩ := add_ok h
  obtain ⟨g1, h1, -⟩ := addAll_split hg n
  have hi := hinv_snoc (sinv_of_reach hr).hist (first_wf hk n) h1
  unfold Space.addInterrupted
  rw [h1]
  refine findNode_isSome ?_
  have : x ∈ g1.nodes.map Node.hp := hi.hps.mem_iff.2 (by
    rw [allHps_snoc]
    exact List.mem_append_right _ hx)
  obtain ⟨y, hy, rfl⟩ := List.mem_map.1 this
  exact List.mem_map.2 ⟨y, hy, rfl⟩

/-- **C133**, false of the code: the call cannot simply be repeated.  If it was interrupted after its first hyperparameter or later, the same call
raises `HyperparameterAlreadyExistsError`, and nothing but its rest can be added. -/
theorem C133_repeat_fails (hr : Reach calls s) {k : Call} (hk : k.wf) (h : s.add k.hps k.conds k.forbs = (s', none)) {x : HP} {xs : List HP}
    (hx : k.hps = x :: xs) {n : Nat} (hn : 1 ≤ n) :
    ((s.addInterrupted (first n k).hps (first n k).conds (first n k).forbs).add k.hps k.conds k.forbs).2 = some (.alreadyExists x.name) := by
  obtain ⟨y, hy⟩ := entered hr hk h n (x := x) (by
    rw [hx]
    obtain ⟨m, rfl⟩ : ∃ m, n = m + 1 := ⟨n - 1, by omega⟩
    simp)
  unfold Space.add Dag.addAll
  rw [hx]
  simp only [runAll, Dag.add, hy]

/-- **C133**, false of the code: meanwhile the space is of no use.  If the call was interrupted after it entered a hyperparameter (and no condition
yet), then the validator refuses every vector, also those it accepted before. -/
theorem C133_refuses_all (hr : Reach calls s) {k : Call} (hk : k.wf) (h : s.add k.hps k.conds k.forbs = (s', none)) {n : Nat}
    (h1 : 1 ≤ n) (hn : n ≤ k.hps.length) {v : Vec} (hv : v.length = s.len) :
    (s.addInterrupted (first n k).hps (first n k).conds (first n k).forbs).check v ≠ none := by
  obtain ⟨g, hg⟩ := add_ok h
  obtain ⟨g1, e1, -⟩ := addAll_split hg n
  have hroots : ∀ (hs : List HP) {g g1 : Dag}, runAll Dag.add g hs = (g1, none) → ∀ x ∈ hs, x.name ∈ g1.roots ∧ findNode g.nodes x.name = none := by
    intro hs
    induction hs with
    | nil => intro g g1 _ x hx; cases hx
    | cons y ys ih =>
      intro g g1 hrun x hx
      simp only [runAll] at hrun
      cases hf : findNode g.nodes y.name with
      | some z => simp [Dag.add, hf] at hrun
      | none =>
        simp only [Dag.add, hf] at hrun
        have keep : ∀ (hs : List HP) {g g1 : Dag}, runAll Dag.add g hs = (g1, none) → ∀ m ∈ g.roots, m ∈ g1.roots := by
          intro hs
          induction hs with
          | nil => intro g g1 hrun m hm; cases hrun; exact hm
          | cons y ys ih =>
            intro g g1 hrun m hm
            simp only [runAll] at hrun
            cases hf : findNode g.nodes y.name with
            | some z => simp [Dag.add, hf] at hrun
            | none =>
              simp only [Dag.add, hf] at hrun
              exact ih hrun m (by simp [hm])
        rcases List.mem_cons.1 hx with rfl | hx
        · exact ⟨keep ys hrun _ (by simp), hf⟩
        · obtain ⟨k1, k2⟩ := ih hrun x hx
          refine ⟨k1, ?_⟩
          rw [findNode_none] at k2 ⊢
          intro hm
          exact k2 (by simp only [namesOf, List.map_append, List.mem_append] at hm ⊢; exact .inl hm)
  have hc : (first n k).conds = [] := by
    simp only [first]
    rw [Nat.sub_eq_zero_of_le hn]
    rfl
  have hfo : (first n k).forbs = [] := by
    simp only [first]
    rw [Nat.sub_eq_zero_of_le hn, Nat.zero_sub]
    rfl
  have e2 : runAll Dag.add s.dag (k.hps.take n) = (g1, none) := by
    have e1' := e1
    unfold Dag.addAll at e1'
    rw [hc, hfo] at e1'
    change (match runAll Dag.add s.dag (k.hps.take n) with
      | (g, some e) => (g, some e)
      | (g, none) => match runAll Dag.addCondition g [] with
        | (g, some e) => (g, some e)
        | (g, none) => runAll Dag.addForbidden g []) = (g1, none) at e1'
    cases hh : runAll Dag.add s.dag (k.hps.take n) with
    | mk g2 e =>
      rw [hh] at e1'
      cases e with
      | some e => cases e1'
      | none => exact e1'
  obtain ⟨x, hx⟩ : ∃ x, x ∈ k.hps.take n := by
    cases hk' : k.hps with
    | nil =>
      rw [hk'] at hn
      simp at hn
      omega
    | cons x xs =>
      obtain ⟨m, rfl⟩ : ∃ m, n = m + 1 := ⟨n - 1, by omega⟩
      exact ⟨x, by simp⟩
  obtain ⟨k1, k2⟩ := hroots _ e2 x hx
  have hidx : s.len ≤ s.idx x.name := by
    have hi := sinv_of_reach hr
    have hn' : x.name ∉ s.com.map Node.name := by
      rw [← hi.com]
      exact findNode_none.1 k2
    have hl : s.len = (s.com.map Node.name).length := by
      rw [List.length_map]
      exact hi.len
    unfold Space.idx idxOf
    rw [hl, List.idxOf_eq_length hn']
  intro hcheck
  unfold Space.check at hcheck
  cases hf : firstWith (fun e => !isSet e) (s.addInterrupted (first n k).hps (first n k).conds (first n k).forbs) v
      (s.addInterrupted (first n k).hps (first n k).conds (first n k).forbs).dag.roots with
  | some m =>
    rw [hf] at hcheck
    cases hcheck
  | none =>
    unfold firstWith at hf
    rw [List.find?_eq_none] at hf
    refine hf x.name ?_ ?_
    · show x.name ∈ (s.dag.addAll (first n k).hps (first n k).conds (first n k).forbs).1.roots
      rw [e1]
      exact k1
    · show (!isSet (v.at (s.idx x.name))) = true
      have : v.at (s.idx x.name) = none := by
        unfold Vec.at
        rw [List.getD, List.getElem?_eq_none (by omega)]
        rfl
      rw [this]
      rfl

/-! ## Interrupted while storing -/

theorem sortNodes_idem (ns : Nodes) : sortNodes (sortNodes ns) = sortNodes ns :=
  sortBy_sorted (sortBy_pairwise (le := fun a b : Node => keyLe (a.depth, a.name) (b.depth, b.name))
    (fun a b => keyLe_total (a.depth, a.name) (b.depth, b.name))
    (fun a b c => keyLe_trans (a.depth, a.name) (b.depth, b.name) (c.depth, c.name)) ns)

theorem sortForbs_split (fs : List Forb) (q : Forb → Bool) :
    (sortForbs ((sortForbs fs).filter q ++ (sortForbs fs).filter (fun f => !q f))).filter q = (sortForbs fs).filter q ∧
    (sortForbs ((sortForbs fs).filter q ++ (sortForbs fs).filter (fun f => !q f))).filter (fun f => !q f) = (sortForbs fs).filter (fun f => !q f) := by
  have htot : ∀ a b : Forb, decide (a.render ≤ b.render) = true ∨ decide (b.render ≤ a.render) = true := by
    intro a b
    simpa using String.le_total _ _
  have htr : ∀ a b c : Forb, decide (a.render ≤ b.render) = true → decide (b.render ≤ c.render) = true → decide (a.render ≤ c.render) = true := by
    intro a b c
    simpa using fun h1 h2 => String.le_trans h1 h2
  have hs : (sortForbs fs).Pairwise (fun a b => decide (a.render ≤ b.render) = true) := sortBy_pairwise htot htr fs
  constructor
  · have e := sortBy_filter (p := q) htot htr ((sortForbs fs).filter q ++ (sortForbs fs).filter (fun f => !q f))
    refine Eq.trans e ?_
    have : ((sortForbs fs).filter q ++ (sortForbs fs).filter (fun f => !q f)).filter q = (sortForbs fs).filter q := by
      rw [List.filter_append, List.filter_filter, List.filter_filter]
      simp
    rw [this]
    exact sortBy_sorted (hs.filter q)
  · have e := sortBy_filter (p := fun f => !q f) htot htr ((sortForbs fs).filter q ++ (sortForbs fs).filter (fun f => !q f))
    refine Eq.trans e ?_
    have : ((sortForbs fs).filter q ++ (sortForbs fs).filter (fun f => !q f)).filter (fun f => !q f) = (sortForbs fs).filter (fun f => !q f) := by
      rw [List.filter_append, List.filter_filter, List.filter_filter]
      simp
    rw [this]
    exact sortBy_sorted (hs.filter _)

/-- What a transaction stores, from the sorted nodes and the sorted clauses. -/
def store (u : Space) (ns : Nodes) (uncond condF : List Forb) : Space × Option Err :=
  match optimizedForbs (idxOf ns) (uncond ++ condF) with
  | .error e => ({ u with dag := ⟨ns, rootNames ns, uncond, condF⟩, com := ns }, some e)
  | .ok fast => ({ u with
      dag := ⟨ns, rootNames ns, uncond, condF⟩, com := ns, fast := fast, minConds := minCondsSorted ns,
      lookup := changeLookup ns (minCondsSorted ns) }, none)

theorem commit_store (u : Space) (g : Dag) : u.commit g = store u (sortNodes g.nodes)
    ((sortForbs (g.uncond ++ g.condF)).filter (isUncondForb (rootNames (sortNodes g.nodes))))
    ((sortForbs (g.uncond ++ g.condF)).filter (fun f => !isUncondForb (rootNames (sortNodes g.nodes)) f)) := rfl

/-- What is stored from an interrupted state is what was to be stored. -/
theorem commit_again (s u : Space) (g : Dag) (n : Nat) (h2 : n ≠ 2) : u.commit (s.storeInterrupted g n).dag = u.commit g := by
  rw [commit_store, commit_store]
  have hn : sortNodes (s.storeInterrupted g n).dag.nodes = sortNodes g.nodes := by
    unfold Space.storeInterrupted
    simp only
    split
    · exact sortNodes_idem _
    · rfl
  rw [hn]
  by_cases h3 : 3 ≤ n
  · obtain ⟨e1, e2⟩ := sortForbs_split (g.uncond ++ g.condF) (isUncondForb (rootNames (sortNodes g.nodes)))
    have hu : (s.storeInterrupted g n).dag.uncond = (sortForbs (g.uncond ++ g.condF)).filter (isUncondForb (rootNames (sortNodes g.nodes))) := by
      simp [Space.storeInterrupted, show 2 ≤ n by omega]
    have hc : (s.storeInterrupted g n).dag.condF =
        (sortForbs (g.uncond ++ g.condF)).filter (fun f => !isUncondForb (rootNames (sortNodes g.nodes)) f) := by
      simp [Space.storeInterrupted, h3]
    rw [hu, hc, e1, e2]
  · have hu : (s.storeInterrupted g n).dag.uncond = g.uncond := by simp [Space.storeInterrupted, show ¬ 2 ≤ n by omega]
    have hc : (s.storeInterrupted g n).dag.condF = g.condF := by simp [Space.storeInterrupted, h3]
    rw [hu, hc]

/-- Adding nothing, when the transaction stores the same. -/
theorem repaired {hps : List HP} {cs : List Cond} {fs : List Forb} {g : Dag} {n : Nat} (hg : s.dag.addAll hps cs fs = (g, none))
    (h : s.add hps cs fs = (s', none))
    (hc : (s.storeInterrupted g n).commit (s.storeInterrupted g n).dag = (s.storeInterrupted g n).commit g) :
    (s.storeInterrupted g n).add [] [] [] = (s', none) := by
  unfold Space.add at h ⊢
  rw [hg] at h
  simp only at h
  have ha : (s.storeInterrupted g n).dag.addAll [] [] [] = ((s.storeInterrupted g n).dag, none) := rfl
  rw [ha]
  simp only
  rw [hc]
  rw [commit_store] at h ⊢
  unfold store at h ⊢
  cases ho : optimizedForbs (idxOf (sortNodes g.nodes))
      ((sortForbs (g.uncond ++ g.condF)).filter (isUncondForb (rootNames (sortNodes g.nodes))) ++
        (sortForbs (g.uncond ++ g.condF)).filter (fun f => !isUncondForb (rootNames (sortNodes g.nodes)) f)) with
  | error e =>
    rw [ho] at h
    cases h
  | ok fast =>
    rw [ho] at h
    exact h

/-- **C133.** A call of `add` that would succeed is interrupted while its transaction stores what it computed, after any number of steps.  Calling
`add` without arguments gives exactly the space that the call would have given.  Missing: an interruption between the two assignments that store the
clauses (`n = 2`), see `ExAc.C133_lost_clause`. -/
theorem C133_repair_partial {k : Call} (h : s.add k.hps k.conds k.forbs = (s', none)) (n : Nat) (hn : n ≠ 2) :
    (s.storeInterrupted (s.dag.addAll k.hps k.conds k.forbs).1 n).add [] [] [] = (s', none) := by
  obtain ⟨g, hg⟩ := add_ok h
  rw [hg]
  exact repaired hg h (commit_again _ _ _ _ hn)

/-- Every clause is in the list where it belongs. -/
structure Placed (g : Dag) : Prop where
  roots : ∀ n, n ∈ g.roots ↔ n ∈ rootNames g.nodes
  uncond : ∀ f ∈ g.uncond, isUncondForb g.roots f = true
  condF : ∀ f ∈ g.condF, isUncondForb g.roots f = false
  known : ∀ f ∈ g.condF, ∀ n ∈ f.names, n ∈ namesOf g.nodes

theorem Placed.add {g g' : Dag} {x : HP} (p : Placed g) (h : g.add x = (g', none)) : Placed g' := by
  unfold Dag.add at h
  cases hx : findNode g.nodes x.name with
  | some y =>
    rw [hx] at h
    cases h
  | none =>
    rw [hx] at h
    simp only [Prod.mk.injEq, and_true] at h
    subst h
    have hnew := findNode_none.1 hx
    refine ⟨fun n => ?_, fun f hf => ?_, fun f hf => ?_, fun f hf n hn => ?_⟩
    · have := p.roots n
      simp only [rootNames, List.filter_append, List.map_append, List.mem_append] at this ⊢
      rw [this]
      simp [Node.name]
    · have := p.uncond f hf
      simp only [isUncondForb, List.all_eq_true, decide_eq_true_eq, List.mem_append] at this ⊢
      exact fun n hn => .inl (this n hn)
    · have := p.condF f hf
      simp only [isUncondForb, List.all_eq_false, decide_eq_true_eq, List.mem_append] at this ⊢
      obtain ⟨n, hn, hr⟩ := this
      refine ⟨n, hn, ?_⟩
      rintro (h | h)
      · exact hr h
      · rw [List.mem_singleton] at h
        exact hnew (h ▸ p.known f hf n hn)
    · exact List.mem_map.2 (by
        obtain ⟨y, hy, e⟩ := List.mem_map.1 (p.known f hf n hn)
        exact ⟨y, List.mem_append_left _ hy, e⟩)

theorem Placed.addForbidden {g g' : Dag} {f : Forb} (p : Placed g) (h : g.addForbidden f = (g', none)) : Placed g' := by
  unfold Dag.addForbidden at h
  cases hx : firstMissing g.nodes f.names with
  | some y =>
    rw [hx] at h
    cases h
  | none =>
    rw [hx] at h
    simp only at h
    split at h
    · rename_i hu
      simp only [Prod.mk.injEq, and_true] at h
      subst h
      refine ⟨p.roots, fun f' hf => ?_, p.condF, p.known⟩
      rcases List.mem_append.1 hf with hf | hf
      · exact p.uncond f' hf
      · rw [List.mem_singleton.1 hf]
        exact hu
    · rename_i hu
      simp only [Prod.mk.injEq, and_true] at h
      subst h
      refine ⟨p.roots, p.uncond, fun f' hf => ?_, fun f' hf n hn => ?_⟩
      · rcases List.mem_append.1 hf with hf | hf
        · exact p.condF f' hf
        · rw [List.mem_singleton.1 hf]
          simpa using hu
      · rcases List.mem_append.1 hf with hf | hf
        · exact p.known f' hf n hn
        · rw [List.mem_singleton.1 hf] at hn
          exact firstMissing_none hx n hn

theorem placed (h : Reach calls s) : Placed s.dag := by
  have i := sinv_of_reach h
  refine ⟨fun n => ?_, i.uncond, i.condF, fun f hf n hn => ?_⟩
  · rw [i.roots, i.com]
  · exact i.hist.forbNames f (i.hist.forbs.mem_iff.1 (List.mem_append_right _ hf)) n hn

theorem placed_all (h : Reach calls s) {hps : List HP} {fs : List Forb} {g : Dag} (hg : s.dag.addAll hps [] fs = (g, none)) : Placed g := by
  unfold Dag.addAll at hg
  cases h1 : runAll Dag.add s.dag hps with
  | mk g1 e =>
    rw [h1] at hg
    cases e with
    | some e => cases hg
    | none =>
      have p1 : Placed g1 := runAll_inv (P := fun g _ => Placed g) (Q := fun _ => True) (fun _ _ _ _ p _ h => p.add h) hps s.dag g1 [] (placed h)
        (fun _ _ => trivial) h1
      exact runAll_inv (P := fun g _ => Placed g) (Q := fun _ => True) (fun _ _ _ _ p _ h => p.addForbidden h) fs g1 g [] p1
        (fun _ _ => trivial) hg

/-- A clause that is where it belongs is not lost between the two assignments. -/
theorem commit_again_placed (s u : Space) {g : Dag} (p : Placed g) : u.commit (s.storeInterrupted g 2).dag = u.commit g := by
  have hr : ∀ f, isUncondForb (rootNames (sortNodes g.nodes)) f = isUncondForb g.roots f := by
    intro f
    have : ∀ n, n ∈ rootNames (sortNodes g.nodes) ↔ n ∈ g.roots := by
      intro n
      rw [p.roots n]
      exact (((sortBy_perm _ g.nodes).filter _).map _).mem_iff
    simp only [isUncondForb, this]
  have hn : sortNodes (s.storeInterrupted g 2).dag.nodes = sortNodes g.nodes := sortNodes_idem _
  have htot : ∀ a b : Forb, decide (a.render ≤ b.render) = true ∨ decide (b.render ≤ a.render) = true := by
    intro a b
    simpa using String.le_total _ _
  have htr : ∀ a b c : Forb, decide (a.render ≤ b.render) = true → decide (b.render ≤ c.render) = true → decide (a.render ≤ c.render) = true := by
    intro a b c
    simpa using fun h1 h2 => String.le_trans h1 h2
  have hf : ∀ (q : Forb → Bool) (fs : List Forb), (sortForbs fs).filter q = sortForbs (fs.filter q) := fun q fs => sortBy_filter (p := q) htot htr fs
  have hid : ∀ fs : List Forb, sortForbs (sortForbs fs) = sortForbs fs := fun fs => sortBy_sorted (sortBy_pairwise htot htr fs)
  have u1 : g.uncond.filter (isUncondForb (rootNames (sortNodes g.nodes))) = g.uncond :=
    List.filter_eq_self.2 (fun f h => by rw [hr]; exact p.uncond f h)
  have u2 : g.condF.filter (isUncondForb (rootNames (sortNodes g.nodes))) = [] :=
    List.filter_eq_nil_iff.2 (fun f h => by rw [hr]; simp [p.condF f h])
  have c1 : g.uncond.filter (fun f => !isUncondForb (rootNames (sortNodes g.nodes)) f) = [] :=
    List.filter_eq_nil_iff.2 (fun f h => by rw [hr]; simp [p.uncond f h])
  have c2 : g.condF.filter (fun f => !isUncondForb (rootNames (sortNodes g.nodes)) f) = g.condF :=
    List.filter_eq_self.2 (fun f h => by rw [hr]; simp [p.condF f h])
  have hu : (s.storeInterrupted g 2).dag.uncond = sortForbs g.uncond := by
    change (sortForbs (g.uncond ++ g.condF)).filter (isUncondForb (rootNames (sortNodes g.nodes))) = _
    rw [hf, List.filter_append, u1, u2, List.append_nil]
  have hc : (s.storeInterrupted g 2).dag.condF = g.condF := rfl
  rw [commit_store, commit_store, hn, hu, hc]
  simp only [hf, List.filter_append, u1, u2, c1, c2, hid, List.append_nil, List.nil_append]
  have : sortForbs [] = [] := rfl
  rw [this, List.nil_append]

/-- **C133.** If the call adds hyperparameters and clauses and no conditions, then adding nothing repairs the space at every point of the
transaction. -/
theorem C133_repair_without_conditions (hr : Reach calls s) {hps : List HP} {fs : List Forb} (h : s.add hps [] fs = (s', none)) (n : Nat) :
    (s.storeInterrupted (s.dag.addAll hps [] fs).1 n).add [] [] [] = (s', none) := by
  by_cases hn : n = 2
  · obtain ⟨g, hg⟩ := add_ok (k := ⟨hps, [], fs⟩) h
    have hg : s.dag.addAll hps [] fs = (g, none) := hg
    subst hn
    rw [hg]
    exact repaired hg h (commit_again_placed s _ (placed_all hr hg))
  · exact C133_repair_partial (k := ⟨hps, [], fs⟩) h n hn

namespace ExAc
open Commute.ExCm

/-! The call of `callS` (four hyperparameters and two conditions), interrupted after two hyperparameters, and after the first condition. -/
theorem okS : ({} : Space).add callS.hps callS.conds callS.forbs = (spS, none) :=
  Ex.add_of_stages (c := callS) (s := {}) [("p", some (.str "a")), ("q", some (.str "b")), ("x", some (.str "u")), ("y", some (.str "u"))]
    [some 0, some 1, some 0, some 0] [("p", .str "a"), ("q", .str "b"), ("x", .str "u"), ("y", .str "u")]
    (by decide +kernel) (by decide +kernel) (by decide +kernel)
    (by decide +kernel) (by decide +kernel) (by decide +kernel)
def cut2 : Space := ({} : Space).addInterrupted [hpP, hpQ] [] []
example : cut2.add [hpX, hpY] callS.conds [] = (spS, none) := C133_resume okS 2
example : (({} : Space).addInterrupted callS.hps (callS.conds.take 1) []).add [] (callS.conds.drop 1) [] = (spS, none) := C133_resume okS 5
example : (cut2.add callS.hps callS.conds callS.forbs).2 = some (.alreadyExists "p") :=
  C133_repeat_fails .nil (by decide +kernel) okS (x := hpP) (xs := [hpQ, hpX, hpY]) rfl (n := 2) (by decide)

/-! To this space `c` and `d` are being added. -/
def more : Call := ⟨[⟨"c", .const (.int 1), .int 1⟩, ⟨"d", .cat [.str "a", .str "b"], .str "a"⟩], [], []⟩
theorem okMore : spS.add more.hps more.conds more.forbs = ((spS.add more.hps more.conds more.forbs).1, none) := by
  have h : (spS.add more.hps more.conds more.forbs).2 = none := by decide +kernel
  exact Prod.ext rfl h
example : spS.check startS.vec = none := by decide +kernel
example : (spS.addInterrupted [⟨"c", .const (.int 1), .int 1⟩] [] []).check startS.vec ≠ none :=
  C133_refuses_all reachS (k := more) (by decide +kernel) okMore (n := 1) (by decide) (by decide) (by decide +kernel)

/-- The call of `callS`, interrupted when its nodes and clauses are stored and its conditions are not: they are not looked at yet. -/
def half : Space := ({} : Space).storeInterrupted (({} : Space).dag.addAll callS.hps callS.conds callS.forbs).1 3
example : half.minConds.isEmpty = true ∧ spS.minConds.isEmpty = false := by decide +kernel
example : half.add [] [] [] = (spS, none) := C133_repair_partial okS 3 (by decide)

/-! The clause that forbids `n == "u"` is in the space, and a call of `add` makes `n` depend on `m`. -/
def hpM : HP := ⟨"m", .cat [.str "a", .str "b"], .str "a"⟩
def hpN : HP := ⟨"n", .cat [.str "t", .str "u"], .str "t"⟩
def callL : Call := ⟨[hpM, hpN], [], [.eq hpN (.str "u") 1]⟩
def spL : Space := Ex.committed {} callL
def dep : Call := ⟨[], [.lit ⟨hpN, hpM, .bin .eq (.str "a") 0⟩], []⟩
theorem reachL : Reach [callL] spL := Reach.snoc (calls := []) .nil (by decide +kernel)
  (Ex.add_of_stages [("m", some (.str "a")), ("n", some (.str "t"))] [some 0, some 0] [("m", .str "a"), ("n", .str "t")]
    (by decide +kernel) (by decide +kernel) (by decide +kernel) (by decide +kernel) (by decide +kernel) (by decide +kernel))

/-- **C133** is false of the code for an interruption between the two assignments that store the clauses.  The call would succeed; adding nothing after the interruption succeeds
too, and the clause that was in the space before is gone: a vector that violates it is accepted. -/
theorem C133_lost_clause : ∃ calls s, Reach calls s ∧ ∃ k : Call, k.wf ∧ (s.add k.hps k.conds k.forbs).2 = none ∧
    let u := s.storeInterrupted (s.dag.addAll k.hps k.conds k.forbs).1 2
    (u.add [] [] []).2 = none ∧ s.check [some 0, some 1] ≠ none ∧
    (s.add k.hps k.conds k.forbs).1.check [some 0, some 1] ≠ none ∧ (u.add [] [] []).1.check [some 0, some 1] = none :=
  ⟨_, _, reachL, dep, by decide +kernel, by decide +kernel, by decide +kernel, by decide +kernel, by decide +kernel, by decide +kernel⟩

/-! The clause that forbids `n == "t"` where `m == "b"` is added: at every point adding nothing is enough. -/
def both : Forb := .and [.eq hpM (.str "b") 1, .eq hpN (.str "t") 0]
example (n : Nat) : (spL.storeInterrupted (spL.dag.addAll [] [] [both]).1 n).add [] [] [] = ((spL.add [] [] [both]).1, none) :=
  C133_repair_without_conditions reachL (Prod.ext rfl (by decide +kernel)) n

end ExAc

end Verif.AddCut
