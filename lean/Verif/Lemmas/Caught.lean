import Verif.Spec.Caught
import Verif.Lemmas.Rebuild
import Verif.Lemmas.Reject

/-!
# What a failed call of `add` leaves in the graph
-/

set_option autoImplicit false

namespace Verif
open Spec

namespace Caught

/-- One item of a call. -/
inductive Item where
  | hp (h : HP)
  | cond (c : Cond)
  | forb (f : Forb)

def step (g : Dag) : Item → Dag × Option Err
  | .hp h => g.add h
  | .cond c => g.addCondition c
  | .forb f => g.addForbidden f

def items (k : Call) : List Item := k.hps.map .hp ++ (k.conds.map .cond ++ k.forbs.map .forb)

theorem items_length (k : Call) : (items k).length = size k := by
  simp [items, size]; omega

theorem items_first (n : Nat) (k : Call) : items (first n k) = (items k).take n := by
  simp [items, first, List.take_append, List.map_take]

theorem runAll_append {α : Type} (op : Dag → α → Dag × Option Err) : ∀ (xs ys : List α) (g : Dag),
    runAll op g (xs ++ ys) = match runAll op g xs with
      | (g', none) => runAll op g' ys
      | r => r
  | [], ys, g => rfl
  | x :: xs, ys, g => by
    simp only [List.cons_append, runAll]
    cases h : op g x with
    | mk g1 e =>
      cases e with
      | none => exact runAll_append op xs ys g1
      | some e => rfl

theorem runAll_map {α β : Type} (f : α → β) (op : Dag → β → Dag × Option Err) : ∀ (xs : List α) (g : Dag),
    runAll op g (xs.map f) = runAll (fun g x => op g (f x)) g xs
  | [], g => rfl
  | x :: xs, g => by
    simp only [List.map_cons, runAll]
    cases h : op g (f x) with
    | mk g1 e =>
      cases e with
      | none => exact runAll_map f op xs g1
      | some e => rfl

theorem addAll_items (g : Dag) (k : Call) : g.addAll k.hps k.conds k.forbs = runAll step g (items k) := by
  unfold items Dag.addAll
  rw [runAll_append, runAll_map]
  change _ = match runAll Dag.add g k.hps with
      | (g', none) => runAll step g' _
      | r => r
  cases h1 : runAll Dag.add g k.hps with
  | mk g1 e1 =>
    cases e1 with
    | some e => rfl
    | none =>
      dsimp only
      rw [runAll_append, runAll_map]
      change _ = match runAll Dag.addCondition g1 k.conds with
          | (g', none) => runAll step g' _
          | r => r
      cases h2 : runAll Dag.addCondition g1 k.conds with
      | mk g2 e2 =>
        cases e2 with
        | some e => rfl
        | none =>
          dsimp only
          rw [runAll_map]
          rfl

/-- The run stops at one item: those before it got through, and every longer part stops there too. -/
theorem runAll_stops {α : Type} {op : Dag → α → Dag × Option Err} : ∀ {xs : List α} {g g' : Dag} {e : Err},
    runAll op g xs = (g', some e) → ∃ n g1 x, n < xs.length ∧ x ∈ xs ∧ runAll op g (xs.take n) = (g1, none) ∧
      op g1 x = (g', some e) ∧ ∀ m, n < m → runAll op g (xs.take m) = (g', some e)
  | [], g, g', e, h => by simp [runAll] at h
  | x :: xs, g, g', e, h => by
    unfold runAll at h
    cases h1 : op g x with
    | mk g1 e1 =>
      rw [h1] at h
      cases e1 with
      | some e1 =>
        dsimp only at h
        rw [h] at h1
        refine ⟨0, g, x, by simp, by simp, rfl, h1, ?_⟩
        intro m hm
        obtain ⟨m, rfl⟩ : ∃ j, m = j + 1 := ⟨m - 1, by omega⟩
        simp [List.take_succ_cons, runAll, h1]
      | none =>
        dsimp only at h
        obtain ⟨n, g2, y, hn, hy, h2, h3, h4⟩ := runAll_stops h
        refine ⟨n + 1, g2, y, by simpa using hn, by simp [hy], ?_, h3, ?_⟩
        · simp [List.take_succ_cons, runAll, h1, h2]
        · intro m hm
          obtain ⟨m, rfl⟩ : ∃ j, m = j + 1 := ⟨m - 1, by omega⟩
          simp [List.take_succ_cons, runAll, h1, h4 m (by omega)]

theorem first_wf {k : Call} (h : k.wf) (n : Nat) : (first n k).wf :=
  ⟨fun x hx => h.1 x (List.mem_of_mem_take hx), fun x hx => h.2.1 x (List.mem_of_mem_take hx),
    fun x hx => h.2.2 x (List.mem_of_mem_take hx)⟩

theorem first_size (k : Call) : first (size k) k = k := by
  unfold first size
  rw [List.take_of_length_le (by omega), List.take_of_length_le (by omega), List.take_of_length_le (by omega)]

theorem addAll_fits {kept : List Call} {g : Dag} {k : Call} (hi : HInv g (allHps kept) (allConds kept) (allForbs kept)) (hk : k.wf)
    (hf : Fits kept k) : ∃ g', g.addAll k.hps k.conds k.forbs = (g', none) := by
  obtain ⟨g1, e1, i1⟩ := runAll_hps_ok k.hps hi hk.1 (by rw [← allHps_snoc]; exact hf.fresh)
  obtain ⟨g2, e2, i2⟩ := runAll_conds_ok k.conds i1 hk.2.1
    (by rw [← allHps_snoc]; exact hf.children) (by rw [← allHps_snoc]; exact hf.parents)
    (by rw [← allConds_snoc]; exact hf.single)
    (by rw [← allConds_snoc, parentRel_iff]; exact hf.acyclic)
  obtain ⟨g3, e3, i3⟩ := runAll_forbs_ok k.forbs i2 hk.2.2 (by rw [← allHps_snoc]; exact hf.clauses)
  refine ⟨g3, ?_⟩
  unfold Dag.addAll
  rw [e1]
  dsimp only
  rw [e2]
  exact e3

theorem hinv_snoc {kept : List Call} {g g' : Dag} {k : Call} (hi : HInv g (allHps kept) (allConds kept) (allForbs kept)) (hk : k.wf)
    (h : g.addAll k.hps k.conds k.forbs = (g', none)) :
    HInv g' (allHps (kept ++ [k])) (allConds (kept ++ [k])) (allForbs (kept ++ [k])) := by
  rw [allHps_snoc, allConds_snoc, allForbs_snoc]
  exact hi.addAll hk h

/-- A rejected condition that was not entered in part leaves the nodes as they were. -/
theorem addCond_same {ns ns' : Nodes} {c : Cond} {e : Err} (hi : NInv ns) (hc : c.wf = true)
    (h : addCondNodes ns c = (ns', some e)) (h1 : e ≠ .cyclic)
    (h2 : ∀ p, e = .parentNotFound p → p ∈ c.parents → c.parents.head? = some p) : ns' = ns := by
  obtain ⟨chp, hchp⟩ := wf_child hc
  rcases addCondNodes_cases hi hchp with ⟨m, k⟩ | ⟨k, hb⟩ | ⟨m, p, k, hp, hb⟩ | ⟨m, d, k, hd, hb⟩ | ⟨m, k, kc⟩
  · rw [k] at h; simp at h
  · rw [k] at h; simp only [Prod.mk.injEq] at h; exact h.1.symm
  · have he : e = .parentNotFound p := by
      rw [k] at h; simp only [Prod.mk.injEq, Option.some.injEq] at h; exact h.2.symm
    have hhead := h2 p he hp
    have hf := findNode_none.2 hb
    unfold addCondNodes at h
    rw [hchp] at h
    dsimp only at h
    split at h
    · simp only [Prod.mk.injEq] at h; exact h.1.symm
    · split at h
      · simp only [Prod.mk.injEq] at h; exact h.1.symm
      · cases hps : c.parents with
        | nil => rw [hps] at hhead; simp at hhead
        | cons q qs =>
          rw [hps] at hhead h
          simp only [List.head?_cons, Option.some.injEq] at hhead
          subst hhead
          simp only [addCondLoop, addCondParent, hf, Prod.mk.injEq] at h
          exact h.1.symm
  · rw [addCondNodes_ambiguous hchp hd hb] at h
    simp only [Prod.mk.injEq] at h
    exact h.1.symm
  · rw [k] at h
    simp only [Prod.mk.injEq, Option.some.injEq] at h
    exact absurd h.2.symm h1

theorem step_same {g g' : Dag} {x : Item} {e : Err} (hi : NInv g.nodes) (hx : ∀ c, x = .cond c → c.wf = true)
    (h : step g x = (g', some e)) (h1 : e ≠ .cyclic)
    (h2 : ∀ p, e = .parentNotFound p → ∀ c, x = .cond c → p ∈ c.parents → c.parents.head? = some p) : g' = g := by
  cases x with
  | hp y =>
    simp only [step, Dag.add] at h
    split at h
    · simp only [Prod.mk.injEq] at h; exact h.1.symm
    · simp at h
  | cond c =>
    simp only [step, Dag.addCondition, Prod.mk.injEq] at h
    have := addCond_same (ns' := (addCondNodes g.nodes c).1) hi (hx c rfl) (Prod.ext rfl h.2) h1 (fun p hp => h2 p hp c rfl)
    rw [← h.1, this]
  | forb f =>
    simp only [step, Dag.addForbidden] at h
    split at h
    · simp only [Prod.mk.injEq] at h; exact h.1.symm
    · split at h <;> simp at h

theorem commit_hist {s : Space} {g : Dag} {H : List HP} {C : List Cond} {F : List Forb} (hi : HInv g H C F) :
    HInv (s.commit g).1.dag H C F := by
  have hp : (sortNodes g.nodes).Perm g.nodes := sortBy_perm _ _
  have hf := findNode_perm hp hi.ninv.nodup
  have hc : ∀ n, condAt (sortNodes g.nodes) n = condAt g.nodes n := fun n => by simp [condAt, hf]
  have key : HInv (Dag.mk (sortNodes g.nodes) (rootNames (sortNodes g.nodes))
      ((sortForbs (g.uncond ++ g.condF)).filter (isUncondForb (rootNames (sortNodes g.nodes))))
      ((sortForbs (g.uncond ++ g.condF)).filter (fun f => !isUncondForb (rootNames (sortNodes g.nodes)) f))) H C F := by
    refine ⟨ninv_perm hp hi.ninv, (hp.map Node.hp).trans hi.hps, ?_, ?_, ?_, ?_, hi.forbWf⟩
    · intro n; exact (hc n).trans (hi.cond n)
    · intro c hcC x hx d hd
      exact hi.same c hcC x hx d ((hc _).symm.trans hd)
    · have h1 := List.filter_append_perm (isUncondForb (rootNames (sortNodes g.nodes)))
        (sortForbs (g.uncond ++ g.condF))
      exact (h1.trans (sortBy_perm _ _)).trans hi.forbs
    · intro f hf' n hn
      exact (hp.map Node.name).mem_iff.2 (hi.forbNames f hf' n hn)
  unfold Space.commit
  dsimp only
  split <;> exact key

/-! ## After a rejection for a cycle -/

/-- `p` is read by the condition of `n`. -/
def Reads (ns : Nodes) (p n : Name) : Prop := ∃ x ∈ ns, x.name = n ∧ ∃ c, x.cond = some c ∧ p ∈ c.parents

/-- The same names, and no condition reads less. -/
structure Grow (ns ns' : Nodes) : Prop where
  names : namesOf ns' = namesOf ns
  reads : ∀ p n, Reads ns p n → Reads ns' p n

theorem Grow.refl (ns : Nodes) : Grow ns ns := ⟨rfl, fun _ _ h => h⟩
theorem Grow.trans {a b c : Nodes} (h : Grow a b) (h' : Grow b c) : Grow a c :=
  ⟨h'.names.trans h.names, fun p n x => h'.reads p n (h.reads p n x)⟩

theorem modifyNode_grow {ns : Nodes} {n : Name} {f : Node → Node} (h1 : ∀ x ∈ ns, x.name = n → (f x).name = x.name)
    (h2 : ∀ x ∈ ns, x.name = n → ∀ c, x.cond = some c → ∃ d, (f x).cond = some d ∧ ∀ p, p ∈ c.parents → p ∈ d.parents) :
    Grow ns (modifyNode ns n f) := by
  constructor
  · unfold namesOf modifyNode
    rw [List.map_map]
    apply List.map_congr_left
    intro x hx
    simp only [Function.comp_apply]
    split
    · exact h1 x hx ‹_›
    · rfl
  · rintro p m ⟨x, hx, hn, c, hc, hp⟩
    refine ⟨if x.name = n then f x else x, List.mem_map.2 ⟨x, hx, rfl⟩, ?_⟩
    split
    · rename_i e
      obtain ⟨d, hd, hpd⟩ := h2 x hx e c hc
      exact ⟨by rw [h1 x hx e, hn], d, hd, hpd p hp⟩
    · exact ⟨hn, c, hc, hp⟩

/-- Changing neither name nor condition. -/
theorem modifyNode_same {ns : Nodes} {n : Name} {f : Node → Node} (h1 : ∀ x, (f x).name = x.name) (h2 : ∀ x, (f x).cond = x.cond) :
    Grow ns (modifyNode ns n f) ∧ Grow (modifyNode ns n f) ns ∧
    ∀ ch (P : Option Cond → Prop), (∀ x ∈ ns, x.name = ch → P x.cond) → ∀ x ∈ modifyNode ns n f, x.name = ch → P x.cond := by
  have key : ∀ x ∈ modifyNode ns n f, ∃ y ∈ ns, y.name = x.name ∧ y.cond = x.cond := by
    intro x hx
    obtain ⟨y, hy, rfl⟩ := List.mem_map.1 hx
    refine ⟨y, hy, ?_⟩
    split
    · exact ⟨(h1 y).symm, (h2 y).symm⟩
    · exact ⟨rfl, rfl⟩
  have hg := modifyNode_grow (ns := ns) (n := n) (f := f) (fun x _ _ => h1 x) (fun x _ _ c hc => ⟨c, by rw [h2, hc], fun _ h => h⟩)
  refine ⟨hg, ⟨hg.names.symm, ?_⟩, ?_⟩
  · rintro p m ⟨x, hx, hn, c, hc, hp⟩
    obtain ⟨y, hy, e1, e2⟩ := key x hx
    exact ⟨y, hy, e1.trans hn, c, e2.trans hc, hp⟩
  · intro ch P h x hx hn
    obtain ⟨y, hy, e1, e2⟩ := key x hx
    rw [← e2]
    exact h y hy (e1.trans hn)

/-- The nodes called `ch` have no condition or one equal to `c`. -/
def Free (ns : Nodes) (ch : Name) (c : Cond) : Prop := ∀ x ∈ ns, x.name = ch → x.cond = none ∨ ∃ e, x.cond = some e ∧ c.pyEq e = true

theorem linkNodes_grow {ns : Nodes} {p ch : Name} {c : Cond} (hf : Free ns ch c) :
    Grow ns (linkNodes ns p ch c) ∧ ∀ x ∈ linkNodes ns p ch c, x.name = ch → x.cond = some c := by
  unfold linkNodes
  dsimp only
  obtain ⟨g1, g1', hP⟩ := modifyNode_same (ns := ns) (n := p) (f := fun x => { x with children := dictSet x.children ch c })
    (fun _ => rfl) (fun _ => rfl)
  have hf1 := hP ch (fun o => o = none ∨ ∃ e, o = some e ∧ c.pyEq e = true) hf
  refine ⟨g1.trans (modifyNode_grow (fun _ _ _ => rfl) ?_), ?_⟩
  · intro x hx hn e he
    refine ⟨c, rfl, fun q hq => ?_⟩
    rcases hf1 x hx hn with h | ⟨e', h, hpy⟩
    · rw [h] at he; cases he
    · rw [h] at he; cases he
      exact (pyEq_parents c e hpy q).2 hq
  · intro x hx hn
    obtain ⟨y, hy, rfl⟩ := List.mem_map.1 hx
    by_cases h : y.name = ch
    · rw [if_pos h]
    · rw [if_neg h] at hn
      exact absurd hn h

theorem propDepth_grow : ∀ (k : Nat) (ns : Nodes) (n : Name) (d : Nat), Grow ns (propDepth k ns n d) ∧
    ∀ ch (P : Option Cond → Prop), (∀ x ∈ ns, x.name = ch → P x.cond) → ∀ x ∈ propDepth k ns n d, x.name = ch → P x.cond
  | 0, ns, n, d => ⟨Grow.refl _, fun _ _ h => h⟩
  | k + 1, ns, n, d => by
    unfold propDepth
    split
    · exact ⟨Grow.refl _, fun _ _ h => h⟩
    · obtain ⟨g1, _, hP⟩ := modifyNode_same (ns := ns) (n := n) (f := fun x => { x with depth := d }) (fun _ => rfl) (fun _ => rfl)
      have key : ∀ (l : List Name) (ms : Nodes), Grow ms (l.foldl (fun acc c => propDepth k acc c (d + 1)) ms) ∧
          ∀ ch (P : Option Cond → Prop), (∀ x ∈ ms, x.name = ch → P x.cond) →
            ∀ x ∈ l.foldl (fun acc c => propDepth k acc c (d + 1)) ms, x.name = ch → P x.cond := by
        intro l
        induction l with
        | nil => exact fun ms => ⟨Grow.refl _, fun _ _ h => h⟩
        | cons a l ih =>
          intro ms
          obtain ⟨a1, a2⟩ := propDepth_grow k ms a (d + 1)
          obtain ⟨b1, b2⟩ := ih (propDepth k ms a (d + 1))
          exact ⟨a1.trans b1, fun ch P h => b2 ch P (a2 ch P h)⟩
      obtain ⟨c1, c2⟩ := key (childNames ns n) (modifyNode ns n (fun x => { x with depth := d }))
      exact ⟨g1.trans c1, fun ch P h => c2 ch P (hP ch P h)⟩

theorem addCondParent_grow {ns : Nodes} {ch p : Name} {c : Cond} (hf : Free ns ch c) :
    Grow ns (addCondParent ns ch c p).1 ∧ Free (addCondParent ns ch c p).1 ch c ∧
    ((addCondParent ns ch c p).2 = some .cyclic → ∀ x ∈ (addCondParent ns ch c p).1, x.name = ch → x.cond = some c) := by
  unfold addCondParent
  split
  · exact ⟨Grow.refl _, hf, by simp⟩
  · split
    · exact ⟨Grow.refl _, hf, by simp⟩
    · dsimp only
      obtain ⟨g1, h1⟩ := linkNodes_grow (p := p) hf
      have hfree : ∀ {ms : Nodes}, (∀ x ∈ ms, x.name = ch → x.cond = some c) → Free ms ch c :=
        fun h x hx hn => .inr ⟨c, h x hx hn, Cond.pyEq_refl c⟩
      split
      · exact ⟨g1, hfree h1, fun _ => h1⟩
      · rename_i pn _ _ _
        obtain ⟨g2, h2⟩ := propDepth_grow ((linkNodes ns p ch c).length + 1) (linkNodes ns p ch c) ch (pn.depth + 1)
        have h2' := h2 ch (fun o => o = some c) h1
        unfold reorderNodes
        dsimp only
        generalize propDepth ((linkNodes ns p ch c).length + 1) (linkNodes ns p ch c) ch (pn.depth + 1) = m at *
        obtain ⟨g3, _, h3⟩ := modifyNode_same (ns := m) (n := p) (f := fun x => { x with children := sortEntries m x.children })
          (fun _ => rfl) (fun _ => rfl)
        have h3' := h3 ch (fun o => o = some c) h2'
        generalize modifyNode m p (fun x => { x with children := sortEntries m x.children }) = m' at *
        obtain ⟨g4, _, h4⟩ := modifyNode_same (ns := m') (n := ch) (f := fun x => { x with parents := sortEntries m' x.parents })
          (fun _ => rfl) (fun _ => rfl)
        have h4' := h4 ch (fun o => o = some c) h3'
        exact ⟨g1.trans (g2.trans (g3.trans g4)), hfree h4', by simp⟩

theorem addCondLoop_grow {ch : Name} {c : Cond} : ∀ (ps : List Name) {ns : Nodes}, Free ns ch c →
    Grow ns (addCondLoop ns ch c ps).1 ∧
    ((addCondLoop ns ch c ps).2 = some .cyclic → ∀ x ∈ (addCondLoop ns ch c ps).1, x.name = ch → x.cond = some c)
  | [], ns, _ => ⟨Grow.refl _, by simp [addCondLoop]⟩
  | p :: ps, ns, hf => by
    obtain ⟨g1, f1, h1⟩ := addCondParent_grow (p := p) hf
    unfold addCondLoop
    cases h : addCondParent ns ch c p with
    | mk ns1 e =>
      rw [h] at g1 f1 h1
      cases e with
      | some e => exact ⟨g1, h1⟩
      | none =>
        obtain ⟨g2, h2⟩ := addCondLoop_grow ps f1
        exact ⟨g1.trans g2, h2⟩

theorem addCondNodes_grow {ns : Nodes} {c : Cond} (hn : (namesOf ns).Nodup) :
    Grow ns (addCondNodes ns c).1 ∧ ((addCondNodes ns c).2 = some .cyclic → ∀ chp, c.child? = some chp →
      ∃ x ∈ (addCondNodes ns c).1, x.name = chp.name ∧ x.cond = some c) := by
  unfold addCondNodes
  split
  · exact ⟨Grow.refl _, by simp⟩
  · rename_i chp hchp
    split
    · exact ⟨Grow.refl _, by simp⟩
    · rename_i cn hcn
      split
      · exact ⟨Grow.refl _, by simp⟩
      · rename_i hamb
        have hf : Free ns chp.name c := by
          intro x hx hxn
          have : findNode ns x.name = some x := findNode_of_mem hn hx
          rw [hxn, hcn] at this
          cases this
          cases hc : cn.cond with
          | none => exact .inl rfl
          | some e =>
            refine .inr ⟨e, rfl, ?_⟩
            simpa [hc] using hamb
        obtain ⟨g1, h1⟩ := addCondLoop_grow c.parents hf
        refine ⟨g1, fun hcyc chp' he => ?_⟩
        obtain rfl : chp = chp' := Option.some.inj (hchp.symm.trans he)
        have hm : chp.name ∈ namesOf (addCondLoop ns chp.name c c.parents).1 := by
          rw [g1.names]; exact mem_namesOf_of_find hcn
        obtain ⟨x, hx, e⟩ := List.mem_map.1 hm
        exact ⟨x, hx, e, h1 hcyc x hx e⟩

/-- No call succeeds any more: some condition reads, directly or not, its own child. -/
structure Stuck (ns : Nodes) : Prop where
  nodup : (namesOf ns).Nodup
  loop : ∃ a, Path (Reads ns) a a

theorem Stuck.grow {ns ns' : Nodes} (h : Stuck ns) (g : Grow ns ns') : Stuck ns' := by
  obtain ⟨a, ha⟩ := h.loop
  exact ⟨by rw [g.names]; exact h.nodup, a, ha.mono g.reads⟩

theorem Stuck.step {g : Dag} (h : Stuck g.nodes) (x : Item) : Stuck (step g x).1.nodes := by
  cases x with
  | hp y =>
    simp only [Caught.step, Dag.add]
    split
    · exact h
    · rename_i hf
      obtain ⟨a, ha⟩ := h.loop
      refine ⟨?_, a, ha.mono ?_⟩
      · have hno := findNode_none.1 hf
        simp only [namesOf, List.map_append, List.map_cons, List.map_nil]
        rw [List.nodup_append]
        refine ⟨h.nodup, by simp, ?_⟩
        intro u hu v hv e
        simp only [List.mem_singleton] at hv
        subst e hv
        exact hno hu
      · rintro p n ⟨z, hz, r⟩
        exact ⟨z, List.mem_append_left _ hz, r⟩
  | cond c => exact h.grow (addCondNodes_grow h.nodup).1
  | forb f =>
    simp only [Caught.step, Dag.addForbidden]
    split
    · exact h
    · split <;> exact h

theorem Stuck.runAll : ∀ (xs : List Item) {g : Dag}, Stuck g.nodes → Stuck (Verif.runAll Caught.step g xs).1.nodes
  | [], g, h => h
  | x :: xs, g, h => by
    unfold Verif.runAll
    have h1 := h.step x
    cases hs : Caught.step g x with
    | mk g1 e =>
      rw [hs] at h1
      cases e with
      | some e => exact h1
      | none => exact Stuck.runAll xs h1

theorem Stuck.perm {ns ns' : Nodes} (h : Stuck ns) (hp : ns'.Perm ns) : Stuck ns' := by
  obtain ⟨a, ha⟩ := h.loop
  refine ⟨((hp.map Node.name).nodup_iff).2 h.nodup, a, ha.mono ?_⟩
  rintro p n ⟨z, hz, r⟩
  exact ⟨z, hp.mem_iff.2 hz, r⟩

/-- Default values can only be computed if every condition reads earlier hyperparameters. -/
theorem defaultValues_earlier : ∀ {xs : Nodes} {d d' : Dict}, defaultValues xs d = .ok d' →
    ∀ l x r, xs = l ++ x :: r → ∀ c, x.cond = some c → ∀ p ∈ c.parents, p ∈ d.map Prod.fst ∨ p ∈ namesOf l
  | [], d, d', h, l, x, r, e => by simp at e
  | y :: xs, d, d', h, l, x, r, e => by
    intro c hc p hp
    have key : ∃ o, defaultValues xs (d ++ [(y.name, o)]) = .ok d' ∧
        ∀ c, y.cond = some c → ∀ p ∈ c.parents, (d.lookup p).isSome = true := by
      unfold defaultValues at h
      cases hy : y.cond with
      | none => rw [hy] at h; exact ⟨_, h, by simp⟩
      | some c0 =>
        rw [hy] at h
        dsimp only at h
        split at h
        · simp at h
        · rename_i hany
          have hall : ∀ c, some c0 = some c → ∀ p ∈ c.parents, (d.lookup p).isSome = true := by
            rintro c ⟨⟩ p hp
            simp only [List.any_eq_true, not_exists, not_and] at hany
            have := hany p hp
            cases hl : d.lookup p <;> simp_all
          split at h
          · simp at h
          · exact ⟨_, h, hall⟩
          · exact ⟨_, h, hall⟩
    obtain ⟨o, h1, h2⟩ := key
    cases l with
    | nil =>
      simp only [List.nil_append, List.cons.injEq] at e
      obtain ⟨rfl, rfl⟩ := e
      left
      have := h2 c hc p hp
      clear h1 h2 h
      induction d with
      | nil => simp at this
      | cons kv d ih =>
        obtain ⟨k, v⟩ := kv
        by_cases hk : p = k
        · simp [hk]
        · simp only [List.map_cons, List.mem_cons]
          right
          apply ih
          rw [List.lookup_cons] at this
          have hb : (p == k) = false := by simpa using hk
          rwa [hb] at this
    | cons z l =>
      simp only [List.cons_append, List.cons.injEq] at e
      obtain ⟨rfl, rfl⟩ := e
      rcases defaultValues_earlier h1 l x r rfl c hc p hp with hm | hm
      · simp only [List.map_append, List.map_cons, List.map_nil, List.mem_append, List.mem_singleton] at hm
        rcases hm with hm | hm
        · exact .inl hm
        · exact .inr (by simp [namesOf, hm])
      · exact .inr (by simp only [namesOf, List.map_cons, List.mem_cons]; exact .inr hm)

theorem Stuck.no_default {ns : Nodes} (h : Stuck ns) {d : Dict} (hd : defaultValues ns [] = .ok d) : False := by
  obtain ⟨a, ha⟩ := h.loop
  have hlt : ∀ p n, Reads ns p n → idxOf ns p < idxOf ns n := by
    rintro p n ⟨x, hx, rfl, c, hc, hp⟩
    obtain ⟨l, r, rfl⟩ := List.append_of_mem hx
    rcases defaultValues_earlier hd l x r rfl c hc p hp with hm | hm
    · simp at hm
    · have hnd := h.nodup
      unfold namesOf at hm hnd
      have hxl : x.name ∉ l.map Node.name := by
        rw [List.map_append, List.nodup_append] at hnd
        exact fun hc => hnd.2.2 _ hc _ (by simp) rfl
      unfold idxOf
      rw [List.map_append, List.idxOf_append_of_mem hm, List.idxOf_append_of_notMem hxl]
      have := List.idxOf_lt_length_iff.2 hm
      omega
  have hpath : ∀ p n, Path (Reads ns) p n → idxOf ns p < idxOf ns n := by
    intro p n hpn
    induction hpn with
    | edge e => exact hlt _ _ e
    | cons e _ ih => exact (hlt _ _ e).trans ih
  exact Nat.lt_irrefl _ (hpath a a ha)

/-- A stuck space stays so, and the call fails. -/
theorem Stuck.add {s s' : Space} {k : Call} {o : Option Err} (h : Stuck s.dag.nodes)
    (ha : s.add k.hps k.conds k.forbs = (s', o)) : Stuck s'.dag.nodes ∧ o ≠ none := by
  have h1 := Stuck.runAll (items k) h
  unfold Space.add at ha
  rw [addAll_items] at ha
  cases hr : Verif.runAll Caught.step s.dag (items k) with
  | mk g e =>
    rw [hr] at ha h1
    cases e with
    | some e =>
      simp only [Prod.mk.injEq] at ha
      obtain ⟨rfl, rfl⟩ := ha
      exact ⟨h1, by simp⟩
    | none =>
      dsimp only at ha h1
      have hc : (s.commit g).1.dag.nodes = sortNodes g.nodes := by
        unfold Space.commit
        dsimp only
        split <;> rfl
      have h2 : Stuck (s.commit g).1.dag.nodes := by
        rw [hc]
        exact h1.perm (sortBy_perm _ _)
      cases h3 : s.commit g with
      | mk s1 e1 =>
        rw [h3] at ha h2
        cases e1 with
        | some e => simp only [Prod.mk.injEq] at ha; obtain ⟨rfl, rfl⟩ := ha; exact ⟨h2, by simp⟩
        | none =>
          dsimp only at ha
          split at ha <;> rename_i cfg hdef <;> simp only [Prod.mk.injEq] at ha <;> obtain ⟨rfl, rfl⟩ := ha
          · exact ⟨h2, by simp⟩
          · exfalso
            unfold Space.defaultConfig at hdef
            split at hdef
            · simp at hdef
            · rename_i d hd
              exact h2.no_default hd

/-- A rejection for a cycle leaves a stuck space. -/
theorem addCondition_stuck {g g' : Dag} {c : Cond} (hi : NInv g.nodes) (hc : c.wf = true)
    (h : g.addCondition c = (g', some .cyclic)) : Stuck g'.nodes := by
  obtain ⟨chp, hchp⟩ := wf_child hc
  simp only [Dag.addCondition, Prod.mk.injEq] at h
  obtain ⟨rfl, h2⟩ := h
  obtain ⟨gr, hx⟩ := addCondNodes_grow (c := c) hi.nodup
  obtain ⟨x, hx, e1, e2⟩ := hx h2 chp hchp
  refine ⟨by dsimp only; rw [gr.names]; exact hi.nodup, ?_⟩
  have hcyc : ¬ Acyclic (withEdges (Edge g.nodes) c.parents chp.name) := by
    rcases addCondNodes_cases hi hchp with ⟨m, k⟩ | ⟨k, hb⟩ | ⟨m, p, k, hp, hb⟩ | ⟨m, d, k, hd, hb⟩ | ⟨m, k, kc⟩ <;>
      rw [k] at h2 <;> simp at h2
    exact kc
  unfold Acyclic at hcyc
  simp only [not_forall, not_not] at hcyc
  obtain ⟨a, ha⟩ := hcyc
  refine ⟨a, ha.mono ?_⟩
  rintro p n (he | ⟨hp, rfl⟩)
  · apply gr.reads
    rw [edge_iff_childAt, Option.isSome_iff_exists] at he
    obtain ⟨d, hd⟩ := he
    obtain ⟨h3, h4⟩ := (hi.child p n d).1 hd
    unfold condAt at h3
    cases hf : findNode g.nodes n with
    | none => rw [hf] at h3; simp at h3
    | some y =>
      rw [hf] at h3
      have hy := List.mem_of_find?_eq_some hf
      have hyn : y.name = n := by have := List.find?_some hf; simpa using this
      exact ⟨y, hy, hyn, d, by simpa using h3, h4⟩
  · exact ⟨x, hx, e1, c, e2, hp⟩

/-! Rejections for a cycle after arbitrary histories, in which conditions may have been entered in part. -/

/-- Every edge of the graph comes from a condition. -/
structure Calm (ns : Nodes) : Prop where
  nodup : (namesOf ns).Nodup
  keys : KeysOk ns
  edges : ∀ p n, Edge ns p n → IsNode ns p ∧ IsNode ns n ∧ Reads ns p n

theorem Calm.same {ns ns' : Nodes} (h : Calm ns) (hs : SameGraph ns ns') (hg : Grow ns ns') : Calm ns' := by
  refine ⟨by rw [hs.names]; exact h.nodup, hs.keys h.keys, fun p n he => ?_⟩
  rw [hs.edge] at he
  rw [hs.isNode]
  obtain ⟨h1, h2, h3⟩ := h.edges p n he
  exact ⟨h1, h2, hg.reads p n h3⟩

theorem propDepth_shape : ∀ (k : Nat) (ns : Nodes) (n : Name) (d : Nat), SameShape ns (propDepth k ns n d)
  | 0, ns, n, d => rfl
  | k + 1, ns, n, d => by
    unfold propDepth
    split
    · rfl
    · have h1 : SameShape ns (modifyNode ns n (fun x => { x with depth := d })) := by
        unfold SameShape modifyNode
        rw [List.map_map]
        apply List.map_congr_left
        intro x _
        simp only [Function.comp_apply]
        split <;> rfl
      have key : ∀ (l : List Name) (ms : Nodes), SameShape ms (l.foldl (fun acc c => propDepth k acc c (d + 1)) ms) := by
        intro l
        induction l with
        | nil => exact fun ms => rfl
        | cons a l ih => exact fun ms => (propDepth_shape k ms a (d + 1)).trans (ih _)
      exact h1.trans (key _ _)

theorem reorder_grow (m : Nodes) (p ch : Name) : Grow m (reorderNodes m p ch) := by
  unfold reorderNodes
  dsimp only
  obtain ⟨g3, _, _⟩ := modifyNode_same (ns := m) (n := p) (f := fun x => { x with children := sortEntries m x.children })
    (fun _ => rfl) (fun _ => rfl)
  generalize modifyNode m p (fun x => { x with children := sortEntries m x.children }) = m' at *
  obtain ⟨g4, _, _⟩ := modifyNode_same (ns := m') (n := ch) (f := fun x => { x with parents := sortEntries m' x.parents })
    (fun _ => rfl) (fun _ => rfl)
  exact g3.trans g4

theorem addCondParent_calm {ns : Nodes} {ch p : Name} {c : Cond} (hi : Calm ns) (hf : Free ns ch c) (hch : IsNode ns ch)
    (hp : p ∈ c.parents) : Calm (addCondParent ns ch c p).1 ∧
      ((addCondParent ns ch c p).2 = some .cyclic → Stuck (addCondParent ns ch c p).1) := by
  unfold addCondParent
  cases hpf : findNode ns p with
  | none => exact ⟨hi, by simp⟩
  | some pn =>
    have hpn : IsNode ns p := mem_namesOf_of_find hpf
    dsimp only
    split
    · exact ⟨hi, by simp⟩
    · obtain ⟨g1, h1⟩ := linkNodes_grow (p := p) hf
      have hL := linkNodes_linked (ns := ns) (p := p) (ch := ch) c hpn hch
      have hcalm : Calm (linkNodes ns p ch c) := by
        refine ⟨by rw [hL.names]; exact hi.nodup, hL.keys hi.keys, fun a b hab => ?_⟩
        unfold IsNode
        rw [hL.names]
        rcases (hL.edge a b).1 hab with ⟨rfl, rfl⟩ | hab
        · refine ⟨hpn, hch, ?_⟩
          have hm : b ∈ namesOf (linkNodes ns a b c) := by rw [hL.names]; exact hch
          obtain ⟨x, hx, e⟩ := List.mem_map.1 hm
          exact ⟨x, hx, e, c, h1 x hx e, hp⟩
        · obtain ⟨k1, k2, k3⟩ := hi.edges a b hab
          exact ⟨k1, k2, g1.reads a b k3⟩
      split
      · rename_i hcyc
        refine ⟨hcalm, fun _ => ⟨hcalm.nodup, ?_⟩⟩
        have := (cyclicCheck_iff (fun a b hab => ⟨(hcalm.edges a b hab).1, (hcalm.edges a b hab).2.1⟩)).1 hcyc
        unfold Acyclic at this
        simp only [not_forall, not_not] at this
        obtain ⟨a, ha⟩ := this
        exact ⟨a, ha.mono (fun u v huv => (hcalm.edges u v huv).2.2)⟩
      · refine ⟨?_, by simp⟩
        have h2 := hcalm.same (propDepth_shape ((linkNodes ns p ch c).length + 1) _ ch (pn.depth + 1)).sameGraph
          (propDepth_grow _ _ _ _).1
        exact h2.same (reorder_sameGraph h2.keys p ch) (reorder_grow _ p ch)

theorem addCondLoop_calm {ch : Name} {c : Cond} : ∀ (ps : List Name) {ns : Nodes}, Calm ns → Free ns ch c → IsNode ns ch →
    (∀ p ∈ ps, p ∈ c.parents) → Calm (addCondLoop ns ch c ps).1 ∧
      ((addCondLoop ns ch c ps).2 = some .cyclic → Stuck (addCondLoop ns ch c ps).1)
  | [], ns, hi, _, _, _ => ⟨hi, by simp [addCondLoop]⟩
  | p :: ps, ns, hi, hf, hch, hp => by
    obtain ⟨g1, f1, _⟩ := addCondParent_grow (p := p) hf
    obtain ⟨c1, s1⟩ := addCondParent_calm hi hf hch (hp p (by simp))
    unfold addCondLoop
    cases h : addCondParent ns ch c p with
    | mk ns1 e =>
      rw [h] at g1 f1 c1 s1
      cases e with
      | some e => exact ⟨c1, s1⟩
      | none =>
        exact addCondLoop_calm ps c1 f1 (by unfold IsNode; rw [g1.names]; exact hch) (fun q hq => hp q (by simp [hq]))

theorem addCondNodes_calm {ns : Nodes} {c : Cond} (hi : Calm ns) : Calm (addCondNodes ns c).1 ∧
    ((addCondNodes ns c).2 = some .cyclic → Stuck (addCondNodes ns c).1) := by
  unfold addCondNodes
  split
  · exact ⟨hi, by simp⟩
  · rename_i chp hchp
    split
    · exact ⟨hi, by simp⟩
    · rename_i cn hcn
      split
      · exact ⟨hi, by simp⟩
      · rename_i hamb
        have hf : Free ns chp.name c := by
          intro x hx hxn
          have : findNode ns x.name = some x := findNode_of_mem hi.nodup hx
          rw [hxn, hcn] at this
          cases this
          cases hc : cn.cond with
          | none => exact .inl rfl
          | some e =>
            refine .inr ⟨e, rfl, ?_⟩
            simpa [hc] using hamb
        exact addCondLoop_calm c.parents hi hf (mem_namesOf_of_find hcn) (fun _ h => h)

theorem step_calm {g : Dag} (hi : Calm g.nodes) (x : Item) : Calm (step g x).1.nodes ∧
    ((step g x).2 = some .cyclic → Stuck (step g x).1.nodes) := by
  cases x with
  | hp y =>
    simp only [step, Dag.add]
    split
    · exact ⟨hi, by simp⟩
    · rename_i hf
      have hno := findNode_none.1 hf
      refine ⟨⟨?_, ?_, ?_⟩, by simp⟩
      · simp only [namesOf, List.map_append, List.map_cons, List.map_nil]
        rw [List.nodup_append]
        refine ⟨hi.nodup, by simp, ?_⟩
        intro u hu v hv e
        simp only [List.mem_singleton] at hv
        subst e hv
        exact hno hu
      · intro z hz
        rcases List.mem_append.1 hz with hz | hz
        · exact hi.keys z hz
        · rw [List.mem_singleton.1 hz]; simp
      · intro p n he
        have he' : Edge g.nodes p n := by
          unfold Edge childNames findNode at he ⊢
          rw [List.find?_append] at he
          cases h1 : g.nodes.find? (fun x => x.name == p) with
          | some z => rw [h1] at he; exact he
          | none =>
            rw [h1] at he
            by_cases hy : y.name = p <;> simp [Node.name, hy] at he
        obtain ⟨k1, k2, z, hz, r⟩ := hi.edges p n he'
        refine ⟨?_, ?_, z, List.mem_append_left _ hz, r⟩
        · simp only [IsNode, namesOf, List.map_append]; exact List.mem_append_left _ k1
        · simp only [IsNode, namesOf, List.map_append]; exact List.mem_append_left _ k2
  | cond c => exact addCondNodes_calm hi
  | forb f =>
    simp only [step, Dag.addForbidden]
    split
    · exact ⟨hi, by simp⟩
    · split <;> exact ⟨hi, by simp⟩

theorem runAll_calm : ∀ (xs : List Item) {g : Dag}, Calm g.nodes → Calm (runAll step g xs).1.nodes ∧
    ((runAll step g xs).2 = some .cyclic → Stuck (runAll step g xs).1.nodes)
  | [], g, hi => ⟨hi, by simp [runAll]⟩
  | x :: xs, g, hi => by
    obtain ⟨h1, h2⟩ := step_calm hi x
    unfold runAll
    cases hs : step g x with
    | mk g1 e =>
      rw [hs] at h1 h2
      cases e with
      | some e => exact ⟨h1, h2⟩
      | none => exact runAll_calm xs h1

theorem Calm.perm {ns ns' : Nodes} (h : Calm ns) (hp : ns'.Perm ns) : Calm ns' := by
  have hf := findNode_perm hp h.nodup
  refine ⟨((hp.map Node.name).nodup_iff).2 h.nodup, fun x hx => h.keys x (hp.mem_iff.1 hx), fun p n he => ?_⟩
  have he' : Edge ns p n := by unfold Edge childNames at he ⊢; rwa [hf] at he
  obtain ⟨k1, k2, z, hz, r⟩ := h.edges p n he'
  exact ⟨(hp.map Node.name).mem_iff.2 k1, (hp.map Node.name).mem_iff.2 k2, z, hp.mem_iff.2 hz, r⟩

theorem add_calm {s s' : Space} {k : Call} {o : Option Err} (h : Calm s.dag.nodes)
    (ha : s.add k.hps k.conds k.forbs = (s', o)) : Calm s'.dag.nodes ∧ (o = some .cyclic → Stuck s'.dag.nodes) := by
  obtain ⟨h1, h2⟩ := runAll_calm (items k) h
  rw [← addAll_items] at h1 h2
  refine ⟨?_, ?_⟩
  · unfold Space.add at ha
    cases hr : s.dag.addAll k.hps k.conds k.forbs with
    | mk g e =>
      rw [hr] at ha h1
      cases e with
      | some e =>
        simp only [Prod.mk.injEq] at ha
        obtain ⟨rfl, rfl⟩ := ha
        exact h1
      | none =>
        dsimp only at ha h1
        have hc : (s.commit g).1.dag.nodes = sortNodes g.nodes := by
          unfold Space.commit
          dsimp only
          split <;> rfl
        have h3 : Calm (s.commit g).1.dag.nodes := by
          rw [hc]
          exact h1.perm (sortBy_perm _ _)
        cases h4 : s.commit g with
        | mk s1 e1 =>
          rw [h4] at ha h3
          cases e1 with
          | some e => simp only [Prod.mk.injEq] at ha; rw [← ha.1]; exact h3
          | none =>
            dsimp only at ha
            split at ha <;> simp only [Prod.mk.injEq] at ha <;> rw [← ha.1] <;> exact h3
  · rintro rfl
    have h3 : (s.add k.hps k.conds k.forbs).2 = some .cyclic := by rw [ha]
    rw [add_structural (e := .cyclic) trivial] at h3
    have h4 := h2 h3
    unfold Space.add at ha
    cases hg : s.dag.addAll k.hps k.conds k.forbs with
    | mk g e =>
      rw [hg] at h3 ha h4
      dsimp only at h3
      subst h3
      simp only [Prod.mk.injEq] at ha
      rw [← ha.1]
      exact h4

theorem attempts_calm {hist : List (Call × Option Err)} {s : Space} (h : Attempts hist s) :
    Calm s.dag.nodes ∧ ∀ k, (k, some .cyclic) ∈ hist → Stuck s.dag.nodes := by
  induction h with
  | nil => exact ⟨⟨by simp [namesOf], by simp [KeysOk], by simp [Edge, childNames, findNode]⟩, by simp⟩
  | @snoc hist s s' k' o h0 hk ha ih =>
    obtain ⟨h1, h2⟩ := add_calm ih.1 ha
    refine ⟨h1, fun k hc => ?_⟩
    rcases List.mem_append.1 hc with hc | hc
    · exact ((ih.2 k hc).add ha).1
    · simp only [List.mem_singleton, Prod.mk.injEq] at hc
      exact h2 hc.2.symm

/-- What is in the graph after one more call, whatever its outcome. -/
theorem add_hist {kept : List Call} {s s' : Space} {k : Call} {o : Option Err}
    (hi : HInv s.dag (allHps kept) (allConds kept) (allForbs kept)) (hk : k.wf)
    (h : s.add k.hps k.conds k.forbs = (s', o)) (hh : NotHalf k o) :
    (o = some .cyclic ∧ Stuck s'.dag.nodes) ∨ ∃ n, Longest kept k n ∧
      HInv s'.dag (allHps (kept ++ [first n k])) (allConds (kept ++ [first n k])) (allForbs (kept ++ [first n k])) ∧
      (o = none → n = size k) := by
  unfold Space.add at h
  cases h1 : s.dag.addAll k.hps k.conds k.forbs with
  | mk g e =>
    rw [h1] at h
    cases e with
    | some e =>
      simp only [Prod.mk.injEq] at h
      obtain ⟨rfl, rfl⟩ := h
      rw [addAll_items] at h1
      obtain ⟨n, g1, x, hn, hx, h2, h3, h4⟩ := runAll_stops h1
      have h2' : s.dag.addAll (first n k).hps (first n k).conds (first n k).forbs = (g1, none) := by
        rw [addAll_items, items_first]; exact h2
      have hi1 := hinv_snoc hi (first_wf hk n) h2'
      have hxw : ∀ c, x = .cond c → c.wf = true := by
        rintro c rfl
        apply hk.2.1
        simpa [items] using hx
      by_cases hcyc : e = .cyclic
      · subst hcyc
        refine .inl ⟨rfl, ?_⟩
        cases x with
        | hp y => exact absurd rfl (dagAdd_err h3)
        | cond c => exact addCondition_stuck hi1.ninv (hxw c rfl) h3
        | forb f => exact absurd rfl (addForbidden_err h3)
      right
      have hg : g = g1 := by
        refine step_same hi1.ninv hxw h3 hcyc ?_
        rintro p hp c rfl
        apply hh p (by rw [hp])
        simpa [items] using hx
      subst hg
      refine ⟨n, ⟨by rw [← items_length]; omega, fits_of_hinv hi1 (first_wf hk n).2.1, ?_⟩, hi1, by simp⟩
      intro m hm _ hfm
      obtain ⟨g2, hg2⟩ := addAll_fits hi (first_wf hk m) hfm
      rw [addAll_items, items_first, h4 m hm] at hg2
      simp at hg2
    | none =>
      right
      have hi1 := hinv_snoc hi hk h1
      have hl : Longest kept k (size k) := ⟨le_refl _, by rw [first_size]; exact fits_of_hinv hi1 hk.2.1, fun m h1 h2 => by omega⟩
      refine ⟨size k, hl, ?_, fun _ => rfl⟩
      rw [first_size]
      have h2 := commit_hist (s := s) hi1
      dsimp only at h
      cases h3 : s.commit g with
      | mk s1 e1 =>
        rw [h3] at h h2
        cases e1 with
        | some e => simp only [Prod.mk.injEq] at h; rw [← h.1]; exact h2
        | none =>
          dsimp only at h
          split at h <;> simp only [Prod.mk.injEq] at h <;> rw [← h.1] <;> exact h2

theorem attempts_hist {hist : List (Call × Option Err)} {s : Space} (h : Attempts hist s) (hh : ∀ x ∈ hist, NotHalf x.1 x.2) :
    Stuck s.dag.nodes ∨ ∃ kept, Stayed (hist.map Prod.fst) kept ∧ (∀ k ∈ kept, k.wf) ∧
      HInv s.dag (allHps kept) (allConds kept) (allForbs kept) := by
  induction h with
  | nil => exact .inr ⟨[], .nil, by simp, hinv_empty⟩
  | @snoc hist s s' k o _ hk ha ih =>
    rcases ih (fun x hx => hh x (by simp [hx])) with hs | ⟨kept, h1, h2, h3⟩
    · exact .inl (hs.add ha).1
    · rcases add_hist h3 hk ha (hh (k, o) (by simp)) with ⟨_, hs⟩ | ⟨n, hl, hi, _⟩
      · exact .inl hs
      · refine .inr ⟨kept ++ [first n k], by simpa using Stayed.snoc h1 hl, ?_, hi⟩
        intro x hx
        rcases List.mem_append.1 hx with hx | hx
        · exact h2 x hx
        · rw [List.mem_singleton.1 hx]; exact first_wf hk n

theorem longest_unique {kept : List Call} {k : Call} {n m : Nat} (h : Longest kept k n) (h' : Longest kept k m) : n = m := by
  rcases Nat.lt_trichotomy n m with hlt | rfl | hlt
  · exact absurd h'.fits (h.stop m hlt h'.le)
  · rfl
  · exact absurd h.fits (h'.stop n hlt h.le)

theorem stayed_unique {ks kept kept' : List Call} (h : Stayed ks kept) (h' : Stayed ks kept') : kept = kept' := by
  induction h generalizing kept' with
  | nil =>
    generalize hz : ([] : List Call) = zs at h'
    cases h' with
    | nil => rfl
    | snoc _ _ => simp at hz
  | @snoc ks kept k n h1 hl ih =>
    generalize hz : ks ++ [k] = zs at h'
    cases h' with
    | nil => simp at hz
    | @snoc ks2 kept2 k2 n2 h2 hl2 =>
      obtain ⟨e1, e2⟩ := List.append_inj' hz rfl
      simp only [List.cons.injEq, and_true] at e2
      subst e1 e2
      have := ih h2
      subst this
      rw [longest_unique hl hl2]

theorem stayed_forbs {ks kept : List Call} (h : Stayed ks kept) : ∀ f ∈ allForbs kept, f ∈ allForbs ks := by
  induction h with
  | nil => simp
  | @snoc ks kept k n h1 hl ih =>
    intro f hf
    rw [allForbs_snoc, List.mem_append] at hf ⊢
    exact hf.imp (ih f) List.mem_of_mem_take

/-- After a last call that returned, the space is as one built by successful calls. -/
theorem attempts_pre {hist : List (Call × Option Err)} {s : Space} {k : Call} (h : Attempts (hist ++ [(k, none)]) s)
    (hh : ∀ x ∈ hist, NotHalf x.1 x.2) :
    ∃ kept, Stayed (hist.map Prod.fst) kept ∧ Fits kept k ∧ (∀ x ∈ kept ++ [k], x.wf) ∧
      Pre s (allHps (kept ++ [k])) (allConds (kept ++ [k])) (allForbs (kept ++ [k])) ∧
      s.lookup = changeLookup s.com s.minConds ∧ ∃ c, s.defaultConfig = .ok c := by
  generalize hz : hist ++ [(k, none)] = zs at h
  cases h with
  | nil => simp at hz
  | @snoc hist2 s0 s' k2 o h0 hk ha =>
    obtain ⟨e1, e2⟩ := List.append_inj' hz rfl
    simp only [List.cons.injEq, Prod.mk.injEq, and_true] at e2
    obtain ⟨rfl, rfl⟩ := e2
    subst e1
    rcases attempts_hist h0 hh with hs | ⟨kept, h1, h2, h3⟩
    · exact absurd rfl (hs.add ha).2
    refine ⟨kept, h1, ?_⟩
    unfold Space.add at ha
    cases h4 : s0.dag.addAll k.hps k.conds k.forbs with
    | mk g e =>
      rw [h4] at ha
      cases e with
      | some e => simp at ha
      | none =>
        dsimp only at ha
        have hi1 := hinv_snoc h3 hk h4
        refine ⟨fits_of_hinv hi1 hk.2.1, ?_, ?_⟩
        · intro x hx
          rcases List.mem_append.1 hx with hx | hx
          · exact h2 x hx
          · rw [List.mem_singleton.1 hx]; exact hk
        · cases h5 : s0.commit g with
          | mk s1 e1 =>
            rw [h5] at ha
            cases e1 with
            | some e => simp at ha
            | none =>
              dsimp only at ha
              obtain ⟨m1, m2, m3, m4, m5, m6, m7, m8, m9⟩ := commit_ok hi1 h5
              split at ha
              · simp at ha
              · rename_i cfg hdef
                simp only [Prod.mk.injEq, and_true] at ha
                subst ha
                refine ⟨⟨m1, m2, ?_, m4, ?_, m7, m8⟩, m9, cfg, hdef⟩
                · simp only [m3]
                  exact sortBy_pairwise
                    (le := fun a b : Node => keyLe (a.depth, a.name) (b.depth, b.name))
                    (fun a b => keyLe_total _ _) (fun a b c => keyLe_trans _ _ _) _
                · simp only [m2]

theorem together_all (ks : List Call) : allHps [together ks] = allHps ks ∧ allConds [together ks] = allConds ks ∧
    allForbs [together ks] = allForbs ks := by
  simp [together, allHps, allConds, allForbs]

/-- One call with everything that stayed builds the same space. -/
theorem combined {s : Space} {ks : List Call} (hw : ∀ x ∈ ks, x.wf) (p : Pre s (allHps ks) (allConds ks) (allForbs ks))
    (hd : ∃ c, s.defaultConfig = .ok c) (hown : OwnClauses ks) :
    ∃ t, Reach [together ks] t ∧ s.com.map Node.core = t.com.map Node.core ∧ s.forbs.Perm t.forbs ∧
      (∀ v al, s.check v al = t.check v al) ∧ (∀ d al, Config.ofValues s d al = Config.ofValues t d al) ∧
      s.defaultConfig = t.defaultConfig := by
  have hwt : (together ks).wf := by
    refine ⟨?_, ?_, ?_⟩ <;> intro x hx <;>
      simp only [together, allHps, allConds, allForbs, List.mem_flatMap] at hx <;> obtain ⟨k, hk, hx⟩ := hx
    · exact (hw k hk).1 x hx
    · exact (hw k hk).2.1 x hx
    · exact (hw k hk).2.2 x hx
  obtain ⟨eH, eC, eF⟩ := together_all ks
  have hfit : Fits [] (together ks) := fits_of_hinv (g := s.dag) (by
    rw [List.nil_append, eH, eC, eF]; exact p.hist) hwt.2.1
  obtain ⟨t, pt, ha⟩ := add_candidate Reach.nil hwt hfit (by
      intro f hf x hx
      rw [List.nil_append, eF] at hf
      rw [List.nil_append, eH]
      exact hown f hf x hx) (by
      rw [List.nil_append, eF]
      exact noEmpty_of_pre p)
  rw [List.nil_append, eH, eC, eF] at pt
  have hcore := core_eq p pt (List.Perm.refl _) rfl (fun n => rfl)
  obtain ⟨k1, k2, k3⟩ := same_default p pt (List.Perm.refl _) hown (fun f => Iff.rfl) hcore
  obtain ⟨c, hc⟩ := hd
  rw [k3] at hc
  rw [hc] at ha
  refine ⟨t, Reach.snoc Reach.nil hwt ha, hcore, p.hist.forbs.trans pt.hist.forbs.symm, k1, k2, k3⟩

end Caught

end Verif
