import Verif.Lemmas.Readd
import Verif.Spec.SpaceEq

/-!
# Equality of spaces: what is compared
-/

set_option autoImplicit false

namespace Verif
open Verif.Spec

/-! ## Clauses -/

theorem forb_allIn_iff {cs ds : List Forb} : Forb.allIn cs ds = true ↔ ∀ c ∈ cs, ∃ d ∈ ds, c.pyEq d = true := by
  induction cs with
  | nil => simp [Forb.allIn]
  | cons c cs ih => simp [Forb.allIn, ih]

theorem forb_anyEq_iff {cs : List Forb} {d : Forb} : Forb.anyEq cs d = true ↔ ∃ c ∈ cs, c.pyEq d = true := by
  induction cs with
  | nil => simp [Forb.anyEq]
  | cons c cs ih => simp [Forb.anyEq, ih]

/-- Both lists have the same length and the same elements up to equality. -/
def clausesEq (cs ds : List Forb) : Prop :=
  cs.length = ds.length ∧ (∀ c ∈ cs, ∃ d ∈ ds, c.pyEq d = true) ∧ ∀ d ∈ ds, ∃ c ∈ cs, c.pyEq d = true

theorem forb_pyEq_and {cs ds : List Forb} : (Forb.and cs).pyEq (.and ds) = true ↔ clausesEq cs ds := by
  simp [Forb.pyEq, forb_allIn_iff, forb_anyEq_iff, clausesEq, and_assoc]

theorem Forb.pyEq_refl (f : Forb) : f.pyEq f = true := by
  induction f using Forb.induct with
  | he h w x => simp [Forb.pyEq, HP.pyEq_refl, Val.pyEq_refl]
  | hi h ws xs =>
    simp only [Forb.pyEq, HP.pyEq_refl, decide_true, Bool.true_and, List.all_eq_true]
    intro v hv
    exact pyIn_iff.2 ⟨v, hv, Val.pyEq_refl v⟩
  | hr op a b => simp [Forb.pyEq, HP.pyEq_refl]
  | ha cs ih => exact forb_pyEq_and.2 ⟨rfl, fun c hc => ⟨c, hc, ih c hc⟩, fun c hc => ⟨c, hc, ih c hc⟩⟩

theorem Forb.pyEq_trans (f : Forb) : ∀ {g h : Forb}, f.pyEq g = true → g.pyEq h = true → f.pyEq h = true := by
  induction f using Forb.induct with
  | he a w x =>
    intro g h h1 h2
    cases g <;> simp [Forb.pyEq] at h1
    cases h <;> simp [Forb.pyEq] at h2
    simp only [Forb.pyEq, Bool.and_eq_true]
    exact ⟨HP.pyEq_trans h1.1 h2.1, Val.pyEq_trans h1.2 h2.2⟩
  | hi a ws xs =>
    intro g h h1 h2
    cases g <;> simp [Forb.pyEq] at h1
    cases h <;> simp [Forb.pyEq] at h2
    simp only [Forb.pyEq, Bool.and_eq_true, decide_eq_true_eq, List.all_eq_true]
    refine ⟨⟨HP.pyEq_trans h1.1.1 h2.1.1, h1.1.2.trans h2.1.2⟩, fun v hv => ?_⟩
    obtain ⟨w, hw, e⟩ := pyIn_iff.1 (h1.2 v hv)
    obtain ⟨u, hu, e'⟩ := pyIn_iff.1 (h2.2 w hw)
    exact pyIn_iff.2 ⟨u, hu, Val.pyEq_trans e' e⟩
  | hr op a b =>
    intro g h h1 h2
    cases g <;> simp [Forb.pyEq] at h1
    cases h <;> simp [Forb.pyEq] at h2
    simp only [Forb.pyEq, Bool.and_eq_true, decide_eq_true_eq]
    exact ⟨⟨h1.1.1.trans h2.1.1, HP.pyEq_trans h1.1.2 h2.1.2⟩, HP.pyEq_trans h1.2 h2.2⟩
  | ha cs ih =>
    intro g h h1 h2
    cases g with
    | and ds =>
      cases h with
      | and es =>
        have h1 := forb_pyEq_and.1 h1
        have h2 := forb_pyEq_and.1 h2
        refine forb_pyEq_and.2 ⟨h1.1.trans h2.1, fun c hc => ?_, fun e he => ?_⟩
        · obtain ⟨d, hd, e1⟩ := h1.2.1 c hc
          obtain ⟨e, he, e2⟩ := h2.2.1 d hd
          exact ⟨e, he, ih c hc e1 e2⟩
        · obtain ⟨d, hd, e1⟩ := h2.2.2 e he
          obtain ⟨c, hc, e2⟩ := h1.2.2 d hd
          exact ⟨c, hc, ih c hc e2 e1⟩
      | _ => simp [Forb.pyEq] at h2
    | _ => simp [Forb.pyEq] at h1

theorem forb_mem_dlcsL {cs : List Forb} {g : Forb} : g ∈ Forb.dlcsL cs ↔ ∃ c ∈ cs, g ∈ c.dlcs := by
  induction cs with
  | nil => simp [Forb.dlcsL]
  | cons c cs ih => simp [Forb.dlcsL, ih]

theorem forb_dlcs_wf (f : Forb) : f.wf = true → ∀ a ∈ f.dlcs, a.wf = true := by
  induction f using Forb.induct with
  | he h w x => intro hw a ha; simp only [Forb.dlcs, List.mem_singleton] at ha; exact ha ▸ hw
  | hi h ws xs => intro hw a ha; simp only [Forb.dlcs, List.mem_singleton] at ha; exact ha ▸ hw
  | hr op a b => intro hw a ha; simp only [Forb.dlcs, List.mem_singleton] at ha; exact ha ▸ hw
  | ha cs ih =>
    intro hw a ha
    rw [Forb.wf, wfL_iff] at hw
    rw [Forb.dlcs, forb_mem_dlcsL] at ha
    obtain ⟨c, hc, ha⟩ := ha
    exact ih c hc (hw c hc) a ha

theorem forb_dlcs_dlcs (f : Forb) : ∀ a ∈ f.dlcs, ∀ b ∈ a.dlcs, b ∈ f.dlcs := by
  induction f using Forb.induct with
  | he h w x => intro a ha; simp only [Forb.dlcs, List.mem_singleton] at ha; exact ha ▸ fun b hb => hb
  | hi h ws xs => intro a ha; simp only [Forb.dlcs, List.mem_singleton] at ha; exact ha ▸ fun b hb => hb
  | hr op a b => intro a ha; simp only [Forb.dlcs, List.mem_singleton] at ha; exact ha ▸ fun b hb => hb
  | ha cs ih =>
    intro a ha b hb
    rw [Forb.dlcs, forb_mem_dlcsL] at ha ⊢
    obtain ⟨c, hc, ha⟩ := ha
    exact ⟨c, hc, ih c hc a ha b hb⟩

/-- The hyperparameters of a well-formed clause are well formed. -/
theorem forb_wf_hps (f : Forb) (hw : f.wf = true) : ∀ h ∈ clauseHps f, h.wf = true := by
  induction f using Forb.induct with
  | he h w x =>
    intro k hk
    simp only [clauseHps, List.mem_singleton] at hk
    subst hk
    simp only [Forb.wf, Bool.and_eq_true] at hw
    exact hw.1.1
  | hi h ws xs =>
    intro k hk
    simp only [clauseHps, List.mem_singleton] at hk
    subst hk
    simp only [Forb.wf, Bool.and_eq_true] at hw
    exact hw.1.1
  | hr op a b =>
    intro k hk
    simp only [clauseHps, List.mem_cons, List.not_mem_nil, or_false] at hk
    simp only [Forb.wf, Bool.and_eq_true] at hw
    rcases hk with rfl | rfl
    · exact hw.1
    · exact hw.2
  | ha cs ih =>
    intro k hk
    rw [Forb.wf, wfL_iff] at hw
    rw [clauseHps, mem_clauseHpsL] at hk
    obtain ⟨c, hc, hk⟩ := hk
    exact ih c hc (hw c hc) k hk

/-! ## Nodes -/

theorem forbsEq_iff : ∀ {fs gs : List Forb}, forbsEq fs gs = true ↔ ListEq Forb.pyEq fs gs
  | [], [] => by simp [forbsEq, ListEq]
  | [], _ :: _ => by simp [forbsEq, ListEq]
  | _ :: _, [] => by simp [forbsEq, ListEq]
  | f :: fs, g :: gs => by
    have := @forbsEq_iff fs gs
    simp only [ListEq] at this ⊢
    simp [forbsEq, this]

/-- The loop over the nodes compares node by node. -/
theorem nodes_cmp {f g : FSpace} (hf : f.space.dag.nodes = f.space.com) (hg : g.space.dag.nodes = g.space.com)
    (nf : (namesOf f.space.com).Nodup) (ng : (namesOf g.space.com).Nodup) :
    (f.space.dag.nodes.length = g.space.dag.nodes.length ∧ ∀ x ∈ f.space.dag.nodes,
      (match findNode g.space.dag.nodes x.name with | some y => nodeEq f g x y | none => false) = true) ↔
    List.Forall₂ (fun x y => nodeEq f g x y = true) f.space.com g.space.com := by
  rw [hf, hg, List.forall₂_iff_get]
  refine and_congr_right fun hl => ⟨fun h i h1 h2 => ?_, fun h x hx => ?_⟩
  · have hx := h _ (List.get_mem f.space.com ⟨i, h1⟩)
    cases e : findNode g.space.com (f.space.com.get ⟨i, h1⟩).name with
    | none => simp only [e] at hx; exact absurd hx (by simp)
    | some y =>
      simp only [e] at hx
      obtain ⟨ym, yn⟩ := findNode_some e
      have hidx : f.space.idx (f.space.com.get ⟨i, h1⟩).name = g.space.idx y.name := by
        simp only [nodeEq, Bool.and_eq_true, decide_eq_true_eq] at hx
        exact hx.1.1.1.1.2
      have i1 : f.space.idx (f.space.com.get ⟨i, h1⟩).name = i := by
        have := nf.idxOf_getElem i (by simpa [namesOf] using h1)
        simpa [Space.idx, idxOf, namesOf] using this
      obtain ⟨j, hj, ej⟩ := List.getElem_of_mem ym
      have i2 : g.space.idx y.name = j := by
        have := ng.idxOf_getElem j (by simpa [namesOf] using hj)
        rw [← ej]
        simpa [Space.idx, idxOf, namesOf] using this
      have : i = j := by rw [← i1, hidx, i2]
      subst this
      simp only [List.get_eq_getElem] at hx ⊢
      rw [ej]
      exact hx
  · obtain ⟨i, hi, e⟩ := List.getElem_of_mem hx
    have h2 := h i hi (hl ▸ hi)
    simp only [List.get_eq_getElem, e] at h2
    have hn : x.name = (g.space.com[i]'(hl ▸ hi)).name := by
      simp only [nodeEq, Bool.and_eq_true] at h2
      exact HP.pyEq_name h2.1.1.1.1.1
    rw [hn, findNode_of_mem ng (List.getElem_mem _)]
    exact h2

/-- What is compared besides the nodes and the content is determined by them. -/
theorem eq_iff_nodes {f g : FSpace} (hf : f.space.dag.nodes = f.space.com) (hg : g.space.dag.nodes = g.space.com)
    (nf : (namesOf f.space.com).Nodup) (ng : (namesOf g.space.com).Nodup)
    (lf : f.space.len = f.space.com.length) (lg : g.space.len = g.space.com.length) :
    f.eq g = true ↔ List.Forall₂ (fun x y => nodeEq f g x y = true) f.space.com g.space.com ∧
      ListEq Forb.pyEq f.space.dag.uncond g.space.dag.uncond ∧ ListEq Forb.pyEq f.space.dag.condF g.space.dag.condF := by
  rw [← nodes_cmp hf hg nf ng, ← forbsEq_iff, ← forbsEq_iff]
  simp only [FSpace.eq, Bool.and_eq_true, decide_eq_true_eq, List.all_eq_true, lf, lg, ← hf, ← hg]
  constructor
  · rintro ⟨⟨⟨⟨a, b⟩, c⟩, d⟩, -⟩
    exact ⟨⟨a, b⟩, c, d⟩
  · rintro ⟨⟨a, b⟩, c, d⟩
    exact ⟨⟨⟨⟨a, b⟩, c⟩, d⟩, a⟩

theorem condOptEq_iff {a b : Option Cond} : condOptEq a b = true ↔
    (a = none ∧ b = none) ∨ ∃ c d, a = some c ∧ b = some d ∧ c.pyEq d = true := by
  cases a <;> cases b <;> simp [condOptEq]

theorem lookup_of_mem_nodup {xs : List (Name × Cond)} (h : (xs.map Prod.fst).Nodup) {n : Name} {c : Cond} :
    xs.lookup n = some c ↔ (n, c) ∈ xs := by
  induction xs with
  | nil => simp
  | cons y ys ih =>
    obtain ⟨m, d⟩ := y
    simp only [List.map_cons, List.nodup_cons, List.mem_map, not_exists, not_and] at h
    rw [List.lookup_cons]
    by_cases e : n = m
    · subst e
      simp only [beq_self_eq_true, if_true, List.mem_cons, Prod.mk.injEq, true_and, Option.some.injEq]
      constructor
      · intro h'; exact Or.inl h'.symm
      · rintro (h' | h')
        · exact h'.symm
        · exact absurd rfl (h.1 _ h')
    · have : (n == m) = false := by simpa using e
      simp only [this, Bool.false_eq_true, if_false, List.mem_cons, Prod.mk.injEq, e, false_and, false_or]
      exact ih h.2

theorem childrenEq_of {xs ys : List (Name × Cond)} (hx : (xs.map Prod.fst).Nodup) (hy : (ys.map Prod.fst).Nodup)
    (h : ∀ n c, xs.lookup n = some c → ∃ d, ys.lookup n = some d ∧ c.pyEq d = true)
    (h' : ∀ n d, ys.lookup n = some d → ∃ c, xs.lookup n = some c) : childrenEq xs ys = true := by
  simp only [childrenEq, Bool.and_eq_true, decide_eq_true_eq, List.all_eq_true]
  refine ⟨?_, fun kv hkv => ?_⟩
  · have : (xs.map Prod.fst).Perm (ys.map Prod.fst) := by
      rw [List.perm_ext_iff_of_nodup hx hy]
      intro n
      simp only [List.mem_map, Prod.exists, exists_and_right, exists_eq_right]
      constructor
      · rintro ⟨c, hc⟩
        obtain ⟨d, hd, -⟩ := h n c ((lookup_of_mem_nodup hx).2 hc)
        exact ⟨d, (lookup_of_mem_nodup hy).1 hd⟩
      · rintro ⟨d, hd⟩
        obtain ⟨c, hc⟩ := h' n d ((lookup_of_mem_nodup hy).2 hd)
        exact ⟨c, (lookup_of_mem_nodup hx).1 hc⟩
    simpa using this.length_eq
  · obtain ⟨n, c⟩ := kv
    obtain ⟨d, hd, e⟩ := h n c ((lookup_of_mem_nodup hx).2 hkv)
    simp only [hd, e]

/-- Same hyperparameters and conditions, node by node: then everything else about the nodes agrees. -/
theorem nodes_agree {ns ms : Nodes} (hn : NInv ns) (hm : NInv ms)
    (hh : ListEq HP.pyEq (ns.map Node.hp) (ms.map Node.hp))
    (hc : ListEq condOptEq (ns.map Node.cond) (ms.map Node.cond)) :
    namesOf ns = namesOf ms ∧ ∀ x y, x ∈ ns → y ∈ ms → x.name = y.name →
      x.depth = y.depth ∧ childrenEq x.children y.children = true := by
  have hnames : namesOf ns = namesOf ms := by
    simp only [ListEq, List.forall₂_map_left_iff, List.forall₂_map_right_iff] at hh
    unfold namesOf
    rw [← List.forall₂_eq_eq_eq, List.forall₂_map_left_iff, List.forall₂_map_right_iff]
    exact hh.imp fun a b h => HP.pyEq_name h
  have hcond : ∀ n, condOptEq (condAt ns n) (condAt ms n) = true := by
    have hl : ns.length = ms.length := by simpa [namesOf] using congrArg List.length hnames
    intro n
    cases e : findNode ns n with
    | none =>
      have : findNode ms n = none := by
        cases e' : findNode ms n with
        | none => rfl
        | some y =>
          exfalso
          have : n ∈ namesOf ns := hnames ▸ mem_namesOf_of_find e'
          obtain ⟨x, hx, ex⟩ := List.mem_map.1 this
          have := findNode_of_mem hn.nodup hx
          rw [ex, e] at this
          cases this
      simp [condAt, e, this, condOptEq]
    | some x =>
      obtain ⟨xm, xn⟩ := findNode_some e
      obtain ⟨i, hi, ei⟩ := List.getElem_of_mem xm
      have hy : (ms[i]'(hl ▸ hi)).name = n := by
        have : (namesOf ns)[i]'(by simpa [namesOf] using hi) = (namesOf ms)[i]'(by simpa [namesOf] using (hl ▸ hi)) := by
          simp only [hnames]
        simp only [namesOf, List.getElem_map, ei] at this
        rw [← this, xn]
      have ey := findNode_of_mem hm.nodup (List.getElem_mem (hl ▸ hi : i < ms.length))
      rw [hy] at ey
      simp only [ListEq, List.forall₂_map_left_iff, List.forall₂_map_right_iff] at hc
      have := (List.forall₂_iff_get.1 hc).2 i hi (hl ▸ hi)
      simp only [List.get_eq_getElem, ei] at this
      simpa [condAt, e, ey] using this
  have hchild : ∀ p ch c, childAt ns p ch = some c → ∃ d, childAt ms p ch = some d ∧ c.pyEq d = true := by
    intro p ch c h
    obtain ⟨h1, h2⟩ := (hn.child p ch c).1 h
    have h3 := hcond ch
    rw [h1] at h3
    rcases condOptEq_iff.1 h3 with ⟨h, -⟩ | ⟨c', d, e1, e2, e3⟩
    · cases h
    · cases e1
      exact ⟨d, (hm.child p ch d).2 ⟨e2, (pyEq_parents c d e3 p).1 h2⟩, e3⟩
  have hchild' : ∀ p ch d, childAt ms p ch = some d → ∃ c, childAt ns p ch = some c := by
    intro p ch d h
    obtain ⟨h1, h2⟩ := (hm.child p ch d).1 h
    have h3 := hcond ch
    rw [h1] at h3
    rcases condOptEq_iff.1 h3 with ⟨-, h⟩ | ⟨c', d', e1, e2, e3⟩
    · cases h
    · cases e2
      exact ⟨c', (hn.child p ch c').2 ⟨e1, (pyEq_parents c' d e3 p).2 h2⟩⟩
  have hE : Edge ns = Edge ms := by
    funext a b
    apply propext
    rw [edge_iff_childAt, edge_iff_childAt, Option.isSome_iff_exists, Option.isSome_iff_exists]
    exact ⟨fun ⟨c, h⟩ => (hchild a b c h).imp fun d hd => hd.1, fun ⟨d, h⟩ => hchild' a b d h⟩
  have hV : IsNode ns = IsNode ms := by
    funext n
    unfold IsNode
    rw [hnames]
  refine ⟨hnames, fun x y hx hy he => ?_⟩
  have fx := findNode_of_mem hn.nodup hx
  have fy := findNode_of_mem hm.nodup hy
  rw [← he] at fy
  constructor
  · have hnode : IsNode ns x.name := mem_namesOf_of_find fx
    have l1 := hn.toDInv.longest hnode
    have l2 := hm.toDInv.longest (hV ▸ hnode)
    rw [hV, hE] at l1
    have := Nat.le_antisymm (l2.2 _ l1.1) (l1.2 _ l2.1)
    simpa [depthOf, fx, fy] using this
  · refine childrenEq_of (hn.keys x hx).1 (hm.keys y hy).1 (fun n c h => ?_) (fun n d h => ?_)
    · obtain ⟨d, hd, e⟩ := hchild x.name n c (by simpa [childAt, fx] using h)
      exact ⟨d, by simpa [childAt, fy] using hd, e⟩
    · obtain ⟨c, hc⟩ := hchild' x.name n d (by simpa [childAt, fy] using h)
      exact ⟨c, by simpa [childAt, fx] using hc⟩

/-! ## What equal clauses have in common -/

/-- No in clause of the clause repeats a value. -/
def NoRep (f : Forb) : Prop := ∀ h vs xs, Forb.isIn h vs xs ∈ f.dlcs → vs.Pairwise (fun a b => a.pyEq b = false)

theorem NoRep.of_and {cs : List Forb} (h : NoRep (.and cs)) : ∀ c ∈ cs, NoRep c :=
  fun c hc k vs xs hm => h k vs xs (by rw [Forb.dlcs, forb_mem_dlcsL]; exact ⟨c, hc, hm⟩)

/-- Equally many values, none repeated: then also every value of the second list is in the first. -/
theorem vals_back {vs ws : List Val} (hl : vs.length = ws.length) (h : ∀ v ∈ vs, v.pyIn ws = true)
    (hp : vs.Pairwise (fun a b => a.pyEq b = false)) : ∀ w ∈ ws, w.pyIn vs = true := by
  intro w hw
  obtain ⟨v, hv, e⟩ := pigeonhole (R := fun a b : Val => b.pyEq a = true) hl
    (fun v hv => pyIn_iff.1 (h v hv)) (hp.imp fun {a b} hab d hd => by
      have := Val.pyEq_trans (Val.pyEq_symm hd.1) hd.2
      rw [hab] at this
      cases this) w hw
  exact pyIn_iff.2 ⟨v, hv, Val.pyEq_symm e⟩

theorem Forb.pyEq_symm (f : Forb) : ∀ {g : Forb}, f.wf = true → NoRep f → f.pyEq g = true → g.pyEq f = true := by
  induction f using Forb.induct with
  | he a w x =>
    intro g hw _ h
    cases g <;> simp [Forb.pyEq] at h
    simp only [Forb.wf, Bool.and_eq_true] at hw
    simp only [Forb.pyEq, Bool.and_eq_true]
    exact ⟨HP.pyEq_symm hw.1.1 h.1, Val.pyEq_symm h.2⟩
  | hi a ws xs =>
    intro g hw hn h
    cases g <;> simp [Forb.pyEq] at h
    simp only [Forb.wf, Bool.and_eq_true] at hw
    simp only [Forb.pyEq, Bool.and_eq_true, decide_eq_true_eq, List.all_eq_true]
    exact ⟨⟨HP.pyEq_symm hw.1.1 h.1.1, h.1.2.symm⟩, vals_back h.1.2 h.2 (hn a ws xs (by simp [Forb.dlcs]))⟩
  | hr op a b =>
    intro g hw _ h
    cases g <;> simp [Forb.pyEq] at h
    simp only [Forb.wf, Bool.and_eq_true] at hw
    simp only [Forb.pyEq, Bool.and_eq_true, decide_eq_true_eq]
    exact ⟨⟨h.1.1.symm, HP.pyEq_symm hw.1 h.1.2⟩, HP.pyEq_symm hw.2 h.2⟩
  | ha cs ih =>
    intro g hw hn h
    cases g with
    | and ds =>
      rw [Forb.wf, wfL_iff] at hw
      obtain ⟨h1, h2, h3⟩ := forb_pyEq_and.1 h
      refine forb_pyEq_and.2 ⟨h1.symm, fun d hd => ?_, fun c hc => ?_⟩
      · obtain ⟨c, hc, e⟩ := h3 d hd
        exact ⟨c, hc, ih c hc (hw c hc) (hn.of_and c hc) e⟩
      · obtain ⟨d, hd, e⟩ := h2 c hc
        exact ⟨d, hd, ih c hc (hw c hc) (hn.of_and c hc) e⟩
    | _ => simp [Forb.pyEq] at h

theorem valsEq_getElem? : ∀ {a b : List Val}, valsEq a b = true → ∀ i : Nat,
    (a[i]? = none ∧ b[i]? = none) ∨ ∃ u w, a[i]? = some u ∧ b[i]? = some w ∧ u.pyEq w = true
  | [], [], _, _ => .inl (by simp)
  | x :: xs, y :: ys, h, i => by
    simp only [valsEq, Bool.and_eq_true] at h
    cases i with
    | zero => exact .inr ⟨x, y, by simp, by simp, h.1⟩
    | succ i => simpa using valsEq_getElem? h.2 i
  | [], _ :: _, h, _ => by simp [valsEq] at h
  | _ :: _, [], h, _ => by simp [valsEq] at h

theorem valsEq_length : ∀ {a b : List Val}, valsEq a b = true → a.length = b.length
  | [], [], _ => rfl
  | x :: xs, y :: ys, h => by
    simp only [valsEq, Bool.and_eq_true] at h
    simp [valsEq_length h.2]
  | [], _ :: _, h => by simp [valsEq] at h
  | _ :: _, [], h => by simp [valsEq] at h

theorem valsEq_pyIndex {a b : List Val} (h : valsEq a b = true) (i : Int) :
    (Kind.pyIndex a i = none ∧ Kind.pyIndex b i = none) ∨ ∃ u w, Kind.pyIndex a i = some u ∧ Kind.pyIndex b i = some w ∧ u.pyEq w = true := by
  unfold Kind.pyIndex
  rw [valsEq_length h]
  split
  · exact valsEq_getElem? h _
  · split
    · exact valsEq_getElem? h _
    · exact .inl ⟨rfl, rfl⟩

/-- Equal hyperparameters with the same order of choices decode to equal values. -/
theorem toVal_of_hpEq {a b : HP} (h : a.pyEq b = true) (ho : SameOrder a b) (q : Rat) :
    (a.kind.toVal q = none ∧ b.kind.toVal q = none) ∨
    ∃ u w, a.kind.toVal q = some u ∧ b.kind.toVal q = some w ∧ u.pyEq w = true := by
  obtain ⟨an, ak, ad⟩ := a
  obtain ⟨bn, bk, bd⟩ := b
  simp only [HP.pyEq, Bool.and_eq_true, decide_eq_true_eq] at h
  obtain ⟨_, h3⟩ := h
  cases ak <;> cases bk <;>
    simp only [Bool.and_eq_true, decide_eq_true_eq, Bool.false_eq_true, List.all_eq_true] at h3
  · simp only [Kind.toVal]
    split
    · exact valsEq_pyIndex (ho _ _ rfl rfl) _
    · exact .inl ⟨rfl, rfl⟩
  · simp only [Kind.toVal]
    split
    · exact valsEq_pyIndex h3 _
    · exact .inl ⟨rfl, rfl⟩
  · exact .inr ⟨_, _, rfl, rfl, h3⟩
  · rw [h3.1, h3.2]
    exact .inr ⟨_, _, rfl, rfl, Val.pyEq_refl _⟩
  · rw [h3.1, h3.2]
    exact .inr ⟨_, _, rfl, rfl, Val.pyEq_refl _⟩

theorem legalVec_of_hpEq {a b : HP} (h : a.pyEq b = true) (q : Rat) : a.kind.legalVec q = b.kind.legalVec q := by
  obtain ⟨an, ak, ad⟩ := a
  obtain ⟨bn, bk, bd⟩ := b
  simp only [HP.pyEq, Bool.and_eq_true, decide_eq_true_eq] at h
  obtain ⟨_, h3⟩ := h
  cases ak <;> cases bk <;>
    simp only [Bool.and_eq_true, decide_eq_true_eq, Bool.false_eq_true, List.all_eq_true] at h3
  · simp [Kind.legalVec, h3.1]
  · simp [Kind.legalVec, valsEq_length h3]
  · rfl
  · rw [h3.1, h3.2]
  · rw [h3.1, h3.2]

theorem lt?_congr {a b a' b' : Val} (h : a.pyEq a' = true) (h' : b.pyEq b' = true) : a.lt? b = a'.lt? b' := by
  cases a <;> cases a' <;> simp [Val.pyEq, Val.num?] at h <;> cases b <;> cases b' <;>
    simp [Val.pyEq, Val.num?] at h' <;> simp [Val.lt?, Val.num?, h, h']

theorem onVals_congr (op : RelOp) {a b a' b' : Val} (h : a.pyEq a' = true) (h' : b.pyEq b' = true) :
    op.onVals a b = op.onVals a' b' := by
  cases op
  · simp only [RelOp.onVals, lt?_congr h h']
  · simp only [RelOp.onVals]
    rw [Bool.eq_iff_iff]
    exact ⟨fun e => Val.pyEq_trans (Val.pyEq_trans (Val.pyEq_symm h) e) h',
      fun e => Val.pyEq_trans (Val.pyEq_trans h e) (Val.pyEq_symm h')⟩
  · simp only [RelOp.onVals, lt?_congr h' h]

/-- Clauses about hyperparameters with the same order of choices. -/
def SameOrdersF (f g : Forb) : Prop := ∀ h ∈ clauseHps f, ∀ h' ∈ clauseHps g, h.pyEq h' = true → SameOrder h h'

theorem pyEq_forbids (a : Assign) (f : Forb) : ∀ {g : Forb}, f.wf = true → g.wf = true → NoRep f → SameOrdersF f g →
    f.pyEq g = true → (Forbids a f ↔ Forbids a g) := by
  induction f using Forb.induct with
  | he h w x =>
    intro g hw hw' _ ho e
    cases g with
    | eq h' w' x' =>
      simp only [Forb.pyEq, Bool.and_eq_true] at e
      simp only [Forb.wf, Bool.and_eq_true, decide_eq_true_eq] at hw hw'
      have : x = x' := by
        have h1 := hw.2
        rw [toVec_of_hpEq e.1 (ho h (by simp [clauseHps]) h' (by simp [clauseHps]) e.1), toVec_of_pyEq e.2, hw'.2] at h1
        exact (Option.some.inj h1).symm
      subst this
      have hn := HP.pyEq_name e.1
      constructor
      · intro hf; cases hf with | eq h1 => exact .eq (hn ▸ h1)
      · intro hf; cases hf with | eq h1 => exact .eq (hn ▸ h1)
    | _ => simp [Forb.pyEq] at e
  | hi h ws xs =>
    intro g hw hw' hnr ho e
    cases g with
    | isIn h' ws' xs' =>
      simp only [Forb.pyEq, Bool.and_eq_true, decide_eq_true_eq, List.all_eq_true] at e
      simp only [Forb.wf, Bool.and_eq_true, decide_eq_true_eq] at hw hw'
      have hn := HP.pyEq_name e.1.1
      have hv : ∀ v, h.kind.toVec v = h'.kind.toVec v :=
        toVec_of_hpEq e.1.1 (ho h (by simp [clauseHps]) h' (by simp [clauseHps]) e.1.1)
      have hb := vals_back e.1.2 e.2 (hnr h ws xs (by simp [Forb.dlcs]))
      have hx : ∀ q, q ∈ xs ↔ q ∈ xs' := by
        intro q
        rw [hw.2, hw'.2]
        simp only [List.mem_filterMap, hv]
        constructor
        · rintro ⟨v, hvm, e1⟩
          obtain ⟨u, hu, e2⟩ := pyIn_iff.1 (e.2 v hvm)
          exact ⟨u, hu, by rw [toVec_of_pyEq e2, e1]⟩
        · rintro ⟨v, hvm, e1⟩
          obtain ⟨u, hu, e2⟩ := pyIn_iff.1 (hb v hvm)
          exact ⟨u, hu, by rw [toVec_of_pyEq e2, e1]⟩
      constructor
      · intro hf; cases hf with | isIn h1 h2 => exact .isIn (hn ▸ h1) ((hx _).1 h2)
      · intro hf; cases hf with | isIn h1 h2 => exact .isIn (hn ▸ h1) ((hx _).2 h2)
    | _ => simp [Forb.pyEq] at e
  | hr op l r =>
    intro g hw hw' _ ho e
    cases g with
    | rel op' l' r' =>
      simp only [Forb.pyEq, Bool.and_eq_true, decide_eq_true_eq] at e
      obtain ⟨⟨rfl, el⟩, er⟩ := e
      have hl := HP.pyEq_name el
      have hr := HP.pyEq_name er
      have tl := toVal_of_hpEq el (ho l (by simp [clauseHps]) l' (by simp [clauseHps]) el)
      have tr := toVal_of_hpEq er (ho r (by simp [clauseHps]) r' (by simp [clauseHps]) er)
      constructor
      · intro hf
        cases hf with
        | @rel _ _ _ x y u w h1 h2 h3 h4 h5 =>
          rcases tl x with ⟨e1, -⟩ | ⟨u1, u2, e1, e2, e3⟩
          · rw [e1] at h3; cases h3
          · rcases tr y with ⟨f1, -⟩ | ⟨w1, w2, f1, f2, f3⟩
            · rw [f1] at h4; cases h4
            · rw [e1] at h3; rw [f1] at h4
              cases h3; cases h4
              exact .rel (hl ▸ h1) (hr ▸ h2) e2 f2 (by rw [← onVals_congr op e3 f3]; exact h5)
      · intro hf
        cases hf with
        | @rel _ _ _ x y u w h1 h2 h3 h4 h5 =>
          rcases tl x with ⟨-, e1⟩ | ⟨u1, u2, e1, e2, e3⟩
          · rw [e1] at h3; cases h3
          · rcases tr y with ⟨-, f1⟩ | ⟨w1, w2, f1, f2, f3⟩
            · rw [f1] at h4; cases h4
            · rw [e2] at h3; rw [f2] at h4
              cases h3; cases h4
              exact .rel (hl ▸ h1) (hr ▸ h2) e1 f1 (by rw [onVals_congr op e3 f3]; exact h5)
    | _ => simp [Forb.pyEq] at e
  | ha cs ih =>
    intro g hw hw' hnr ho e
    cases g with
    | and ds =>
      rw [Forb.wf, wfL_iff] at hw hw'
      obtain ⟨-, h2, h3⟩ := forb_pyEq_and.1 e
      have ho' : ∀ c ∈ cs, ∀ d ∈ ds, SameOrdersF c d := fun c hc d hd h hh h' hh' =>
        ho h (by rw [clauseHps, mem_clauseHpsL]; exact ⟨c, hc, hh⟩) h' (by rw [clauseHps, mem_clauseHpsL]; exact ⟨d, hd, hh'⟩)
      constructor
      · intro hf
        cases hf with
        | and hf =>
          refine .and fun d hd => ?_
          obtain ⟨c, hc, e⟩ := h3 d hd
          exact (ih c hc (hw c hc) (hw' d hd) (hnr.of_and c hc) (ho' c hc d hd) e).1 (hf c hc)
      · intro hf
        cases hf with
        | and hf =>
          refine .and fun c hc => ?_
          obtain ⟨d, hd, e⟩ := h2 c hc
          exact (ih c hc (hw c hc) (hw' d hd) (hnr.of_and c hc) (ho' c hc d hd) e).2 (hf d hd)
    | _ => simp [Forb.pyEq] at e

/-! ## Histories -/

variable {calls calls' : List Call} {f g : FSpace}

theorem fadd_ok {f f' : FSpace} {k : Call} (h : f.add k = (f', none)) :
    f.space.add k.hps k.conds k.forbs = (f'.space, none) ∧
    ∃ d, f.space.dag.addAll k.hps k.conds k.forbs = (d, none) ∧ f'.nf = f.nf.commit d := by
  unfold FSpace.add at h
  simp only at h
  split at h
  · rename_i d e hd
    simp only [Prod.mk.injEq] at h
    have h1 := h.2
    simp [Space.add, hd] at h1
  · rename_i d hd
    simp only [Prod.mk.injEq] at h
    obtain ⟨rfl, h2⟩ := h
    exact ⟨by rw [← h2], d, hd, rfl⟩

theorem Spec.ReachF.reach (h : ReachF calls f) : Reach calls f.space := by
  induction h with
  | nil => exact .nil
  | snoc _ hw ha ih => exact .snoc ih hw (fadd_ok ha).1

/-- Every history of successful calls builds such a space. -/
theorem reachF_of_reach {s : Space} (h : Reach calls s) : ∃ nf, ReachF calls ⟨s, nf⟩ := by
  induction h with
  | nil => exact ⟨_, .nil⟩
  | @snoc calls s s' k _ hw ha ih =>
    obtain ⟨nf, ih⟩ := ih
    have hd : ∃ d, s.dag.addAll k.hps k.conds k.forbs = (d, none) := by
      cases e : s.dag.addAll k.hps k.conds k.forbs with
      | mk d o =>
        cases o with
        | none => exact ⟨d, rfl⟩
        | some e' => simp [Space.add, e] at ha
    obtain ⟨d, hd⟩ := hd
    exact ⟨nf.commit d, .snoc ih hw (by simp [FSpace.add, hd, ha])⟩

/-- The calls determine the space. -/
theorem reachF_unique (hf : ReachF calls f) (hg : ReachF calls g) : f = g := by
  induction hf generalizing g with
  | nil =>
    generalize e : ([] : List Call) = cs at hg
    cases hg with
    | nil => rfl
    | snoc => simp at e
  | @snoc calls f f' k h hw ha ih =>
    generalize e : calls ++ [k] = cs at hg
    cases hg with
    | nil => simp at e
    | @snoc calls2 f2 _ k2 h2 hw2 ha2 =>
      obtain ⟨rfl, e2⟩ := List.append_inj' e rfl
      simp only [List.cons.injEq, and_true] at e2
      subst e2
      rw [ih h2, ha2] at ha
      exact (Prod.mk.inj ha).1.symm

theorem ninv_com {s : Space} (h : Reach calls s) : NInv s.com := by
  have := sinv_of_reach h
  rw [← this.com]
  exact this.hist.ninv

/-- The comparison of spaces. -/
theorem eq_iff_content (hf : ReachF calls f) (hg : ReachF calls' g) : f.eq g = true ↔ SameContent f g := by
  have pf := sinv_of_reach hf.reach
  have pg := sinv_of_reach hg.reach
  have nf := ninv_com hf.reach
  have ng := ninv_com hg.reach
  rw [eq_iff_nodes pf.com pg.com nf.nodup ng.nodup pf.len pg.len]
  constructor
  · rintro ⟨h, hu, hc⟩
    have hh : ListEq HP.pyEq (f.space.com.map Node.hp) (g.space.com.map Node.hp) := by
      simp only [ListEq, List.forall₂_map_left_iff, List.forall₂_map_right_iff]
      exact h.imp fun x y e => by
        simp only [nodeEq, Bool.and_eq_true] at e
        exact e.1.1.1.1.1
    refine ⟨hh, ?_, hu, hc, fun n hn => ?_⟩
    · simp only [ListEq, List.forall₂_map_left_iff, List.forall₂_map_right_iff]
      exact h.imp fun x y e => by
        simp only [nodeEq, Bool.and_eq_true] at e
        exact e.2
    · obtain ⟨x, hx, rfl⟩ := List.mem_map.1 hn
      obtain ⟨i, hi, e⟩ := List.getElem_of_mem hx
      have hl := (List.forall₂_iff_get.1 h).1
      have := (List.forall₂_iff_get.1 h).2 i hi (hl ▸ hi)
      simp only [List.get_eq_getElem, e, nodeEq, Bool.and_eq_true] at this
      have hn := HP.pyEq_name this.1.1.1.1.1
      rw [← forbsEq_iff]
      have h2 := this.1.2
      simp only [Node.name] at h2 ⊢
      rw [hn] at h2 ⊢
      exact h2
  · intro h
    obtain ⟨hnames, hag⟩ := nodes_agree nf ng h.hps h.conds
    refine ⟨?_, h.uncond, h.condF⟩
    have hh := h.hps
    have hcond := h.conds
    simp only [ListEq, List.forall₂_map_left_iff, List.forall₂_map_right_iff] at hh hcond
    rw [List.forall₂_iff_get] at hh hcond ⊢
    refine ⟨hh.1, fun i h1 h2 => ?_⟩
    have a := hh.2 i h1 h2
    have b := hcond.2 i h1 h2
    have hx := List.get_mem f.space.com ⟨i, h1⟩
    have hy := List.get_mem g.space.com ⟨i, h2⟩
    have hn := HP.pyEq_name a
    obtain ⟨c1, c2⟩ := hag _ _ hx hy hn
    have hf := h.nodes _ (List.mem_map.2 ⟨_, hx, rfl⟩)
    simp only [nodeEq, Bool.and_eq_true, decide_eq_true_eq]
    refine ⟨⟨⟨⟨⟨a, ?_⟩, c1⟩, c2⟩, ?_⟩, b⟩
    · simp only [Space.idx, idxOf]
      have : f.space.com.map Node.name = g.space.com.map Node.name := hnames
      rw [this]
      exact congrArg (fun n => List.idxOf n (g.space.com.map Node.name)) hn
    · rw [forbsEq_iff]
      have : (g.space.com.get ⟨i, h2⟩).name = (f.space.com.get ⟨i, h1⟩).name := hn.symm
      rw [this]
      exact hf

/-- The clauses come sorted. -/
theorem forbs_sorted {s : Space} (h : Reach calls s) :
    s.dag.uncond.Pairwise (fun a b => a.render ≤ b.render) ∧ s.dag.condF.Pairwise (fun a b => a.render ≤ b.render) := by
  cases h with
  | nil => exact ⟨.nil, .nil⟩
  | @snoc calls s0 s k _ _ ha =>
    have key : ∀ fs : List Forb, (sortForbs fs).Pairwise (fun a b => a.render ≤ b.render) := fun fs => by
      have := sortBy_pairwise (le := fun a b : Forb => decide (a.render ≤ b.render))
        (fun a b => by simpa using String.le_total _ _)
        (fun a b c => by simpa using fun h1 h2 => String.le_trans h1 h2) fs
      exact this.imp fun h => by simpa using h
    unfold Space.add at ha
    split at ha
    · simp at ha
    · split at ha
      · simp at ha
      · rename_i d hd s1 hs1
        simp only at ha
        split at ha
        · simp at ha
        · simp only [Prod.mk.injEq, and_true] at ha
          subst ha
          unfold Space.commit at hs1
          simp only at hs1
          split at hs1
          · simp at hs1
          · simp only [Prod.mk.injEq, and_true] at hs1
            subst hs1
            exact ⟨(key _).filter _, (key _).filter _⟩

theorem sorted_unique {fs gs : List Forb} (hp : fs.Perm gs) (hap : ClausesApart fs)
    (hf : fs.Pairwise (fun a b => a.render ≤ b.render)) (hg : gs.Pairwise (fun a b => a.render ≤ b.render)) : fs = gs :=
  List.Perm.eq_of_pairwise (le := fun a b : Forb => a.render ≤ b.render)
    (fun a b ha hb h1 h2 => hap a ha b (hp.mem_iff.2 hb) (String.le_antisymm h1 h2)) hf hg hp

theorem sortForbs_sorted (fs : List Forb) : (sortForbs fs).Pairwise (fun a b => a.render ≤ b.render) := by
  have := sortBy_pairwise (le := fun a b : Forb => decide (a.render ≤ b.render))
    (fun a b => by simpa using String.le_total _ _)
    (fun a b c => by simpa using fun h1 h2 => String.le_trans h1 h2) fs
  exact this.imp fun h => by simpa using h

theorem sortForbs_perm_eq {fs gs : List Forb} (hp : fs.Perm gs) (hap : ClausesApart fs) : sortForbs fs = sortForbs gs := by
  have p1 : (sortForbs fs).Perm fs := sortBy_perm _ _
  have p2 : (sortForbs gs).Perm gs := sortBy_perm _ _
  exact sorted_unique (p1.trans (hp.trans p2.symm))
    (fun f hf g hg => hap f (p1.mem_iff.1 hf) g (p1.mem_iff.1 hg)) (sortForbs_sorted _) (sortForbs_sorted _)

/-! ## The lists of the nodes -/

/-- The entries about one node. -/
def entriesOn (n : Name) (fs : List Forb) : List Forb :=
  (fs.flatMap Forb.entries).filterMap (fun e => if e.1 = n then some e.2 else none)

theorem uniqueBy_seen {α : Type} {key : α → String} : ∀ {seen : List String} {l : List α},
    (∀ x ∈ l, key x ∈ seen) → uniqueBy key seen l = []
  | _, [], _ => rfl
  | seen, x :: l, h => by
    unfold uniqueBy
    rw [if_pos (h x (by simp))]
    exact uniqueBy_seen fun y hy => h y (by simp [hy])

theorem uniqueBy_mem {α : Type} {key : α → String} : ∀ {seen : List String} {l : List α} {x : α},
    x ∈ uniqueBy key seen l → x ∈ l ∧ key x ∉ seen
  | _, [], _, h => by simp [uniqueBy] at h
  | seen, y :: l, x, h => by
    unfold uniqueBy at h
    split at h
    · exact ⟨by simp [(uniqueBy_mem h).1], (uniqueBy_mem h).2⟩
    · rename_i hy
      rcases List.mem_cons.1 h with rfl | h
      · exact ⟨by simp, hy⟩
      · obtain ⟨h1, h2⟩ := uniqueBy_mem h
        exact ⟨by simp [h1], fun h3 => h2 (by simp [h3])⟩

theorem uniqueBy_nodup {α : Type} {key : α → String} : ∀ {seen : List String} {l : List α},
    ((uniqueBy key seen l).map key).Nodup
  | _, [] => by simp [uniqueBy]
  | seen, y :: l => by
    unfold uniqueBy
    split
    · exact uniqueBy_nodup
    · simp only [List.map_cons, List.nodup_cons]
      refine ⟨fun h => ?_, uniqueBy_nodup⟩
      obtain ⟨z, hz, e⟩ := List.mem_map.1 h
      exact (uniqueBy_mem hz).2 (by simp [e])

theorem uniqueBy_key {α : Type} {key : α → String} : ∀ {seen : List String} {l : List α} {x : α}, x ∈ l →
    key x ∈ seen ∨ ∃ y ∈ uniqueBy key seen l, key y = key x
  | seen, y :: l, x, h => by
    unfold uniqueBy
    by_cases hs : key y ∈ seen
    · rw [if_pos hs]
      rcases List.mem_cons.1 h with rfl | h
      · exact .inl hs
      · exact uniqueBy_key h
    · rw [if_neg hs]
      rcases List.mem_cons.1 h with rfl | h
      · exact .inr ⟨x, by simp, rfl⟩
      · rcases uniqueBy_key (seen := key y :: seen) h with h | ⟨z, hz, e⟩
        · rcases List.mem_cons.1 h with h | h
          · exact .inr ⟨y, by simp, h.symm⟩
          · exact .inl h
        · exact .inr ⟨z, by simp [hz], e⟩

theorem uniqueBy_append {α : Type} {key : α → String} : ∀ {seen : List String} {l m : List α},
    (∀ x ∈ l, key x ∉ seen) → (l.map key).Nodup → (∀ x ∈ m, key x ∈ seen ∨ ∃ y ∈ l, key y = key x) →
    uniqueBy key seen (l ++ m) = l
  | seen, [], m, _, _, h => by
    rw [List.nil_append]
    exact uniqueBy_seen fun x hx => (h x hx).elim id (by simp)
  | seen, x :: l, m, h1, h2, h3 => by
    rw [List.cons_append]
    unfold uniqueBy
    rw [if_neg (h1 x (by simp))]
    simp only [List.map_cons, List.nodup_cons] at h2
    rw [uniqueBy_append _ h2.2]
    · intro y hy
      rcases h3 y hy with h | ⟨z, hz, e⟩
      · exact .inl (by simp [h])
      · rcases List.mem_cons.1 hz with rfl | hz
        · exact .inl (by simp [e])
        · exact .inr ⟨z, hz, e⟩
    · intro y hy hmem
      rcases List.mem_cons.1 hmem with e | e
      · exact h2.1 (List.mem_map.2 ⟨y, hy, e⟩)
      · exact h1 y (by simp [hy]) e

/-- Adding again what is there already changes nothing. -/
theorem uniqueBy_again {α : Type} {key : α → String} (l : List α) :
    uniqueBy key [] (uniqueBy key [] l ++ l) = uniqueBy key [] l :=
  uniqueBy_append (by simp) uniqueBy_nodup fun x hx => uniqueBy_key hx

/-- The clauses at the time of the commit. -/
theorem commit_perm {s : Space} {k : Call} {d : Dag} (h : Reach calls s) (hw : k.wf)
    (hd : s.dag.addAll k.hps k.conds k.forbs = (d, none)) : (d.uncond ++ d.condF).Perm (allForbs (calls ++ [k])) := by
  rw [allForbs_snoc]
  exact ((sinv_of_reach h).hist.addAll hw hd).forbs

theorem nf_nil (h : ReachF calls f) (he : allForbs calls = []) : ∀ n, f.nf n = [] := by
  induction h with
  | nil => intro n; rfl
  | @snoc calls f f' k h hw ha ih =>
    intro n
    obtain ⟨-, d, hd, e⟩ := fadd_ok ha
    have hp := commit_perm h.reach hw hd
    rw [he] at hp
    rw [allForbs_snoc, List.append_eq_nil_iff] at he
    rw [e, NodeForbs.commit, ih he.1 n, hp.eq_nil]
    rfl

/-- If all clauses come in one call, the lists of the nodes depend only on the clauses. -/
theorem nf_once (h : ReachF calls f) (ho : ClausesAtOnce calls) (hap : ClausesApart (allForbs calls)) :
    ∀ n, f.nf n = uniqueBy Forb.render [] (entriesOn n (sortForbs (allForbs calls))) := by
  induction h with
  | nil =>
    obtain ⟨b, k, a, e, -⟩ := ho
    simp at e
  | @snoc calls f f' k h hw ha ih =>
    intro n
    obtain ⟨-, d, hd, e⟩ := fadd_ok ha
    have hp := commit_perm h.reach hw hd
    have hs := sortForbs_perm_eq hp.symm hap
    rw [e]
    unfold NodeForbs.commit
    rw [← hs]
    change uniqueBy Forb.render [] (f.nf n ++ entriesOn n _) = _
    obtain ⟨before, k0, after, e0, hb, hafter⟩ := ho
    rcases List.eq_nil_or_concat after with rfl | ⟨after', k1, rfl⟩
    · obtain ⟨rfl, e1⟩ := List.append_inj' e0 rfl
      simp only [List.cons.injEq, and_true] at e1
      subst e1
      rw [nf_nil h (by simpa [allForbs] using hb) n, List.nil_append]
    · have e0' : calls ++ [k] = (before ++ k0 :: after') ++ [k1] := by rw [e0]; simp
      obtain ⟨rfl, e1⟩ := List.append_inj' e0' rfl
      simp only [List.cons.injEq, and_true] at e1
      subst e1
      have hk : k.forbs = [] := hafter k (by simp)
      have hall : allForbs ((before ++ k0 :: after') ++ [k]) = allForbs (before ++ k0 :: after') := by
        rw [allForbs_snoc, hk, List.append_nil]
      rw [hall] at hap ⊢
      rw [ih ⟨before, k0, after', rfl, hb, fun c hc => hafter c (by simp [hc])⟩ hap n]
      exact uniqueBy_again _

/-- The lists hold literal parts of clauses. -/
theorem mem_nf (h : ReachF calls f) {n : Name} {a : Forb} (ha : a ∈ f.nf n) : ∃ c ∈ allForbs calls, a ∈ c.dlcs := by
  induction h with
  | nil => simp at ha
  | @snoc calls f f' k h hw hadd ih =>
    obtain ⟨-, d, hd, e⟩ := fadd_ok hadd
    have hp := commit_perm h.reach hw hd
    rw [e] at ha
    have := (uniqueBy_mem ha).1
    rcases List.mem_append.1 this with h1 | h1
    · obtain ⟨c, hc, h2⟩ := ih h1
      exact ⟨c, by rw [allForbs_snoc]; simp [hc], h2⟩
    · simp only [List.mem_filterMap, List.mem_flatMap] at h1
      obtain ⟨⟨m, b⟩, ⟨c, hc, hb⟩, e2⟩ := h1
      have : b = a := by
        simp only at e2
        split at e2
        · exact Option.some.inj e2
        · cases e2
      subst this
      refine ⟨c, hp.mem_iff.1 ((sortBy_perm _ _).mem_iff.1 hc), ?_⟩
      unfold Forb.entries at hb
      obtain ⟨x, hx, hb⟩ := List.mem_flatMap.1 hb
      have hx' := (sortBy_perm _ _).mem_iff.1 hx
      have : b = x := by
        cases x <;> simp [Forb.onNodes] at hb
        · exact hb.2
        · exact hb.2
        · rcases hb with hb | hb
          · exact hb.2
          · exact hb.2
      exact this ▸ hx'

/-! ## Equality of lists -/

theorem ListEq.refl {α : Type} {eq : α → α → Bool} (h : ∀ a, eq a a = true) : ∀ l : List α, ListEq eq l l
  | [] => .nil
  | a :: l => .cons (h a) (ListEq.refl h l)

theorem ListEq.trans {α : Type} {eq : α → α → Bool} (h : ∀ a b c, eq a b = true → eq b c = true → eq a c = true) :
    ∀ {l m n : List α}, ListEq eq l m → ListEq eq m n → ListEq eq l n
  | _, _, _, .nil, .nil => .nil
  | _, _, _, .cons h1 h2, .cons h3 h4 => .cons (h _ _ _ h1 h3) (ListEq.trans h h2 h4)

theorem ListEq.symm {α : Type} {eq : α → α → Bool} : ∀ {l m : List α},
    (∀ a ∈ l, ∀ b, eq a b = true → eq b a = true) → ListEq eq l m → ListEq eq m l
  | _, _, _, .nil => .nil
  | _, _, h, .cons h1 h2 => .cons (h _ (by simp) _ h1) (ListEq.symm (fun a ha => h a (by simp [ha])) h2)

theorem ListEq.mem {α : Type} {eq : α → α → Bool} : ∀ {l m : List α}, ListEq eq l m →
    (∀ a ∈ l, ∃ b ∈ m, eq a b = true) ∧ ∀ b ∈ m, ∃ a ∈ l, eq a b = true
  | _, _, .nil => by simp
  | _, _, .cons h1 h2 => by
    obtain ⟨i1, i2⟩ := ListEq.mem h2
    refine ⟨fun a ha => ?_, fun b hb => ?_⟩
    · rcases List.mem_cons.1 ha with rfl | ha
      · exact ⟨_, by simp, h1⟩
      · obtain ⟨b, hb, e⟩ := i1 a ha
        exact ⟨b, by simp [hb], e⟩
    · rcases List.mem_cons.1 hb with rfl | hb
      · exact ⟨_, by simp, h1⟩
      · obtain ⟨a, ha, e⟩ := i2 b hb
        exact ⟨a, by simp [ha], e⟩

theorem condOptEq_refl : ∀ a, condOptEq a a = true
  | none => rfl
  | some c => Cond.pyEq_refl c

theorem condOptEq_trans : ∀ a b c, condOptEq a b = true → condOptEq b c = true → condOptEq a c = true
  | none, none, none, _, _ => rfl
  | some _, some _, some _, h, h' => Cond.pyEq_trans h h'
  | none, none, some _, _, h => by simp [condOptEq] at h
  | none, some _, _, h, _ => by simp [condOptEq] at h
  | some _, none, _, h, _ => by simp [condOptEq] at h
  | some _, some _, none, _, h => by simp [condOptEq] at h

theorem content_names (hc : SameContent f g) : f.space.names = g.space.names := by
  have := hc.hps
  unfold Space.names
  simp only [ListEq, List.forall₂_map_left_iff, List.forall₂_map_right_iff] at this
  rw [← List.forall₂_eq_eq_eq, List.forall₂_map_left_iff, List.forall₂_map_right_iff]
  exact this.imp fun a b h => HP.pyEq_name h

theorem node_cond_mem {s : Space} (h : Reach calls s) {x : Node} (hx : x ∈ s.com) {c : Cond} (hc : x.cond = some c) :
    c ∈ allConds calls := by
  have hi := sinv_of_reach h
  have e := hi.hist.cond x.name
  rw [hi.com] at e
  simp only [condAt, findNode_of_mem (ninv_com h).nodup hx, Option.bind_some, hc] at e
  exact (lastCond_some e.symm).1

/-! ## Same content -/

theorem node_lists_eq {s s' : Space} (h : Reach calls s) (h' : Reach calls' s') (hp : (allHps calls).Perm (allHps calls'))
    (hc : SameConds (allConds calls) (allConds calls')) :
    s.com.map Node.hp = s'.com.map Node.hp ∧ ListEq condOptEq (s.com.map Node.cond) (s'.com.map Node.cond) := by
  have p := pre_of_reach h
  have p' := pre_of_reach h'
  have w := (reach_wf h).2.1
  have w' := (reach_wf h').2.1
  have hE : parentRel (allConds calls) = parentRel (allConds calls') := by
    funext a b
    apply propext
    constructor
    · rintro ⟨c, hcm, e1, e2⟩
      obtain ⟨d, hd, e⟩ := hc.1 c hcm
      exact ⟨d, hd, by rw [← e1]; exact (pyEq_child (w c hcm) (w' d hd) e).symm, (pyEq_parents c d e a).1 e2⟩
    · rintro ⟨d, hd, e1, e2⟩
      obtain ⟨c, hcm, e⟩ := hc.2 d hd
      exact ⟨c, hcm, by rw [← e1]; exact (pyEq_child (w c hcm) (w' d hd) e), (pyEq_parents c d e a).2 e2⟩
  have hlc : ∀ n, condOptEq (lastCond (allConds calls) n) (lastCond (allConds calls') n) = true := by
    intro n
    cases e1 : lastCond (allConds calls) n with
    | none =>
      rw [lastCond_none] at e1
      have : lastCond (allConds calls') n = none := by
        rw [lastCond_none]
        intro d hd e
        obtain ⟨c, hcm, he⟩ := hc.2 d hd
        exact e1 c hcm (by rw [pyEq_child (w c hcm) (w' d hd) he, e])
      rw [this]
      rfl
    | some c =>
      obtain ⟨hcm, hcn⟩ := lastCond_some e1
      obtain ⟨d, hd, he⟩ := hc.1 c hcm
      have hdn : childName d = some n := by rw [← pyEq_child (w c hcm) (w' d hd) he, hcn]
      cases e2 : lastCond (allConds calls') n with
      | none => exact absurd hdn (lastCond_none.1 e2 d hd)
      | some d' =>
        obtain ⟨hd'm, -⟩ := lastCond_some e2
        unfold childName at hdn
        cases e3 : d.child? with
        | none => simp [e3] at hdn
        | some x =>
          have hxn : x.name = n := by simpa [e3] using hdn
          have h1 := p'.hist.same d hd x e3 d' (by rw [p'.hist.cond, hxn, e2])
          have h2 := Cond.pyEq_symm (Cond.wf_wf0 (w' d' hd'm)) h1
          exact Cond.pyEq_trans he h2
  obtain ⟨hnames, -, hhp⟩ := keys_eq p p' hp hE
  have hn := ninv_com h
  have hn' := ninv_com h'
  have hlen : s.com.length = s'.com.length := by simpa [namesOf] using congrArg List.length hnames
  have key : List.Forall₂ (fun x y : Node => x.hp = y.hp ∧ condOptEq x.cond y.cond = true) s.com s'.com := by
    rw [List.forall₂_iff_get]
    refine ⟨hlen, fun i hi hi' => ?_⟩
    have hx := List.getElem_mem hi
    have hy := List.getElem_mem hi'
    have hname : (s.com[i]).name = (s'.com[i]).name := by
      have h1 : (namesOf s.com)[i]? = (namesOf s'.com)[i]? := by rw [hnames]
      simpa [namesOf, List.getElem?_eq_getElem hi, List.getElem?_eq_getElem hi'] using h1
    simp only [List.get_eq_getElem]
    generalize s.com[i] = x at hx hname ⊢
    generalize s'.com[i] = y at hy hname ⊢
    have fx := findNode_of_mem hn.nodup hx
    have fy := findNode_of_mem hn'.nodup hy
    rw [← hname] at fy
    constructor
    · have := hhp x.name
      simpa [hpAt, fx, fy] using this
    · have cx : lastCond (allConds calls) x.name = x.cond := by
        rw [← p.hist.cond, p.com]; simp [condAt, fx]
      have cy : lastCond (allConds calls') x.name = y.cond := by
        rw [← p'.hist.cond, p'.com]; simp [condAt, fy]
      rw [← cx, ← cy]
      exact hlc x.name
  constructor
  · rw [← List.forall₂_eq_eq_eq, List.forall₂_map_left_iff, List.forall₂_map_right_iff]
    exact key.imp fun _ _ h => h.1
  · simp only [ListEq, List.forall₂_map_left_iff, List.forall₂_map_right_iff]
    exact key.imp fun _ _ h => h.2

/-- Which clauses are unconditional depends on the roots only. -/
theorem clause_lists_eq {s s' : Space} (h : Reach calls s) (h' : Reach calls' s') (hr : s.dag.roots = s'.dag.roots)
    (hp : (allForbs calls).Perm (allForbs calls')) (hap : ClausesApart (allForbs calls)) :
    s.dag.uncond = s'.dag.uncond ∧ s.dag.condF = s'.dag.condF := by
  have i := sinv_of_reach h
  have i' := sinv_of_reach h'
  obtain ⟨s1, s2⟩ := forbs_sorted h
  obtain ⟨s1', s2'⟩ := forbs_sorted h'
  have hperm : (s.dag.uncond ++ s.dag.condF).Perm (s'.dag.uncond ++ s'.dag.condF) :=
    i.hist.forbs.trans (hp.trans i'.hist.forbs.symm)
  have f1 : ∀ {t : Space} {cs : List Call}, SInv t cs →
      (t.dag.uncond ++ t.dag.condF).filter (isUncondForb t.dag.roots) = t.dag.uncond ∧
      (t.dag.uncond ++ t.dag.condF).filter (fun f => !isUncondForb t.dag.roots f) = t.dag.condF := by
    intro t cs it
    rw [List.filter_append, List.filter_append, List.filter_eq_self.2 it.uncond,
      List.filter_eq_nil_iff.2 (fun f hf => by simp [it.condF f hf]), List.append_nil,
      List.filter_eq_nil_iff.2 (fun f hf => by simp [it.uncond f hf]),
      List.filter_eq_self.2 (fun f hf => by simp [it.condF f hf]), List.nil_append]
    exact ⟨rfl, rfl⟩
  have hu : s.dag.uncond.Perm s'.dag.uncond := by
    have := hperm.filter (isUncondForb s.dag.roots)
    rw [(f1 i).1, hr, (f1 i').1] at this
    exact this
  have hcF : s.dag.condF.Perm s'.dag.condF := by
    have := hperm.filter (fun f => !isUncondForb s.dag.roots f)
    rw [(f1 i).2, hr, (f1 i').2] at this
    exact this
  exact ⟨sorted_unique hu (fun a ha b hb => hap a (i.hist.forbs.mem_iff.1 (by simp [ha])) b
      (i.hist.forbs.mem_iff.1 (by simp [hb]))) s1 s1',
    sorted_unique hcF (fun a ha b hb => hap a (i.hist.forbs.mem_iff.1 (by simp [ha])) b
      (i.hist.forbs.mem_iff.1 (by simp [hb]))) s2 s2'⟩

theorem roots_of_lists {s s' : Space} (h : Reach calls s) (h' : Reach calls' s')
    (hh : ListEq HP.pyEq (s.com.map Node.hp) (s'.com.map Node.hp))
    (hc : ListEq condOptEq (s.com.map Node.cond) (s'.com.map Node.cond)) :
    s.dag.roots = s'.dag.roots ∧ List.Forall₂ (fun x y : Node => x.hp.pyEq y.hp = true ∧ x.name = y.name ∧ x.depth = y.depth ∧
      condOptEq x.cond y.cond = true) s.com s'.com := by
  obtain ⟨hnames, hag⟩ := nodes_agree (ninv_com h) (ninv_com h') hh hc
  have key : List.Forall₂ (fun x y : Node => x.hp.pyEq y.hp = true ∧ x.name = y.name ∧ x.depth = y.depth ∧
      condOptEq x.cond y.cond = true) s.com s'.com := by
    simp only [ListEq, List.forall₂_map_left_iff, List.forall₂_map_right_iff] at hh hc
    rw [List.forall₂_iff_get] at hh hc ⊢
    refine ⟨hh.1, fun i h1 h2 => ?_⟩
    have a := hh.2 i h1 h2
    have hn : (s.com.get ⟨i, h1⟩).name = (s'.com.get ⟨i, h2⟩).name := HP.pyEq_name a
    exact ⟨a, hn, (hag _ _ (List.get_mem _ _) (List.get_mem _ _) hn).1, hc.2 i h1 h2⟩
  refine ⟨?_, key⟩
  rw [(sinv_of_reach h).roots, (sinv_of_reach h').roots]
  unfold rootNames
  clear hnames hag hh hc
  generalize s.com = ns at key
  generalize s'.com = ms at key
  induction key with
  | nil => rfl
  | cons hx _ ih =>
    rw [List.filter_cons, List.filter_cons, hx.2.2.1]
    split
    · simp [hx.2.1, ih]
    · exact ih

/-- Same hyperparameters, conditions and clauses, and all clauses in one call: the spaces are equal. -/
theorem same_content_eq (hf : ReachF calls f) (hg : ReachF calls' g) (hp : (allHps calls).Perm (allHps calls'))
    (hc : SameConds (allConds calls) (allConds calls')) (hfo : (allForbs calls).Perm (allForbs calls'))
    (hap : ClausesApart (allForbs calls)) (ho : ClausesAtOnce calls) (ho' : ClausesAtOnce calls') : f.eq g = true := by
  rw [eq_iff_content hf hg]
  obtain ⟨h1, h2⟩ := node_lists_eq hf.reach hg.reach hp hc
  have h1' : ListEq HP.pyEq (f.space.com.map Node.hp) (g.space.com.map Node.hp) := by
    rw [h1]; exact ListEq.refl HP.pyEq_refl _
  obtain ⟨hr, -⟩ := roots_of_lists hf.reach hg.reach h1' h2
  obtain ⟨h3, h4⟩ := clause_lists_eq hf.reach hg.reach hr hfo hap
  have hap' : ClausesApart (allForbs calls') := fun a ha b hb => hap a (hfo.mem_iff.2 ha) b (hfo.mem_iff.2 hb)
  refine ⟨h1', h2, by rw [h3]; exact ListEq.refl Forb.pyEq_refl _, by rw [h4]; exact ListEq.refl Forb.pyEq_refl _,
    fun n _ => ?_⟩
  rw [nf_once hf ho hap, nf_once hg ho' hap', sortForbs_perm_eq hfo hap]
  exact ListEq.refl Forb.pyEq_refl _

/-! ## Equal spaces -/

/-- The fast clauses forbid what the clauses forbid. -/
theorem fast_iff {s : Space} (h : Reach calls s) (hown : OwnClauses calls) (v : Vec) :
    s.fast.any (fun f => f.onVec s.idx v) = true ↔ ∃ f ∈ s.forbs, Forbids (fun n => v.at (s.idx n)) f := by
  have i := sinv_of_reach h
  rw [forb_any_iff, optimizedForbs_on (reach_hp_inj h) (fun f hf => hown f (i.hist.forbs.mem_iff.1 hf))
    (fun f hf => i.hist.forbWf f (i.hist.forbs.mem_iff.1 hf)) i.fast]
  rfl

theorem equal_check (hf : ReachF calls f) (hg : ReachF calls' g) (hoc : OwnConds calls) (hoc' : OwnConds calls')
    (hown : OwnClauses calls) (hown' : OwnClauses calls') (hnr : NoRepeats calls) (hch : SameChoices calls calls')
    (he : f.eq g = true) (v : Vec) (al : Bool) : f.space.check v al = g.space.check v al := by
  have hc := (eq_iff_content hf hg).1 he
  have i := sinv_of_reach hf.reach
  have i' := sinv_of_reach hg.reach
  have w := reach_wf hf.reach
  have w' := reach_wf hg.reach
  obtain ⟨hr, key⟩ := roots_of_lists hf.reach hg.reach hc.hps hc.conds
  have hidx : f.space.idx = g.space.idx := by
    funext n
    have := content_names hc
    unfold Space.names at this
    simp [Space.idx, idxOf, this]
  have hsim : List.Forall₂ NodeSim f.space.com g.space.com := by
    rw [List.forall₂_iff_get] at key ⊢
    refine ⟨key.1, fun j h1 h2 => ?_⟩
    obtain ⟨-, k2, k3, k4⟩ := key.2 j h1 h2
    refine ⟨k2, k3, ?_⟩
    rcases condOptEq_iff.1 k4 with e | ⟨c, d, e1, e2, e3⟩
    · exact .inl e
    · have hc1 := node_cond_mem hf.reach (List.get_mem _ _) e1
      have hd1 := node_cond_mem hg.reach (List.get_mem _ _) e2
      exact .inr ⟨c, d, e1, e2, e3, w.2.1 c hc1, w'.2.1 d hd1, fun l hl m hm => hch _ (hoc c hc1 l hl).1 _ (hoc' d hd1 m hm).1⟩
  have hfind : ∀ n, (f.space.hp? n = none ∧ g.space.hp? n = none) ∨
      ∃ a b, f.space.hp? n = some a ∧ g.space.hp? n = some b ∧ a.pyEq b = true ∧ a ∈ allHps calls ∧ b ∈ allHps calls' := by
    intro n
    have hm : ∀ x ∈ f.space.com, x.hp ∈ allHps calls := fun x hx =>
      i.hist.hps.mem_iff.1 (List.mem_map.2 ⟨x, i.com ▸ hx, rfl⟩)
    have hm' : ∀ x ∈ g.space.com, x.hp ∈ allHps calls' := fun x hx =>
      i'.hist.hps.mem_iff.1 (List.mem_map.2 ⟨x, i'.com ▸ hx, rfl⟩)
    unfold Space.hp? findNode
    clear hsim hidx hr hc
    generalize f.space.com = ns at key hm
    generalize g.space.com = ms at key hm'
    induction key with
    | nil => exact .inl ⟨rfl, rfl⟩
    | @cons x y _ _ hx _ ih =>
      rw [List.find?_cons, List.find?_cons, hx.2.1]
      split
      · exact .inr ⟨x.hp, y.hp, rfl, rfl, hx.1, hm x (by simp), hm' y (by simp)⟩
      · exact ih (fun x hx => hm x (by simp [hx])) (fun x hx => hm' x (by simp [hx]))
  have hhp : ∀ n q, (f.space.hp? n).map (fun h => (h.kind.legalVec q, (h.kind.toVal q).isSome)) =
      (g.space.hp? n).map (fun h => (h.kind.legalVec q, (h.kind.toVal q).isSome)) := by
    intro n q
    rcases hfind n with ⟨e1, e2⟩ | ⟨a, b, e1, e2, e3, ha, hb⟩
    · rw [e1, e2]
    · rw [e1, e2, Option.map_some, Option.map_some, legalVec_of_hpEq e3 q]
      rcases toVal_of_hpEq e3 (hch a ha b hb e3) q with ⟨t1, t2⟩ | ⟨u, u', t1, t2, -⟩ <;> rw [t1, t2] <;> rfl
  have hdepth : depthOf f.space.com = depthOf g.space.com := by
    funext n
    unfold depthOf findNode
    clear hsim hfind hhp hidx hr hc
    generalize f.space.com = ns at key
    generalize g.space.com = ms at key
    induction key with
    | nil => rfl
    | @cons x y _ _ hx _ ih =>
      rw [List.find?_cons, List.find?_cons, hx.2.1]
      cases e : (y.name == n)
      · exact ih
      · exact hx.2.2.1
  have hforb : (f.space.fast.any (fun c => c.onVec f.space.idx v)) = (g.space.fast.any (fun c => c.onVec g.space.idx v)) := by
    rw [Bool.eq_iff_iff, fast_iff hf.reach hown, fast_iff hg.reach hown', hidx]
    have hso : ∀ a ∈ allForbs calls, ∀ b ∈ allForbs calls', SameOrdersF a b := fun a ha b hb x hx y hy =>
      hch x (hown a ha x hx) y (hown' b hb y hy)
    have hme : ∀ a ∈ f.space.forbs, a ∈ allForbs calls := fun a ha => i.hist.forbs.mem_iff.1 ha
    have hme' : ∀ a ∈ g.space.forbs, a ∈ allForbs calls' := fun a ha => i'.hist.forbs.mem_iff.1 ha
    have hfs : ∀ a ∈ f.space.forbs, ∃ b ∈ g.space.forbs, a.pyEq b = true := by
      intro a ha
      rcases List.mem_append.1 ha with ha | ha
      · obtain ⟨b, hb, e⟩ := (ListEq.mem hc.uncond).1 a ha
        exact ⟨b, List.mem_append.2 (.inl hb), e⟩
      · obtain ⟨b, hb, e⟩ := (ListEq.mem hc.condF).1 a ha
        exact ⟨b, List.mem_append.2 (.inr hb), e⟩
    have hgs : ∀ b ∈ g.space.forbs, ∃ a ∈ f.space.forbs, a.pyEq b = true := by
      intro a ha
      rcases List.mem_append.1 ha with ha | ha
      · obtain ⟨b, hb, e⟩ := (ListEq.mem hc.uncond).2 a ha
        exact ⟨b, List.mem_append.2 (.inl hb), e⟩
      · obtain ⟨b, hb, e⟩ := (ListEq.mem hc.condF).2 a ha
        exact ⟨b, List.mem_append.2 (.inr hb), e⟩
    constructor
    · rintro ⟨a, ha, h1⟩
      obtain ⟨b, hb, e⟩ := hfs a ha
      exact ⟨b, hb, (pyEq_forbids _ a (w.2.2 a (hme a ha)) (w'.2.2 b (hme' b hb)) (hnr a (hme a ha))
        (hso a (hme a ha) b (hme' b hb)) e).1 h1⟩
    · rintro ⟨b, hb, h1⟩
      obtain ⟨a, ha, e⟩ := hgs b hb
      exact ⟨a, ha, (pyEq_forbids _ a (w.2.2 a (hme a ha)) (w'.2.2 b (hme' b hb)) (hnr a (hme a ha))
        (hso a (hme a ha) b (hme' b hb)) e).2 h1⟩
  unfold Space.check
  rw [i.mins, i'.mins, checkConds_rel hidx hhp v al (minCondsSorted_rel hdepth hsim), hforb, hr]
  simp only [firstWith, hidx]

end Verif
