import Verif.Lemmas.History

/-!
# When `add` raises `CyclicDependancyError` or `AmbiguousConditionError`
-/

set_option autoImplicit false

namespace Verif
open Verif.Spec

/-- The exceptions that are only raised inside the transaction. -/
def Err.structural : Err → Prop
  | .cyclic => True
  | .ambiguous => True
  | .alreadyExists _ => True
  | .childNotFound _ => True
  | .parentNotFound _ => True
  | .hpNotFound _ => True
  | _ => False

/-! ## The commit and the default configuration never raise them -/

theorem optGroups_err : ∀ {ps : List (List EqPart)} {acc e}, optGroups ps acc = .error e →
    ¬ e.structural
  | [], acc, e, h => by simp [optGroups] at h
  | p :: ps, acc, e, h => by
    unfold optGroups at h
    split at h
    · cases h; simp [Err.structural]
    · exact optGroups_err h

theorem mapExcept_err {α β : Type} {f : α → Except Err β} (hf : ∀ x e, f x = .error e → ¬ e.structural) :
    ∀ {l : List α} {e}, mapExcept f l = .error e → ¬ e.structural
  | [], e, h => by simp [mapExcept] at h
  | x :: xs, e, h => by
    unfold mapExcept at h
    split at h
    · rename_i e' he; cases h; exact hf x _ he
    · split at h
      · rename_i e' he; cases h; exact mapExcept_err hf he
      · cases h

theorem optEmit_err {g : OptGroup} {e : Err} (h : optEmit g = .error e) : ¬ e.structural := by
  unfold optEmit at h
  simp only at h
  split at h
  · cases h
  · cases h; simp [Err.structural]
  · simp only [mkForbIn] at h
    split at h
    · simp [bind, Except.bind] at h
    · simp [bind, Except.bind] at h
      subst h; simp [Err.structural]

theorem optimizedForbs_err {idx : Name → Nat} {fs : List Forb} {e : Err}
    (h : optimizedForbs idx fs = .error e) : ¬ e.structural := by
  unfold optimizedForbs at h
  simp only at h
  split at h
  · rename_i he; cases h; exact optGroups_err he
  · split at h
    · rename_i he; cases h; exact mapExcept_err (fun x e he => optEmit_err he) he
    · cases h

theorem commit_err {s s' : Space} {g : Dag} {e : Err} (h : s.commit g = (s', some e)) :
    ¬ e.structural := by
  unfold Space.commit at h
  simp only at h
  split at h
  · rename_i he
    simp only [Prod.mk.injEq, Option.some.injEq] at h
    rw [← h.2]; exact optimizedForbs_err he
  · simp at h

theorem lit_satVal_err {l : Lit} {d : Dict} {e : Err} (h : l.satVal d = .error e) :
    ¬ e.structural := by
  unfold Lit.satVal Dict.get at h
  cases hl : d.lookup l.parent.name with
  | none => simp [hl, bind, Except.bind] at h; subst h; simp [Err.structural]
  | some o =>
    cases o with
    | none => simp [hl, bind, Except.bind] at h
    | some v =>
      simp only [hl, bind, Except.bind] at h
      cases ht : l.test with
      | isIn vs xs => simp [ht] at h
      | bin op w x =>
        simp only [ht] at h
        split at h
        · split at h
          · cases h
          · cases h; simp [Err.structural]
        · cases op <;> simp only [BOp.onVal] at h
          · cases h
          · cases h
          · split at h
            · cases h
            · cases h; simp [Err.structural]
          · split at h
            · cases h
            · cases h; simp [Err.structural]

mutual
theorem satVal_err : ∀ (c : Cond) {d : Dict} {e : Err}, c.satVal d = .error e → ¬ e.structural
  | .lit l, d, e, h => lit_satVal_err (by simpa [Cond.satVal] using h)
  | .and cs, d, e, h => satValAll_err cs (by simpa [Cond.satVal] using h)
  | .or cs, d, e, h => satValAny_err cs (by simpa [Cond.satVal] using h)
theorem satValAll_err : ∀ (cs : List Cond) {d : Dict} {e : Err},
    Cond.satValAll d cs = .error e → ¬ e.structural
  | [], d, e, h => by simp [Cond.satValAll] at h
  | c :: cs, d, e, h => by
    unfold Cond.satValAll at h
    cases hc : c.satVal d with
    | error e' => simp [hc, bind, Except.bind] at h; subst h; exact satVal_err c hc
    | ok b =>
      cases b
      · simp [hc, bind, Except.bind] at h
      · simp [hc, bind, Except.bind] at h; exact satValAll_err cs h
theorem satValAny_err : ∀ (cs : List Cond) {d : Dict} {e : Err},
    Cond.satValAny d cs = .error e → ¬ e.structural
  | [], d, e, h => by simp [Cond.satValAny] at h
  | c :: cs, d, e, h => by
    unfold Cond.satValAny at h
    cases hc : c.satVal d with
    | error e' => simp [hc, bind, Except.bind] at h; subst h; exact satVal_err c hc
    | ok b =>
      cases b
      · simp [hc, bind, Except.bind] at h; exact satValAny_err cs h
      · simp [hc, bind, Except.bind] at h
end

theorem defaultValues_err : ∀ {ns : List Node} {d : Dict} {e : Err},
    defaultValues ns d = .error e → ¬ e.structural
  | [], d, e, h => by simp [defaultValues] at h
  | x :: xs, d, e, h => by
    unfold defaultValues at h
    split at h
    · exact defaultValues_err h
    · split at h
      · cases h; simp [Err.structural]
      · split at h
        · rename_i he; cases h; exact satVal_err _ he
        · exact defaultValues_err h
        · exact defaultValues_err h

theorem fillValues_err {s : Space} {d : Dict} : ∀ {ns : List Node} {v vals} {e : Err},
    fillValues s d ns v vals = .error e → ¬ e.structural
  | [], v, vals, e, h => by simp [fillValues] at h
  | x :: xs, v, vals, e, h => by
    unfold fillValues at h
    split at h
    · exact fillValues_err h
    · exact fillValues_err h
    · split at h
      · cases h; simp [Err.structural]
      · simp only at h
        split at h
        · cases h; simp [Err.structural]
        · exact fillValues_err h

theorem checkConds_err {s : Space} {v : Vec} {a : Bool} : ∀ {cs : List CNode} {e : Err},
    checkConds s v a cs = some e → ¬ e.structural
  | [], e, h => by simp [checkConds] at h
  | c :: cs, e, h => by
    unfold checkConds at h
    split at h
    · split at h
      · cases h; simp [Err.structural]
      · split at h
        · cases h; simp [Err.structural]
        · exact checkConds_err h
    · split at h
      · exact checkConds_err h
      · split at h
        · split at h
          · split at h <;> cases h <;> simp [Err.structural]
          · cases h; simp [Err.structural]
        · exact checkConds_err h

theorem check_err {s : Space} {v : Vec} {a : Bool} {e : Err} (h : s.check v a = some e) :
    ¬ e.structural := by
  unfold Space.check at h
  split at h
  · cases h; simp [Err.structural]
  · split at h
    · rename_i he; cases h; exact checkConds_err he
    · split at h
      · cases h; simp [Err.structural]
      · cases h

theorem ofValues_err {s : Space} {d : Dict} {a : Bool} {e : Err}
    (h : Config.ofValues s d a = .error e) : ¬ e.structural := by
  unfold Config.ofValues at h
  split at h
  · cases h; simp [Err.structural]
  · split at h
    · rename_i he; cases h; exact fillValues_err he
    · split at h
      · rename_i he; cases h; exact check_err he
      · cases h

theorem defaultConfig_err {s : Space} {e : Err} (h : s.defaultConfig = .error e) :
    ¬ e.structural := by
  unfold Space.defaultConfig at h
  split at h
  · rename_i he; cases h; exact defaultValues_err he
  · exact ofValues_err h

/-- A structural exception of `add` comes from the transaction. -/
theorem add_structural {s : Space} {hps : List HP} {cs : List Cond} {fs : List Forb} {e : Err}
    (he : e.structural) :
    (s.add hps cs fs).2 = some e ↔ (s.dag.addAll hps cs fs).2 = some e := by
  unfold Space.add
  cases h1 : s.dag.addAll hps cs fs with
  | mk g e1 =>
    cases e1 with
    | some e1 => simp
    | none =>
      simp only
      cases h2 : s.commit g with
      | mk s1 e2 =>
        cases e2 with
        | some e2 =>
          simp only [Option.some.injEq]
          constructor
          · intro h; subst h; exact absurd he (commit_err h2)
          · intro h; cases h
        | none =>
          simp only
          split
          · rename_i e3 h3
            simp only [Option.some.injEq]
            constructor
            · intro h; subst h; exact absurd he (defaultConfig_err h3)
            · intro h; cases h
          · simp

/-! ## Linking one condition -/

/-- The cycle check is right. -/
theorem cyclicCheck_iff {ns : Nodes} (hedges : ∀ a b, Edge ns a b → IsNode ns a ∧ IsNode ns b) :
    cyclicCheck ns = true ↔ ¬ Acyclic (Edge ns) := by
  have hsucc : ∀ n, ∀ c ∈ childNames ns n, c ∈ ns.map Node.name :=
    fun n c hc => (hedges n c hc).2
  have h1 := cycleSearch_cyclic_iff (succ := childNames ns) (ns.map Node.name) hsucc
    (fun a hne => by
      obtain ⟨b, hb⟩ := List.exists_mem_of_ne_nil _ hne
      exact (hedges a b hb).1)
  have h2 := cycleSearch_total (succ := childNames ns) (ns.map Node.name) hsucc
  unfold cyclicCheck
  have hE : SuccEdge (childNames ns) = Edge ns := rfl
  rw [hE] at h1
  rw [← h1]
  cases h : cycleSearch (childNames ns) (ns.map Node.name) with
  | done _ _ => simp
  | cyclic => simp
  | outOfFuel => exact absurd h h2

/-- The graph with the edges of the condition added. -/
def withEdges (E : Name → Name → Prop) (ps : List Name) (ch : Name) (a b : Name) : Prop :=
  E a b ∨ (a ∈ ps ∧ b = ch)

theorem acyclic_mono {α : Type} {E F : α → α → Prop} (h : ∀ a b, E a b → F a b) (hF : Acyclic F) :
    Acyclic E := fun a hp => hF a (hp.mono h)

/-- The outcomes of one iteration. -/
theorem addCondParent_cases {ns : Nodes} {ch p : Name} {c : Cond} (hi : DInv ns) (hch : IsNode ns ch) :
    (∃ ns', addCondParent ns ch c p = (ns', none)) ∨
    (addCondParent ns ch c p = (ns, some (.parentNotFound p)) ∧ ¬ IsNode ns p) ∨
    (addCondParent ns ch c p = (ns, some .ambiguous) ∧
      ∃ e, childAt ns p ch = some e ∧ c.pyEq e = false) ∨
    (∃ ns', addCondParent ns ch c p = (ns', some .cyclic) ∧ IsNode ns p ∧
      ¬ Acyclic (withEdges (Edge ns) [p] ch)) := by
  unfold addCondParent
  cases hp : findNode ns p with
  | none => exact .inr (.inl ⟨rfl, findNode_none.1 hp⟩)
  | some pn =>
    have hpn : IsNode ns p := mem_namesOf_of_find hp
    simp only
    split
    · rename_i hamb
      refine .inr (.inr (.inl ⟨rfl, ?_⟩))
      cases hl : pn.children.lookup ch with
      | none => simp [hl] at hamb
      | some e =>
        refine ⟨e, ?_, by simpa [hl] using hamb⟩
        simp [childAt, hp, hl]
    · split
      · rename_i hcyc
        refine .inr (.inr (.inr ⟨_, rfl, hpn, ?_⟩))
        have hL := linkNodes_linked (ns := ns) (p := p) (ch := ch) c hpn hch
        have hedges : ∀ a b, Edge (linkNodes ns p ch c) a b →
            IsNode (linkNodes ns p ch c) a ∧ IsNode (linkNodes ns p ch c) b := by
          intro a b hab
          unfold IsNode
          rw [hL.names]
          rcases (hL.edge a b).1 hab with ⟨rfl, rfl⟩ | hab
          · exact ⟨hpn, hch⟩
          · exact hi.edges a b hab
        have := (cyclicCheck_iff hedges).1 hcyc
        intro hac
        apply this
        refine acyclic_mono ?_ hac
        intro a b hab
        rcases (hL.edge a b).1 hab with ⟨rfl, rfl⟩ | hab
        · exact .inr ⟨by simp, rfl⟩
        · exact .inl hab
      · exact .inl ⟨_, rfl⟩

/-- The outcomes of the loop over the parents. -/
theorem addCondLoop_cases {ch : Name} {c : Cond} : ∀ (ps : List Name) {ns : Nodes}, DInv ns →
    IsNode ns ch →
    (∃ ns', addCondLoop ns ch c ps = (ns', none)) ∨
    (∃ ns' p, addCondLoop ns ch c ps = (ns', some (.parentNotFound p)) ∧ p ∈ ps ∧ ¬ IsNode ns p) ∨
    (∃ ns' p e, addCondLoop ns ch c ps = (ns', some .ambiguous) ∧ p ∈ ps ∧
      childAt ns p ch = some e ∧ c.pyEq e = false) ∨
    (∃ ns', addCondLoop ns ch c ps = (ns', some .cyclic) ∧
      ¬ Acyclic (withEdges (Edge ns) ps ch)) := by
  intro ps
  induction ps with
  | nil => intro ns _ _; exact .inl ⟨ns, rfl⟩
  | cons p ps ih =>
    intro ns hi hch
    rcases addCondParent_cases (p := p) (c := c) hi hch with ⟨ns1, h1⟩ | ⟨h1, h2⟩ | ⟨h1, e, h2, h3⟩ |
      ⟨ns1, h1, h2, h3⟩
    · obtain ⟨_, hL, hD, _⟩ := addCondParent_ok hi hch h1
      have hV : ∀ x, IsNode ns1 x ↔ IsNode ns x := by intro x; simp only [IsNode, hL.names]
      rcases ih hD ((hV ch).2 hch) with ⟨ns', k⟩ | ⟨ns', q, k, kq, kn⟩ | ⟨ns', q, e, k, kq, ke, kp⟩ |
        ⟨ns', k, kc⟩
      · exact .inl ⟨ns', by simp [addCondLoop, h1, k]⟩
      · exact .inr (.inl ⟨ns', q, by simp [addCondLoop, h1, k], by simp [kq], fun h => kn ((hV q).2 h)⟩)
      · refine .inr (.inr (.inl ⟨ns', q, e, by simp [addCondLoop, h1, k], by simp [kq], ?_, kp⟩))
        rw [hL.child] at ke
        split at ke
        · cases ke; rw [Cond.pyEq_refl] at kp; cases kp
        · exact ke
      · refine .inr (.inr (.inr ⟨ns', by simp [addCondLoop, h1, k], ?_⟩))
        intro hac
        apply kc
        refine acyclic_mono ?_ hac
        rintro a b (hab | ⟨hab, rfl⟩)
        · rcases (hL.edge a b).1 hab with ⟨rfl, rfl⟩ | hab
          · exact .inr ⟨by simp, rfl⟩
          · exact .inl hab
        · exact .inr ⟨by simp [hab], rfl⟩
    · exact .inr (.inl ⟨ns, p, by simp [addCondLoop, h1], by simp, h2⟩)
    · exact .inr (.inr (.inl ⟨ns, p, e, by simp [addCondLoop, h1], by simp, h2, h3⟩))
    · refine .inr (.inr (.inr ⟨ns1, by simp [addCondLoop, h1], ?_⟩))
      intro hac
      apply h3
      refine acyclic_mono ?_ hac
      rintro a b (hab | ⟨hab, rfl⟩)
      · exact .inl hab
      · simp at hab; subst hab; exact .inr ⟨by simp, rfl⟩

/-- The outcomes of `add_condition`. -/
theorem addCondNodes_cases {ns : Nodes} {c : Cond} {chp : HP} (hi : NInv ns)
    (hchild : c.child? = some chp) :
    (∃ ns', addCondNodes ns c = (ns', none)) ∨
    (addCondNodes ns c = (ns, some (.childNotFound chp.name)) ∧ ¬ IsNode ns chp.name) ∨
    (∃ ns' p, addCondNodes ns c = (ns', some (.parentNotFound p)) ∧ p ∈ c.parents ∧ ¬ IsNode ns p) ∨
    (∃ ns' e, addCondNodes ns c = (ns', some .ambiguous) ∧ condAt ns chp.name = some e ∧
      c.pyEq e = false) ∨
    (∃ ns', addCondNodes ns c = (ns', some .cyclic) ∧
      ¬ Acyclic (withEdges (Edge ns) c.parents chp.name)) := by
  unfold addCondNodes
  simp only [hchild]
  cases hf : findNode ns chp.name with
  | none => exact .inr (.inl ⟨rfl, findNode_none.1 hf⟩)
  | some cn =>
    simp only
    split
    · rename_i hamb
      refine .inr (.inr (.inr (.inl ⟨ns, ?_⟩)))
      cases hl : cn.cond with
      | none => simp [hl] at hamb
      | some e => exact ⟨e, rfl, by simp [condAt, hf, hl], by simpa [hl] using hamb⟩
    · rename_i hamb
      rcases addCondLoop_cases (c := c) c.parents hi.toDInv (mem_namesOf_of_find hf) with ⟨ns', k⟩ |
        ⟨ns', q, k, kq, kn⟩ | ⟨ns', q, e, k, kq, ke, kp⟩ | ⟨ns', k, kc⟩
      · exact .inl ⟨ns', k⟩
      · exact .inr (.inr (.inl ⟨ns', q, k, kq, kn⟩))
      · exact .inr (.inr (.inr (.inl ⟨ns', e, k, ((hi.child q chp.name e).1 ke).1, kp⟩)))
      · exact .inr (.inr (.inr (.inr ⟨ns', k, kc⟩)))

theorem wf_child {c : Cond} (h : c.wf = true) : ∃ chp, c.child? = some chp := by
  simp only [Cond.wf, Bool.and_eq_true] at h
  have := wf0_dlcs_ne c h.1
  cases hd : c.dlcs with
  | nil => exact absurd hd this
  | cons l ls => exact ⟨l.child, by simp [Cond.child?, hd]⟩

/-- A stored different condition makes `add_condition` fail with `AmbiguousConditionError`. -/
theorem addCondNodes_ambiguous {ns : Nodes} {c e : Cond} {chp : HP} (hchild : c.child? = some chp)
    (he : condAt ns chp.name = some e) (hne : c.pyEq e = false) :
    addCondNodes ns c = (ns, some .ambiguous) := by
  unfold addCondNodes
  simp only [hchild]
  cases hf : findNode ns chp.name with
  | none => simp [condAt, hf] at he
  | some cn =>
    simp only [condAt, hf, Option.bind_some] at he
    simp [he, hne]

/-! ## Batches -/

/-- The parent relation of a list of conditions. -/
def parentRel (C : List Cond) (p c : Name) : Prop := ∃ x ∈ C, childName x = some c ∧ p ∈ x.parents

theorem parentRel_mono {C D : List Cond} (h : ∀ c ∈ C, c ∈ D) (a b : Name) :
    parentRel C a b → parentRel D a b := by
  rintro ⟨x, hx, h1, h2⟩; exact ⟨x, h x hx, h1, h2⟩

theorem HInv.acyclic {g : Dag} {H C F} (hi : HInv g H C F) : Acyclic (parentRel C) := by
  have : parentRel C = Edge g.nodes := by
    funext p c; exact propext (hi.edge p c).symm
  rw [this]; exact hi.ninv.toDInv.acyclic

theorem runAll_cond_cyclic : ∀ (cs : List Cond) {g : Dag} {H C F}, HInv g H C F →
    (∀ c ∈ cs, c.wf = true) → (runAll Dag.addCondition g cs).2 = some .cyclic →
    ¬ Acyclic (parentRel (C ++ cs)) := by
  intro cs
  induction cs with
  | nil => intro g H C F hi _ h; simp [runAll] at h
  | cons c cs ih =>
    intro g H C F hi hw h
    unfold runAll at h
    have hcw := hw c (by simp)
    obtain ⟨chp, hchild⟩ := wf_child hcw
    cases h1 : g.addCondition c with
    | mk g1 e =>
      rw [h1] at h
      cases e with
      | none =>
        simp only at h
        have := ih (hi.addCondition hcw h1) (fun x hx => hw x (by simp [hx])) h
        simpa using this
      | some e =>
        simp only [Option.some.injEq] at h
        subst h
        have h2 : (addCondNodes g.nodes c).2 = some .cyclic := by
          simp only [Dag.addCondition, Prod.mk.injEq] at h1
          exact h1.2
        rcases addCondNodes_cases hi.ninv hchild with ⟨ns', k⟩ | ⟨k, _⟩ | ⟨ns', p, k, _, _⟩ |
          ⟨ns', e, k, _, _⟩ | ⟨ns', k, kc⟩ <;> rw [k] at h2 <;> simp at h2
        intro hac
        apply kc
        refine acyclic_mono ?_ hac
        rintro a b (hab | ⟨hab, rfl⟩)
        · obtain ⟨x, hx, e1, e2⟩ := (hi.edge a b).1 hab
          exact ⟨x, by simp [hx], e1, e2⟩
        · exact ⟨c, by simp, by simp [childName, hchild], hab⟩

theorem dagAdd_err {g g' : Dag} {h : HP} {e : Err} (hr : g.add h = (g', some e)) :
    e ≠ .cyclic := by
  unfold Dag.add at hr
  split at hr
  · simp only [Prod.mk.injEq, Option.some.injEq] at hr
    rw [← hr.2]; simp
  · simp at hr

theorem addForbidden_err {g g' : Dag} {h : Forb} {e : Err} (hr : g.addForbidden h = (g', some e)) :
    e ≠ .cyclic := by
  unfold Dag.addForbidden at hr
  split at hr
  · simp only [Prod.mk.injEq, Option.some.injEq] at hr
    rw [← hr.2]; simp
  · split at hr <;> simp at hr

theorem runAll_err {α : Type} {op : Dag → α → Dag × Option Err}
    (hop : ∀ g g' x e, op g x = (g', some e) → e ≠ .cyclic) :
    ∀ (xs : List α) (g : Dag) {e : Err}, (runAll op g xs).2 = some e → e ≠ .cyclic := by
  intro xs
  induction xs with
  | nil => intro g e h; simp [runAll] at h
  | cons x xs ih =>
    intro g e h
    unfold runAll at h
    cases h1 : op g x with
    | mk g1 e1 =>
      rw [h1] at h
      cases e1 with
      | none => exact ih g1 h
      | some e1 => simp at h; subst h; exact hop _ _ _ _ h1

theorem addAll_cyclic {g : Dag} {H C F} {k : Call} (hi : HInv g H C F) (hw : k.wf)
    (h : (g.addAll k.hps k.conds k.forbs).2 = some .cyclic) :
    ¬ Acyclic (parentRel (C ++ k.conds)) := by
  unfold Dag.addAll at h
  cases h1 : runAll Dag.add g k.hps with
  | mk g1 e1 =>
    rw [h1] at h
    cases e1 with
    | some e =>
      simp only [Option.some.injEq] at h
      subst h
      exact absurd rfl (runAll_err (fun _ _ _ _ h => dagAdd_err h) k.hps g (by rw [h1]))
    | none =>
      simp only at h
      have k1 : HInv g1 (H ++ k.hps) C F :=
        runAll_inv (P := fun g xs => HInv g (H ++ xs) C F) (Q := fun h => h.wf = true)
          (fun g g' xs x hP hQ h => by
            have := hP.add hQ h
            simpa using this) k.hps g g1 [] (by simpa using hi) hw.1 h1
      cases h2 : runAll Dag.addCondition g1 k.conds with
      | mk g2 e2 =>
        rw [h2] at h
        cases e2 with
        | some e =>
          simp only [Option.some.injEq] at h
          subst h
          exact runAll_cond_cyclic k.conds k1 hw.2.1 (by rw [h2])
        | none =>
          simp only at h
          exact absurd rfl (runAll_err (fun _ _ _ _ h => addForbidden_err h) k.forbs g2 h)

end Verif
