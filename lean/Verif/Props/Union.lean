import Verif.Lemmas.Union
import Verif.Lemmas.Check
import Verif.Props.Sample
import Verif.Examples

/-!
# C44: adding a configuration space to another one
-/

set_option autoImplicit false

namespace Verif
open Verif.Spec

variable {calls subs : List Call} {s s' sub : Space} {pfx delim : String}

/-- **C44.** Two names get the same new name exactly if they are equal or clash. -/
theorem C44_new_names {x y : Name} :
    newName pfx delim x = newName pfx delim y ↔ x = y ∨ Clash pfx delim x y ∨ Clash pfx delim y x := newName_eq_iff

/-- **C44.** Renaming twice is renaming once. -/
theorem C44_rename_twice (n : Name) : newName pfx delim (newName pfx delim n) = newName pfx delim n := newName_idem n

/-! ## The contents of the result -/

theorem known_of_child (h : Reach calls s) {c : Cond} (hc : c ∈ allConds calls) {n : Name} (hn : childName c = some n) :
    Known calls n := by
  obtain ⟨x, hx, rfl, _⟩ := node_of_child h hc hn
  exact (reach_isNode h _).1 (mem_names hx)

theorem known_of_conditional (h : Reach calls s) {n : Name} (hn : Conditional calls n) : Known calls n := by
  obtain ⟨c, hc, e⟩ := hn
  exact known_of_child h hc e

theorem lit_names_known (h : Reach calls s) {c : Cond} (hc : c ∈ allConds calls) {l : Lit} (hl : l ∈ c.dlcs) :
    Known calls l.child.name ∧ Known calls l.parent.name := by
  have hw := (reach_wf h).2.1 c hc
  obtain ⟨x, hx⟩ := wf_child hw
  constructor
  · have := wf_dlcs_child hw hx l hl
    rw [this]
    exact known_of_child h hc (by simp [childName, hx])
  · exact (reach_isNode h _).1 (cond_parents_known h hc (List.mem_map.2 ⟨l, hl, rfl⟩))

/-- The names of the space stay apart. -/
def Apart (subs : List Call) (r : Name → Name) : Prop := ∀ x y, Known subs x → Known subs y → r x = r y → x = y

theorem renamedCall_wf (hs : Reach subs sub) (hp : PrintApart subs) {r : Name → Name} (hr : Apart subs r) :
    (sub.renamedCall r).wf := by
  have hw := reach_wf hs
  refine ⟨?_, ?_, ?_⟩
  · intro x hx
    obtain ⟨y, hy, rfl⟩ := List.mem_map.1 hx
    exact rename_hp_wf (hw.1 y ((hps_perm hs).mem_iff.1 hy))
  · intro c hc
    simp only [Space.renamedCall] at hc
    rw [conditions_eq hs hp] at hc
    obtain ⟨d, hd, rfl⟩ := List.mem_map.1 hc
    obtain ⟨_, _, _, hd', _⟩ := mem_nodeConds hs hd
    refine rename_wf (hw.2.1 d hd') fun l hl e => ?_
    obtain ⟨k1, k2⟩ := lit_names_known hs hd' hl
    exact hr _ _ k1 k2 e
  · intro f hf
    obtain ⟨g, hg, rfl⟩ := List.mem_map.1 hf
    exact rename_forb_wf (hw.2.2 g ((mem_forbs hs g).1 hg))

/-- How the history of the result relates to those of the parts. -/
structure Joined (calls subs all : List Call) (r : Name → Name) : Prop where
  hps : ∀ x, x ∈ allHps all ↔ x ∈ allHps calls ∨ ∃ y ∈ allHps subs, y.rename r = x
  condsOld : ∀ c ∈ allConds calls, c ∈ allConds all
  condsNew : ∀ c ∈ allConds subs, ∃ d, d.rename r ∈ allConds all ∧ childName d = childName c ∧ ∀ a, Holds a d ↔ Holds a c
  conds : ∀ c ∈ allConds all, c ∈ allConds calls ∨ ∃ d ∈ allConds subs, d.rename r = c
  forbs : ∀ f, f ∈ allForbs all ↔ f ∈ allForbs calls ∨ ∃ g ∈ allForbs subs, g.rename r = f
  disj : ∀ n m, Known calls n → Known subs m → n ≠ r m
  apart : Apart subs r

theorem joined_of_add (hs : Reach subs sub) (hp : PrintApart subs) (hone : OneMeaning subs) {r : Name → Name} (hr : Apart subs r)
    (h' : Reach (calls ++ [sub.renamedCall r]) s') : Joined calls subs (calls ++ [sub.renamedCall r]) r := by
  have hw := (reach_wf hs).2.1
  refine ⟨?_, ?_, ?_, ?_, ?_, ?_, hr⟩
  · intro x
    rw [allHps_snoc, List.mem_append]
    refine or_congr_right ?_
    simp only [Space.renamedCall, List.mem_map]
    constructor
    · rintro ⟨y, ⟨z, hz, rfl⟩, rfl⟩
      exact ⟨z.hp, (hps_perm hs).mem_iff.1 (List.mem_map.2 ⟨z, hz, rfl⟩), rfl⟩
    · rintro ⟨y, hy, rfl⟩
      exact ⟨y, List.mem_map.1 ((hps_perm hs).mem_iff.2 hy), rfl⟩
  · intro c hc
    rw [allConds_snoc]; simp [hc]
  · intro c hc
    obtain ⟨ch, hch⟩ := wf_child (hw c hc)
    have hcn : childName c = some ch.name := by simp [childName, hch]
    obtain ⟨x, hx, hxn, d, hd⟩ := node_of_child hs hc hcn
    obtain ⟨hd1, hd2, hd3⟩ := node_cond hs hx hd
    refine ⟨d, ?_, by rw [hd2, hcn, hxn], fun a => hone d hd1 c hc (hd3 c hc (by rw [hcn, hxn])) a⟩
    rw [allConds_snoc, List.mem_append]
    refine .inr (List.mem_map.2 ⟨d, ?_, rfl⟩)
    rw [conditions_eq hs hp]
    exact List.mem_filterMap.2 ⟨x, hx, hd⟩
  · intro c hc
    rw [allConds_snoc, List.mem_append] at hc
    refine hc.imp_right fun hc => ?_
    simp only [Space.renamedCall] at hc
    rw [conditions_eq hs hp] at hc
    obtain ⟨d, hd, rfl⟩ := List.mem_map.1 hc
    obtain ⟨_, _, _, hd', _⟩ := mem_nodeConds hs hd
    exact ⟨d, hd', rfl⟩
  · intro f
    rw [allForbs_snoc, List.mem_append]
    refine or_congr_right ?_
    simp only [Space.renamedCall, List.mem_map]
    constructor
    · rintro ⟨g, hg, rfl⟩
      exact ⟨g, (mem_forbs hs g).1 hg, rfl⟩
    · rintro ⟨g, hg, rfl⟩
      exact ⟨g, (mem_forbs hs g).2 hg, rfl⟩
  · rintro n m ⟨x, hx, rfl⟩ ⟨y, hy, rfl⟩ e
    have hnd := ((hps_perm h').map HP.name).nodup_iff.1 (hps_nodup h')
    rw [allHps_snoc, List.map_append] at hnd
    have := (List.nodup_append.1 hnd).2.2
    refine this x.name (List.mem_map.2 ⟨x, hx, rfl⟩) (r y.name) ?_ e
    refine List.mem_map.2 ⟨y.rename r, ?_, rfl⟩
    exact List.mem_map.2 ⟨y, (hps_perm hs).mem_iff.2 hy, rfl⟩

variable {all : List Call} {r : Name → Name}

theorem Joined.known (j : Joined calls subs all r) (n : Name) :
    Known all n ↔ Known calls n ∨ ∃ m, Known subs m ∧ r m = n := by
  constructor
  · rintro ⟨x, hx, rfl⟩
    rcases (j.hps x).1 hx with hx | ⟨y, hy, rfl⟩
    · exact .inl ⟨x, hx, rfl⟩
    · exact .inr ⟨y.name, ⟨y, hy, rfl⟩, rfl⟩
  · rintro (⟨x, hx, rfl⟩ | ⟨m, ⟨y, hy, rfl⟩, rfl⟩)
    · exact ⟨x, (j.hps x).2 (.inl hx), rfl⟩
    · exact ⟨y.rename r, (j.hps _).2 (.inr ⟨y, hy, rfl⟩), rfl⟩

theorem Joined.conditional (j : Joined calls subs all r) (n : Name) :
    Conditional all n ↔ Conditional calls n ∨ ∃ m, Conditional subs m ∧ r m = n := by
  constructor
  · rintro ⟨c, hc, e⟩
    rcases j.conds c hc with hc | ⟨d, hd, rfl⟩
    · exact .inl ⟨c, hc, e⟩
    · rw [rename_childName] at e
      cases hd' : childName d with
      | none => rw [hd'] at e; cases e
      | some m =>
        rw [hd'] at e
        exact .inr ⟨m, ⟨d, hd, hd'⟩, by simpa using e⟩
  · rintro (⟨c, hc, e⟩ | ⟨m, ⟨c, hc, e⟩, rfl⟩)
    · exact ⟨c, j.condsOld c hc, e⟩
    · obtain ⟨d, hd, e', _⟩ := j.condsNew c hc
      exact ⟨_, hd, by rw [rename_childName, e', e]; rfl⟩

theorem Joined.conditional_old (j : Joined calls subs all r) (hs : Reach subs sub) {n : Name} (hn : Known calls n) :
    Conditional all n ↔ Conditional calls n := by
  rw [j.conditional]
  refine ⟨fun h => h.resolve_right ?_, .inl⟩
  rintro ⟨m, hm, e⟩
  exact j.disj n m hn (known_of_conditional hs hm) e.symm

theorem Joined.conditional_new (j : Joined calls subs all r) (h : Reach calls s) (hs : Reach subs sub) {m : Name}
    (hm : Known subs m) : Conditional all (r m) ↔ Conditional subs m := by
  rw [j.conditional]
  constructor
  · rintro (h1 | ⟨m', hm', e⟩)
    · exact absurd rfl (j.disj _ m (known_of_conditional h h1) hm)
    · rw [← j.apart m' m (known_of_conditional hs hm') hm e]
      exact hm'
  · intro h1
    exact .inr ⟨m, h1, rfl⟩

theorem Joined.rootsSet (j : Joined calls subs all r) (h : Reach calls s) (hs : Reach subs sub) (a : Assign) :
    RootsSet all a ↔ RootsSet calls a ∧ RootsSet subs (a.part r) := by
  constructor
  · intro hr
    refine ⟨fun n hn hc => hr n ((j.known n).2 (.inl hn)) fun h1 => hc ((j.conditional_old hs hn).1 h1), ?_⟩
    intro m hm hc
    exact hr (r m) ((j.known _).2 (.inr ⟨m, hm, rfl⟩)) fun h1 => hc ((j.conditional_new h hs hm).1 h1)
  · rintro ⟨h1, h2⟩ n hn hc
    rcases (j.known n).1 hn with hn' | ⟨m, hm, rfl⟩
    · exact h1 n hn' fun hh => hc ((j.conditional_old hs hn').2 hh)
    · exact h2 m hm fun hh => hc ((j.conditional_new h hs hm).2 hh)

theorem Joined.activityOk (j : Joined calls subs all r) (a : Assign) :
    ActivityOk all a ↔ ActivityOk calls a ∧ ActivityOk subs (a.part r) := by
  constructor
  · intro hr
    refine ⟨fun c hc n hn => hr c (j.condsOld c hc) n hn, ?_⟩
    intro c hc m hm
    obtain ⟨d, hd, e, hh⟩ := j.condsNew c hc
    have := hr _ hd (r m) (by rw [rename_childName, e, hm]; rfl)
    rw [rename_holds, hh] at this
    exact this
  · rintro ⟨h1, h2⟩ c hc n hn
    rcases j.conds c hc with hc | ⟨d, hd, rfl⟩
    · exact h1 c hc n hn
    · rw [rename_childName] at hn
      cases hd' : childName d with
      | none => rw [hd'] at hn; cases hn
      | some m =>
        rw [hd'] at hn
        simp only [Option.map_some, Option.some.injEq] at hn
        subst hn
        rw [rename_holds]
        exact h2 d hd m hd'

theorem Joined.legalAll (j : Joined calls subs all r) (a : Assign) :
    LegalAll all a ↔ LegalAll calls a ∧ LegalAll subs (a.part r) := by
  constructor
  · intro hl
    exact ⟨fun x hx q hq => hl x ((j.hps x).2 (.inl hx)) q hq,
      fun y hy q hq => hl (y.rename r) ((j.hps _).2 (.inr ⟨y, hy, rfl⟩)) q hq⟩
  · rintro ⟨h1, h2⟩ x hx q hq
    rcases (j.hps x).1 hx with hx | ⟨y, hy, rfl⟩
    · exact h1 x hx q hq
    · exact h2 y hy q hq

theorem Joined.legalConditional (j : Joined calls subs all r) (h : Reach calls s) (hs : Reach subs sub) (a : Assign) :
    LegalConditional all a ↔ LegalConditional calls a ∧ LegalConditional subs (a.part r) := by
  constructor
  · intro hl
    exact ⟨fun x hx hc q hq => hl x ((j.hps x).2 (.inl hx)) ((j.conditional _).2 (.inl hc)) q hq,
      fun y hy hc q hq => hl (y.rename r) ((j.hps _).2 (.inr ⟨y, hy, rfl⟩)) ((j.conditional _).2 (.inr ⟨_, hc, rfl⟩)) q hq⟩
  · rintro ⟨h1, h2⟩ x hx hc q hq
    rcases (j.hps x).1 hx with hx | ⟨y, hy, rfl⟩
    · exact h1 x hx ((j.conditional_old hs ⟨x, hx, rfl⟩).1 hc) q hq
    · exact h2 y hy ((j.conditional_new h hs ⟨y, hy, rfl⟩).1 hc) q hq

theorem Joined.notForbidden (j : Joined calls subs all r) (a : Assign) :
    NotForbidden all a ↔ NotForbidden calls a ∧ NotForbidden subs (a.part r) := by
  constructor
  · intro hl
    exact ⟨fun f hf => hl f ((j.forbs f).2 (.inl hf)),
      fun g hg hh => hl (g.rename r) ((j.forbs _).2 (.inr ⟨g, hg, rfl⟩)) ((rename_forbids g).2 hh)⟩
  · rintro ⟨h1, h2⟩ f hf
    rcases (j.forbs f).1 hf with hf | ⟨g, hg, rfl⟩
    · exact h1 f hf
    · exact fun hh => h2 g hg ((rename_forbids g).1 hh)

theorem Joined.valid (j : Joined calls subs all r) (h : Reach calls s) (hs : Reach subs sub) (a : Assign) :
    Valid all a ↔ Valid calls a ∧ Valid subs (a.part r) := by
  constructor
  · rintro ⟨h1, h2, h3, h4⟩
    rw [j.rootsSet h hs] at h1
    rw [j.activityOk] at h2
    rw [j.legalAll] at h3
    rw [j.notForbidden] at h4
    exact ⟨⟨h1.1, h2.1, h3.1, h4.1⟩, ⟨h1.2, h2.2, h3.2, h4.2⟩⟩
  · rintro ⟨⟨h1, h2, h3, h4⟩, ⟨g1, g2, g3, g4⟩⟩
    exact ⟨(j.rootsSet h hs a).2 ⟨h1, g1⟩, (j.activityOk a).2 ⟨h2, g2⟩, (j.legalAll a).2 ⟨h3, g3⟩,
      (j.notForbidden a).2 ⟨h4, g4⟩⟩

theorem apart_of_no_clash (hc : ∀ x y, Known subs x → Known subs y → ¬ Clash pfx delim x y) :
    Apart subs (newName pfx delim) := by
  intro x y hx hy e
  rcases newName_eq_iff.1 e with e | e | e
  · exact e
  · exact absurd e (hc x y hx hy)
  · exact absurd e (hc y x hy hx)

theorem addSpace_none (ha : s.addSpace pfx sub delim none = (s', none)) :
    s.add (sub.renamedCall (newName pfx delim)).hps (sub.renamedCall (newName pfx delim)).conds
      (sub.renamedCall (newName pfx delim)).forbs = (s', none) := by
  unfold Space.addSpace at ha
  simp only at ha
  split at ha
  · cases ha
  · rename_i s1 he
    rw [he, ← ha]

/-- **C62.** The result of adding a space without a parent hyperparameter is the disjoint union: a configuration is
valid in it exactly if its old part is valid in the old space and its new part is valid in the added space. -/
theorem C62_disjoint_union (h : Reach calls s) (hs : Reach subs sub) (hp : PrintApart subs) (hone : OneMeaning subs)
    (hc : ∀ x y, Known subs x → Known subs y → ¬ Clash pfx delim x y)
    (ha : s.addSpace pfx sub delim none = (s', none)) :
    ∃ all, Reach all s' ∧ (∀ n, Known all n ↔ Known calls n ∨ ∃ m, Known subs m ∧ newName pfx delim m = n) ∧
      (∀ n m, Known calls n → Known subs m → n ≠ newName pfx delim m) ∧
      ∀ a, Valid all a ↔ Valid calls a ∧ Valid subs (a.part (newName pfx delim)) := by
  have hr := apart_of_no_clash hc
  have h' := Reach.snoc h (renamedCall_wf hs hp hr) (addSpace_none ha)
  have j := joined_of_add hs hp hone hr h'
  exact ⟨_, h', j.known, j.disj, j.valid h hs⟩

/-! ## Validation of vectors -/

theorem Joined.ownClauses (j : Joined calls subs all r) (h1 : OwnClauses calls) (h2 : OwnClauses subs) : OwnClauses all := by
  intro f hf x hx
  rcases (j.forbs f).1 hf with hf | ⟨g, hg, rfl⟩
  · exact (j.hps x).2 (.inl (h1 f hf x hx))
  · rw [rename_hps] at hx
    obtain ⟨y, hy, rfl⟩ := List.mem_map.1 hx
    exact (j.hps _).2 (.inr ⟨y, h2 g hg y hy, rfl⟩)

theorem rename_equiv (c : Cond) : ∀ d : Cond,
    (∀ l ∈ c.dlcs, ∀ m ∈ d.dlcs, r l.parent.name = r m.parent.name → l.parent.name = m.parent.name) →
    (c.rename r).equivOnParent (d.rename r) = true → c.equivOnParent d = true := by
  have conj : ∀ {cs ds : List Cond}, (∀ c ∈ cs, ∀ d : Cond,
      (∀ l ∈ c.dlcs, ∀ m ∈ d.dlcs, r l.parent.name = r m.parent.name → l.parent.name = m.parent.name) →
      (c.rename r).equivOnParent (d.rename r) = true → c.equivOnParent d = true) →
      (∀ l ∈ Cond.dlcsL cs, ∀ m ∈ Cond.dlcsL ds, r l.parent.name = r m.parent.name → l.parent.name = m.parent.name) →
      (decide ((Cond.renameL r cs).length = (Cond.renameL r ds).length) &&
        Cond.allEquiv (Cond.renameL r cs) (Cond.renameL r ds)) = true →
      (decide (cs.length = ds.length) && Cond.allEquiv cs ds) = true := by
    intro cs ds ih hi h
    rw [renameL_eq, renameL_eq, Bool.and_eq_true, decide_eq_true_eq, allEquiv_iff] at h
    rw [Bool.and_eq_true, decide_eq_true_eq, allEquiv_iff]
    refine ⟨by simpa using h.1, fun c hc => ?_⟩
    obtain ⟨d', hd', he⟩ := h.2 _ (List.mem_map.2 ⟨c, hc, rfl⟩)
    obtain ⟨d, hd, rfl⟩ := List.mem_map.1 hd'
    exact ⟨d, hd, ih c hc d (fun l hl m hm => hi l (mem_dlcsL.2 ⟨c, hc, hl⟩) m (mem_dlcsL.2 ⟨d, hd, hm⟩)) he⟩
  induction c using Cond.induct with
  | hl l =>
    intro d hi h
    cases d with
    | lit m =>
      simp only [Cond.rename, Cond.equivOnParent, Lit.equivOnParent, Bool.and_eq_true, decide_eq_true_eq] at h ⊢
      refine ⟨?_, h.2⟩
      have h1 := h.1
      have := hi l (by simp [Cond.dlcs]) m (by simp [Cond.dlcs])
      exact of_rename_hp_pyEq this h1
    | and ds => simp [Cond.rename, Cond.equivOnParent] at h
    | or ds => simp [Cond.rename, Cond.equivOnParent] at h
  | ha cs ih =>
    intro d hi h
    cases d with
    | lit m => simp [Cond.rename, Cond.equivOnParent] at h
    | and ds =>
      simp only [Cond.rename, Cond.equivOnParent, Cond.dlcs] at h hi ⊢
      exact conj ih hi h
    | or ds =>
      simp only [Cond.rename, Cond.equivOnParent, Cond.dlcs] at h hi ⊢
      exact conj ih hi h
  | ho cs ih =>
    intro d hi h
    cases d with
    | lit m => simp [Cond.rename, Cond.equivOnParent] at h
    | and ds =>
      simp only [Cond.rename, Cond.equivOnParent, Cond.dlcs] at h hi ⊢
      exact conj ih hi h
    | or ds =>
      simp only [Cond.rename, Cond.equivOnParent, Cond.dlcs] at h hi ⊢
      exact conj ih hi h

theorem exists_parent {c : Cond} (hw : c.wf = true) : ∃ p, p ∈ c.parents := by
  cases hp : c.parents with
  | nil => exact absurd hp (wf_parents_nil hw)
  | cons p ps => exact ⟨p, by simp⟩

theorem rename_parents (c : Cond) : (c.rename r).parents = c.parents.map r := by
  unfold Cond.parents
  rw [rename_dlcs, List.map_map, List.map_map]
  rfl

theorem Joined.separable (j : Joined calls subs all r) (h : Reach calls s) (hs : Reach subs sub)
    (h1 : Separable calls) (h2 : Separable subs) : Separable all := by
  have hk : ∀ c ∈ allConds calls, ∀ d ∈ allConds subs, c.equivOnParent (d.rename r) = true → False := by
    intro c hc d hd he
    obtain ⟨p, hp⟩ := exists_parent ((reach_wf h).2.1 c hc)
    have hp' := equiv_parents _ _ he p hp
    rw [rename_parents] at hp'
    obtain ⟨m, hm, e⟩ := List.mem_map.1 hp'
    exact j.disj p m ((reach_isNode h p).1 (cond_parents_known h hc hp))
      ((reach_isNode hs m).1 (cond_parents_known hs hd hm)) e.symm
  have hk' : ∀ c ∈ allConds calls, ∀ d ∈ allConds subs, (d.rename r).equivOnParent c = true → False := by
    intro c hc d hd he
    obtain ⟨m, hm⟩ := exists_parent ((reach_wf hs).2.1 d hd)
    have hp' := equiv_parents _ _ he (r m) (by rw [rename_parents]; exact List.mem_map.2 ⟨m, hm, rfl⟩)
    exact j.disj (r m) m ((reach_isNode h _).1 (cond_parents_known h hc hp'))
      ((reach_isNode hs m).1 (cond_parents_known hs hd hm)) rfl
  intro c hc d hd he a
  rcases j.conds c hc with hc1 | ⟨c, hc1, rfl⟩ <;> rcases j.conds d hd with hd1 | ⟨d, hd1, rfl⟩
  · exact h1 c hc1 d hd1 he a
  · exact (hk c hc1 d hd1 he).elim
  · exact (hk' d hd1 c hc1 he).elim
  · rw [rename_holds, rename_holds]
    refine h2 c hc1 d hd1 (rename_equiv c d ?_ he) _
    intro l hl m hm e
    exact j.apart _ _ (lit_names_known hs hc1 hl).2 (lit_names_known hs hd1 hm).2 e

/-- **C62.** Validation in the union: a vector is accepted exactly if its old part is accepted by the old space and its
new part by the added space. -/
theorem C62_check_union (h : Reach calls s) (hs : Reach subs sub) (hp : PrintApart subs)
    (hc : ∀ x y, Known subs x → Known subs y → ¬ Clash pfx delim x y)
    (hsep : Separable calls) (hseps : Separable subs) (hown : OwnClauses calls) (howns : OwnClauses subs)
    (ha : s.addSpace pfx sub delim none = (s', none)) {v u w : Vec} {a : Assign} (hv : Represents s' v a)
    (hu : Represents s u a) (hw : Represents sub w (a.part (newName pfx delim))) :
    s'.check v = none ↔ s.check u = none ∧ sub.check w = none := by
  have hr := apart_of_no_clash hc
  have h' := Reach.snoc h (renamedCall_wf hs hp hr) (addSpace_none ha)
  have j := joined_of_add hs hp hseps.oneMeaning hr h'
  rw [check_iff h' (j.separable h hs hsep hseps) (j.ownClauses hown howns) hv, check_iff h hsep hown hu,
    check_iff hs hseps howns hw, j.rootsSet h hs, j.activityOk, j.legalConditional h hs, j.notForbidden]
  constructor
  · rintro ⟨⟨a1, b1⟩, ⟨a2, b2⟩, ⟨a3, b3⟩, ⟨a4, b4⟩⟩
    exact ⟨⟨a1, a2, a3, a4⟩, ⟨b1, b2, b3, b4⟩⟩
  · rintro ⟨⟨a1, a2, a3, a4⟩, ⟨b1, b2, b3, b4⟩⟩
    exact ⟨⟨a1, b1⟩, ⟨a2, b2⟩, ⟨a3, b3⟩, ⟨a4, b4⟩⟩

/-! ## Which calls are accepted -/

theorem runAll_hps_taken : ∀ (hs : List HP) {g : Dag} {H : List HP} {C : List Cond} {F : List Forb}, HInv g H C F →
    (∀ h ∈ hs, h.wf = true) → ¬ ((H ++ hs).map HP.name).Nodup →
    ∃ g' n, runAll Dag.add g hs = (g', some (.alreadyExists n))
  | [], g, H, C, F, hi, _, hnd => by
    exfalso
    apply hnd
    rw [List.append_nil]
    have := (hi.hps.map HP.name).nodup_iff
    rw [← this, List.map_map]
    exact hi.ninv.nodup
  | h :: hs, g, H, C, F, hi, hw, hnd => by
    unfold runAll
    cases hf : findNode g.nodes h.name with
    | some x => exact ⟨g, h.name, by simp [Dag.add, hf]⟩
    | none =>
      have hn : ¬ IsNode g.nodes h.name := by
        intro hh
        obtain ⟨x, hx, e⟩ := List.mem_map.1 hh
        have := findNode_of_mem hi.ninv.nodup hx
        rw [e, hf] at this
        cases this
      obtain ⟨g1, h1⟩ := dag_add_ok hn
      obtain ⟨g', n, h2⟩ := runAll_hps_taken hs (hi.add (hw h (by simp)) h1) (fun x hx => hw x (by simp [hx]))
        (by simpa using hnd)
      exact ⟨g', n, by rw [h1]; exact h2⟩

/-- **C44.** If a new name is taken, by the old space or by another hyperparameter of the added space, the call
raises. -/
theorem C44_name_taken (h : Reach calls s) (hs : Reach subs sub) {parent : Option (HP × Val)}
    (ht : (∃ m, Known subs m ∧ Known calls (newName pfx delim m)) ∨
      ∃ x y, Known subs x ∧ Known subs y ∧ x ≠ y ∧ newName pfx delim x = newName pfx delim y) :
    ∃ n, (s.addSpace pfx sub delim parent).2 = some (.alreadyExists n) := by
  have hw := reach_wf hs
  have hnd : ¬ ((allHps calls ++ (sub.renamedCall (newName pfx delim)).hps).map HP.name).Nodup := by
    intro hnd
    rw [List.map_append, List.nodup_append] at hnd
    have hin : ∀ m, Known subs m → newName pfx delim m ∈ (sub.renamedCall (newName pfx delim)).hps.map HP.name := by
      rintro m ⟨y, hy, rfl⟩
      exact List.mem_map.2 ⟨_, List.mem_map.2 ⟨y, (hps_perm hs).mem_iff.2 hy, rfl⟩, rfl⟩
    rcases ht with ⟨m, hm, x, hx, e⟩ | ⟨x, y, hx, hy, hne, e⟩
    · exact hnd.2.2 _ (List.mem_map.2 ⟨x, hx, rfl⟩) _ (hin m hm) e
    · have h2 := hnd.2.1
      simp only [Space.renamedCall, List.map_map] at h2
      have h3 : (((sub.com.map Node.hp).map HP.name).map (newName pfx delim)).Nodup := by
        simpa [Function.comp_def, HP.rename] using h2
      have hm : ∀ z, Known subs z → z ∈ (sub.com.map Node.hp).map HP.name := by
        rintro z ⟨y, hy, rfl⟩
        exact List.mem_map.2 ⟨y, (hps_perm hs).mem_iff.2 hy, rfl⟩
      exact hne (List.inj_on_of_nodup_map h3 (hm x hx) (hm y hy) e)
  obtain ⟨g', n, hr⟩ := runAll_hps_taken (sub.renamedCall (newName pfx delim)).hps (sinv_of_reach h).hist (by
    intro x hx
    obtain ⟨y, hy, rfl⟩ := List.mem_map.1 hx
    exact rename_hp_wf (hw.1 y ((hps_perm hs).mem_iff.1 hy))) hnd
  refine ⟨n, ?_⟩
  have ha : (sub.renamedCall (newName pfx delim)).hps = (sub.renamedCall (newName pfx delim)).hps := rfl
  simp only [Space.addSpace, Space.add, Dag.addAll, hr]

theorem path_union {E F : Name → Name → Prop} {K M : Name → Prop} {r : Name → Name} {G : Name → Name → Prop}
    (hG : ∀ p n, G p n → E p n ∨ ∃ p' n', F p' n' ∧ r p' = p ∧ r n' = n)
    (hE : ∀ p n, E p n → K p ∧ K n) (hF : ∀ p n, F p n → M p ∧ M n) (hd : ∀ n m, K n → M m → n ≠ r m)
    (hr : ∀ x y, M x → M y → r x = r y → x = y) {p n : Name} (h : Path G p n) :
    (K p → Path E p n) ∧ ∀ m, M m → r m = p → ∃ m', r m' = n ∧ M m' ∧ Path F m m' := by
  induction h with
  | @edge p n e =>
    refine ⟨fun hp => ?_, ?_⟩
    · rcases hG _ _ e with e | ⟨p', n', e, e1, _⟩
      · exact .edge e
      · exact absurd e1.symm (hd p p' hp (hF _ _ e).1)
    · rintro m hm rfl
      rcases hG _ _ e with e0 | ⟨p', n', e0, e1, e2⟩
      · exact absurd rfl (hd _ m (hE _ _ e0).1 hm)
      · have := hr _ _ (hF _ _ e0).1 hm e1
        subst this
        exact ⟨n', e2, (hF _ _ e0).2, .edge e0⟩
  | @cons p q n e _ ih =>
    refine ⟨fun hp => ?_, ?_⟩
    · rcases hG _ _ e with e | ⟨p', n', e, e1, _⟩
      · exact .cons e (ih.1 (hE _ _ e).2)
      · exact absurd e1.symm (hd p p' hp (hF _ _ e).1)
    · rintro m hm rfl
      rcases hG _ _ e with e0 | ⟨p', n', e0, e1, e2⟩
      · exact absurd rfl (hd _ m (hE _ _ e0).1 hm)
      · have := hr _ _ (hF _ _ e0).1 hm e1
        subst this
        obtain ⟨m', h1, h2, h3⟩ := ih.2 n' (hF _ _ e0).2 e2
        exact ⟨m', h1, h2, .cons e0 h3⟩

/-- **C62.** If no new name is taken, the renamed contents of the added space fit: names, conditions and clauses are
accepted, and only the check of the default configuration can fail (`C58_fitting_call`). -/
theorem C62_fits (h : Reach calls s) (hs : Reach subs sub) (hp : PrintApart subs)
    (hc : ∀ x y, Known subs x → Known subs y → ¬ Clash pfx delim x y)
    (hd : ∀ m, Known subs m → ¬ Known calls (newName pfx delim m)) :
    (sub.renamedCall (newName pfx delim)).wf ∧ Fits calls (sub.renamedCall (newName pfx delim)) := by
  have hr := apart_of_no_clash hc
  have hkw := renamedCall_wf hs hp hr
  refine ⟨hkw, ?_⟩
  have hkn : ∀ m, Known subs m → Known (calls ++ [sub.renamedCall (newName pfx delim)]) (newName pfx delim m) := by
    rintro m ⟨y, hy, rfl⟩
    refine ⟨y.rename (newName pfx delim), ?_, rfl⟩
    rw [allHps_snoc, List.mem_append]
    exact .inr (List.mem_map.2 ⟨y, (hps_perm hs).mem_iff.2 hy, rfl⟩)
  have hcs : ∀ c ∈ (sub.renamedCall (newName pfx delim)).conds, ∃ d x, x ∈ sub.com ∧ x.cond = some d ∧
      d ∈ allConds subs ∧ childName d = some x.name ∧ d.rename (newName pfx delim) = c := by
    intro c hc
    simp only [Space.renamedCall] at hc
    rw [conditions_eq hs hp] at hc
    obtain ⟨d, hd, rfl⟩ := List.mem_map.1 hc
    obtain ⟨x, hx, e1, e2, e3⟩ := mem_nodeConds hs hd
    exact ⟨d, x, hx, e1, e2, e3, rfl⟩
  refine ⟨?_, ?_, ?_, ?_, ?_, ?_⟩
  · rw [allHps_snoc, List.map_append, List.nodup_append]
    refine ⟨((hps_perm h).map HP.name).nodup_iff.1 (hps_nodup h), ?_, ?_⟩
    · simp only [Space.renamedCall, List.map_map]
      have e : (sub.com.map (HP.name ∘ HP.rename (newName pfx delim) ∘ Node.hp)) =
          ((sub.com.map Node.hp).map HP.name).map (newName pfx delim) := by
        simp [Function.comp_def, HP.rename]
      rw [e]
      refine List.Nodup.map_on ?_ (hps_nodup hs)
      have hm : ∀ z ∈ (sub.com.map Node.hp).map HP.name, Known subs z := by
        intro z hz
        obtain ⟨y, hy, rfl⟩ := List.mem_map.1 hz
        exact ⟨y, (hps_perm hs).mem_iff.1 hy, rfl⟩
      intro x hx y hy e
      exact hr x y (hm x hx) (hm y hy) e
    · rintro n hn m hm e
      obtain ⟨x, hx, rfl⟩ := List.mem_map.1 hn
      obtain ⟨z, hz, rfl⟩ := List.mem_map.1 hm
      obtain ⟨y, hy, rfl⟩ := List.mem_map.1 hz
      exact hd y.name ⟨y, (hps_perm hs).mem_iff.1 hy, rfl⟩ ⟨x, hx, e⟩
  · intro c hc n hn
    obtain ⟨d, x, hx, e1, e2, e3, rfl⟩ := hcs c hc
    rw [rename_childName, e3] at hn
    cases hn
    exact hkn _ (known_of_child hs e2 e3)
  · intro c hc l hl
    obtain ⟨d, x, hx, e1, e2, e3, rfl⟩ := hcs c hc
    rw [rename_dlcs] at hl
    obtain ⟨m, hm, rfl⟩ := List.mem_map.1 hl
    exact hkn _ (lit_names_known hs e2 hm).2
  · intro c hc y hy e
    obtain ⟨d, x, hx, e1, e2, e3, rfl⟩ := hcs c hc
    rw [rename_childName, e3] at e
    rw [allConds_snoc, List.mem_append] at hy
    rcases hy with hy | hy
    · exact absurd (known_of_child h hy e) (hd _ (known_of_child hs e2 e3))
    · obtain ⟨d', x', hx', e1', e2', e3', rfl⟩ := hcs y hy
      rw [rename_childName, e3'] at e
      simp only [Option.map_some, Option.some.injEq] at e
      have := hr _ _ (known_of_child hs e2' e3') (known_of_child hs e2 e3) e
      have h1 := findNode_of_mem (reach_ninv hs).nodup hx
      have h2 := findNode_of_mem (reach_ninv hs).nodup hx'
      rw [this, h1] at h2
      cases h2
      rw [e1] at e1'
      cases e1'
      exact Cond.pyEq_refl _
  · intro n hpath
    have hE : ∀ p n, ParentOf calls p n → Known calls p ∧ Known calls n := by
      rintro p n ⟨c, hc, e, l, hl, rfl⟩
      exact ⟨(lit_names_known h hc hl).2, known_of_child h hc e⟩
    have hF : ∀ p n, ParentOf subs p n → Known subs p ∧ Known subs n := by
      rintro p n ⟨c, hc, e, l, hl, rfl⟩
      exact ⟨(lit_names_known hs hc hl).2, known_of_child hs hc e⟩
    have hG : ∀ p n, ParentOf (calls ++ [sub.renamedCall (newName pfx delim)]) p n → ParentOf calls p n ∨
        ∃ p' n', ParentOf subs p' n' ∧ newName pfx delim p' = p ∧ newName pfx delim n' = n := by
      rintro p n ⟨c, hc, e, l, hl, rfl⟩
      rw [allConds_snoc, List.mem_append] at hc
      rcases hc with hc | hc
      · exact .inl ⟨c, hc, e, l, hl, rfl⟩
      · obtain ⟨d, x, hx, e1, e2, e3, rfl⟩ := hcs c hc
        rw [rename_childName, e3] at e
        cases e
        rw [rename_dlcs] at hl
        obtain ⟨m, hm, rfl⟩ := List.mem_map.1 hl
        exact .inr ⟨m.parent.name, x.name, ⟨d, e2, e3, m, hm, rfl⟩, rfl, rfl⟩
    have hd' : ∀ n m, Known calls n → Known subs m → n ≠ newName pfx delim m := by
      rintro n m hn hm rfl
      exact hd m hm hn
    have key := path_union hG hE hF hd' hr hpath
    have ac : Acyclic (ParentOf calls) := by rw [← parentRel_iff]; exact (sinv_of_reach h).hist.acyclic
    have acs : Acyclic (ParentOf subs) := by rw [← parentRel_iff]; exact (sinv_of_reach hs).hist.acyclic
    have hn : Known calls n ∨ ∃ m, Known subs m ∧ newName pfx delim m = n := by
      cases hpath with
      | edge e =>
        rcases hG _ _ e with e | ⟨p', n', e, e1, _⟩
        · exact .inl (hE _ _ e).1
        · exact .inr ⟨p', (hF _ _ e).1, e1⟩
      | cons e _ =>
        rcases hG _ _ e with e | ⟨p', n', e, e1, _⟩
        · exact .inl (hE _ _ e).1
        · exact .inr ⟨p', (hF _ _ e).1, e1⟩
    rcases hn with hn | ⟨m, hm, rfl⟩
    · exact ac n (key.1 hn)
    · obtain ⟨m', e, hm', hpm⟩ := key.2 m hm rfl
      rw [hr m' m hm' hm e] at hpm
      exact acs m hpm
  · intro f hf n hn
    obtain ⟨g, hg, rfl⟩ := List.mem_map.1 hf
    rw [names_eq, rename_hps] at hn
    obtain ⟨x, hx, rfl⟩ := List.mem_map.1 hn
    obtain ⟨y, hy, rfl⟩ := List.mem_map.1 hx
    exact hkn _ ((reach_isNode hs _).1 (forb_known hs ((mem_forbs hs g).1 hg) hy))

/-! ## The parent hyperparameter -/

/-- A condition that holds has a parent that is set, unless it uses `!=`. -/
theorem holds_set {b : Assign} {c : Cond} (hw : c.wf0 = true) (hne : ∀ l ∈ c.dlcs, ¬ IsNotEquals l) (hh : Holds b c) :
    ∃ l ∈ c.dlcs, ∃ q, b l.parent.name = some q := by
  induction c using Cond.induct with
  | hl l =>
    refine ⟨l, by simp [Cond.dlcs], ?_⟩
    cases hh with
    | lit hh =>
      obtain ⟨ch, p, t⟩ := l
      cases t with
      | bin op v x =>
        cases op with
        | eq => exact ⟨_, hh⟩
        | ne => exact absurd ⟨v, x, rfl⟩ (hne ⟨ch, p, .bin .ne v x⟩ (by simp [Cond.dlcs]))
        | lt => obtain ⟨q, hq, _⟩ := hh; exact ⟨q, hq⟩
        | gt => obtain ⟨q, hq, _⟩ := hh; exact ⟨q, hq⟩
      | isIn vs xs => obtain ⟨q, _, hq⟩ := hh; exact ⟨q, hq⟩
  | ha cs ih =>
    simp only [Cond.wf0, Bool.and_eq_true, decide_eq_true_eq] at hw
    cases hh with
    | and hh =>
      cases cs with
      | nil => simp at hw
      | cons c cs =>
        obtain ⟨l, hl, hq⟩ := ih c (by simp) (wf0L_iff.1 hw.2 c (by simp))
          (fun l hl => hne l (by rw [Cond.dlcs]; exact mem_dlcsL.2 ⟨c, by simp, hl⟩)) (hh c (by simp))
        exact ⟨l, by rw [Cond.dlcs]; exact mem_dlcsL.2 ⟨c, by simp, hl⟩, hq⟩
  | ho cs ih =>
    simp only [Cond.wf0, Bool.and_eq_true, decide_eq_true_eq] at hw
    cases hh with
    | @or _ c hm hh =>
      obtain ⟨l, hl, hq⟩ := ih c hm (wf0L_iff.1 hw.2 c hm)
        (fun l hl => hne l (by rw [Cond.dlcs]; exact mem_dlcsL.2 ⟨c, hm, hl⟩)) hh
      exact ⟨l, by rw [Cond.dlcs]; exact mem_dlcsL.2 ⟨c, hm, hl⟩, hq⟩

theorem forbids_set {b : Assign} {f : Forb} (hh : Forbids b f) : ∀ x ∈ clauseHps f, ∃ q, b x.name = some q := by
  induction f using Forb.induct with
  | he h w x =>
    cases hh with
    | eq h1 => simpa [clauseHps] using ⟨_, h1⟩
  | hi h ws xs =>
    cases hh with
    | isIn h1 h2 => simpa [clauseHps] using ⟨_, h1⟩
  | hr op x y =>
    cases hh with
    | rel h1 h2 _ _ _ => simpa [clauseHps] using ⟨⟨_, h1⟩, ⟨_, h2⟩⟩
  | ha fs ih =>
    intro x hx
    cases hh with
    | and hh =>
      obtain ⟨f, hf, hx⟩ := mem_clauseHpsL.1 (by simpa [clauseHps] using hx)
      exact ih f hf (hh f hf) x hx

theorem all_unset (hs : Reach subs sub) (hne : NoNotEquals subs) {b : Assign} (hact : ActivityOk subs b)
    (hroots : ∀ m, Known subs m → ¬ Conditional subs m → b m = none) : ∀ m, Known subs m → b m = none := by
  have key : ∀ k, ∀ m, depthOf sub.com m < k → Known subs m → b m = none := by
    intro k
    induction k with
    | zero => intro m hm; exact absurd hm (Nat.not_lt_zero _)
    | succ k ih =>
      intro m hmk hm
      by_cases hc : Conditional subs m
      · obtain ⟨c, hc, e⟩ := hc
        cases hb : b m with
        | none => rfl
        | some q =>
          exfalso
          have hh := (hact c hc m e).1 ⟨q, hb⟩
          have hw := (reach_wf hs).2.1 c hc
          simp only [Cond.wf, Bool.and_eq_true] at hw
          obtain ⟨l, hl, q', hq'⟩ := holds_set hw.1 (hne c hc) hh
          have hedge := (reach_edge hs l.parent.name m).2 ⟨c, hc, e, l, hl, rfl⟩
          have hlt := (reach_ninv hs).good _ _ hedge
          rw [ih l.parent.name (by omega) (lit_names_known hs hc hl).2] at hq'
          cases hq'
      · exact hroots m hm hc
  intro m hm
  exact key _ m (Nat.lt_succ_self _) hm

/-- The roots of the committed space, by `parents_of`. -/
theorem isRoot_iff (h : Reach calls s) {n : Name} (hn : Known calls n) : s.isRoot n = true ↔ ¬ Conditional calls n := by
  have hi := reach_ninv h
  obtain ⟨x, hx, rfl⟩ := List.mem_map.1 ((reach_isNode h n).2 hn)
  unfold Space.isRoot
  rw [findNode_of_mem hi.nodup hx]
  simp only [List.isEmpty_iff]
  constructor
  · rintro he ⟨c, hc, e⟩
    obtain ⟨y, hy, hyn, d, hd⟩ := node_of_child h hc e
    have : y = x := by
      have h1 := findNode_of_mem hi.nodup hx
      have h2 := findNode_of_mem hi.nodup hy
      rw [hyn, h1] at h2
      exact (Option.some.inj h2).symm
    subst this
    obtain ⟨hd1, _, _⟩ := node_cond h hx hd
    obtain ⟨p, hp⟩ := exists_parent ((reach_wf h).2.1 d hd1)
    have := (hi.parent y.name p d).2 ⟨by simp [condAt, findNode_of_mem hi.nodup hx, hd], hp⟩
    simp [parentAt, findNode_of_mem hi.nodup hx, he] at this
  · intro hc
    cases hp : x.parents with
    | nil => rfl
    | cons kv l =>
      exfalso
      have h1 : parentAt s.com x.name kv.1 = some kv.2 := by
        simp [parentAt, findNode_of_mem hi.nodup hx, hp, List.lookup]
      have h2 := ((hi.parent _ _ _).1 h1).1
      simp only [condAt, findNode_of_mem hi.nodup hx, Option.bind_some] at h2
      obtain ⟨hd1, hd2, _⟩ := node_cond h hx h2
      exact hc ⟨_, hd1, hd2⟩

theorem guards_ok {hps : List HP} {p : HP} {v : Val} {cs : List Cond} (hpw : p.wf = true) (hhw : ∀ h ∈ hps, h.wf = true)
    (hg : guards s hps p v = .ok cs) :
    (∀ c ∈ cs, c.wf = true ∧ ∃ h ∈ hps, s.isRoot h.name = true ∧ ∃ x, p.kind.toVec v = some x ∧
      c = .lit ⟨h, p, .bin .eq v x⟩) ∧
    ∀ h ∈ hps, s.isRoot h.name = true → ∃ x, p.kind.toVec v = some x ∧ Cond.lit ⟨h, p, .bin .eq v x⟩ ∈ cs := by
  unfold guards at hg
  obtain ⟨h1, h2⟩ := mapExcept_on hg
  have key : ∀ (h : HP) (c : Cond), h.wf = true → (match mkBin .eq h p v with
      | .error e => .error e
      | .ok l => .ok (Cond.lit l)) = Except.ok (ε := Err) c → c.wf = true ∧ ∃ x, p.kind.toVec v = some x ∧
        c = .lit ⟨h, p, .bin .eq v x⟩ := by
    intro h c hhw e
    split at e
    · cases e
    · rename_i l hl
      cases e
      unfold mkBin at hl
      split at hl
      · cases hl
      · rename_i hne
        simp only [show (BOp.eq == BOp.lt || BOp.eq == BOp.gt) = false from rfl, Bool.false_and, Bool.false_eq_true,
          if_false] at hl
        split at hl
        · cases hl
        · rename_i hleg
          split at hl
          · cases hl
          · rename_i x hx
            cases hl
            refine ⟨?_, x, hx, rfl⟩
            simp [Cond.wf, Cond.wf0, Cond.dlcs, Lit.wf, hne, hx, hpw, hhw, sameChild]
            simpa using hleg
  constructor
  · intro c hc
    obtain ⟨h, hh, e⟩ := h1 c hc
    obtain ⟨hh1, hh2⟩ := List.mem_filter.1 hh
    obtain ⟨e1, x, e2, e3⟩ := key h c (hhw h hh1) e
    exact ⟨e1, h, hh1, hh2, x, e2, e3⟩
  · intro h hh hr
    obtain ⟨c, hc, e⟩ := h2 h (List.mem_filter.2 ⟨hh, hr⟩)
    obtain ⟨_, x, e2, e3⟩ := key h c (hhw h hh) e
    exact ⟨x, e2, e3 ▸ hc⟩

/-- The stages of a call with a parent hyperparameter. -/
theorem addSpace_some {p : HP} {v : Val} (h : Reach calls s) (hpw : p.wf = true)
    (hk : (sub.renamedCall (newName pfx delim)).wf)
    (ha : s.addSpace pfx sub delim (some (p, v)) = (s', none)) :
    ∃ s1 cs all, Reach (calls ++ [sub.renamedCall (newName pfx delim)]) s1 ∧
      guards s1 (sub.renamedCall (newName pfx delim)).hps p v = .ok cs ∧ Reach all s' ∧
      allHps all = allHps (calls ++ [sub.renamedCall (newName pfx delim)]) ∧
      allConds all = allConds (calls ++ [sub.renamedCall (newName pfx delim)]) ++ cs ∧
      allForbs all = allForbs (calls ++ [sub.renamedCall (newName pfx delim)]) := by
  unfold Space.addSpace at ha
  simp only at ha
  split at ha
  · cases ha
  · rename_i s1 he
    have h1 := Reach.snoc h hk he
    split at ha
    · cases ha
    · rename_i cs hg
      split at ha
      · rename_i hcs
        cases ha
        refine ⟨_, cs, _, h1, hg, h1, rfl, ?_, rfl⟩
        simp [List.isEmpty_iff.1 hcs]
      · refine ⟨_, cs, _, h1, hg, Reach.snoc (c := ⟨[], cs, []⟩) h1 ⟨by simp, fun c hc => ((guards_ok hpw hk.1 hg).1 c hc).1, by simp⟩ ha,
          ?_, ?_, ?_⟩
        · rw [allHps_snoc (calls ++ _)]; simp
        · rw [allConds_snoc (calls ++ _)]
        · rw [allForbs_snoc (calls ++ _)]; simp

/-- **C44.** With a parent hyperparameter and a value: in a valid configuration of the result, if the parent has the
value, the new part is a valid configuration of the added space, and otherwise every added hyperparameter is unset.
Missing: added spaces with `!=` conditions (`C44_not_equals_escapes`) and with clauses that mention no
hyperparameter. -/
theorem C44_guarded_partial (h : Reach calls s) (hs : Reach subs sub) (hp : PrintApart subs) (hone : OneMeaning subs)
    (hc : ∀ x y, Known subs x → Known subs y → ¬ Clash pfx delim x y)
    (hne : NoNotEquals subs) (hvac : NoVacuousClause subs) {p : HP} {v : Val} {x : ℚ} (hpw : p.wf = true)
    (hx : p.kind.toVec v = some x) (ha : s.addSpace pfx sub delim (some (p, v)) = (s', none)) :
    ∃ all, Reach all s' ∧ (∀ n, Known all n ↔ Known calls n ∨ ∃ m, Known subs m ∧ newName pfx delim m = n) ∧
      ∀ a, Valid all a ↔ Valid calls a ∧
        ((a p.name = some x ∧ Valid subs (a.part (newName pfx delim))) ∨
         (a p.name ≠ some x ∧ ∀ m, Known subs m → a (newName pfx delim m) = none)) := by
  have hr := apart_of_no_clash hc
  have hk := renamedCall_wf hs hp hr
  obtain ⟨s1, cs, all, h1, hg, hall, e1, e2, e3⟩ := addSpace_some h hpw hk ha
  have j := joined_of_add hs hp hone hr h1
  obtain ⟨g1, g2⟩ := guards_ok hpw hk.1 hg
  have hkn : ∀ n, Known all n ↔ Known (calls ++ [sub.renamedCall (newName pfx delim)]) n := by
    intro n; unfold Known; rw [e1]
  refine ⟨all, hall, fun n => (hkn n).trans (j.known n), fun a => ?_⟩
  generalize hrr : newName pfx delim = r at *
  -- the guards, by name
  have gin : ∀ c ∈ cs, ∃ m, Known subs m ∧ ¬ Conditional subs m ∧ childName c = some (r m) ∧
      ∀ a : Assign, Holds a c ↔ a p.name = some x := by
    intro c hc
    obtain ⟨_, k, hk1, hk2, x', hx', rfl⟩ := g1 c hc
    rw [hx] at hx'
    cases hx'
    obtain ⟨y, hy, rfl⟩ := List.mem_map.1 hk1
    have hm : Known subs y.name := ⟨y, (hps_perm hs).mem_iff.1 hy, rfl⟩
    refine ⟨y.name, hm, ?_, rfl, ?_⟩
    · intro hcon
      exact (isRoot_iff h1 ((j.known _).2 (.inr ⟨_, hm, rfl⟩))).1 hk2 ((j.conditional_new h hs hm).2 hcon)
    · intro a
      constructor
      · rintro ⟨hh⟩; exact hh
      · intro hh; exact .lit hh
  have gout : ∀ m, Known subs m → ¬ Conditional subs m → ∃ c ∈ cs, childName c = some (r m) := by
    rintro m ⟨y, hy, rfl⟩ hcon
    obtain ⟨x', _, hmem⟩ := g2 (y.rename r) (List.mem_map.2 ⟨y, (hps_perm hs).mem_iff.2 hy, rfl⟩) (by
      refine (isRoot_iff h1 ((j.known _).2 (.inr ⟨y.name, ⟨y, hy, rfl⟩, rfl⟩))).2 ?_
      intro hh
      exact hcon ((j.conditional_new h hs ⟨y, hy, rfl⟩).1 hh))
    exact ⟨_, hmem, rfl⟩
  have hroots : RootsSet all a ↔ RootsSet calls a := by
    constructor
    · intro hh n hn hcn
      refine hh n ((hkn n).2 ((j.known n).2 (.inl hn))) ?_
      rintro ⟨c, hc', e⟩
      rw [e2, List.mem_append] at hc'
      rcases hc' with hc' | hc'
      · exact hcn ((j.conditional_old hs hn).1 ⟨c, hc', e⟩)
      · obtain ⟨m, hm, _, e', _⟩ := gin c hc'
        rw [e] at e'
        exact j.disj n m hn hm (Option.some.inj e')
    · intro hh n hn hcn
      have hcon : ∀ n, Conditional (calls ++ [sub.renamedCall r]) n → Conditional all n := by
        rintro n ⟨c, hc', e⟩
        exact ⟨c, by rw [e2, List.mem_append]; exact .inl hc', e⟩
      rcases (j.known n).1 ((hkn n).1 hn) with hn' | ⟨m, hm, rfl⟩
      · exact hh n hn' fun h2 => hcn (hcon n ((j.conditional_old hs hn').2 h2))
      · exfalso
        by_cases hm' : Conditional subs m
        · exact hcn (hcon _ ((j.conditional_new h hs hm).2 hm'))
        · obtain ⟨c, hc', e⟩ := gout m hm hm'
          exact hcn ⟨c, by rw [e2, List.mem_append]; exact .inr hc', e⟩
  have hact : ActivityOk all a ↔ ActivityOk calls a ∧ ActivityOk subs (a.part r) ∧
      ∀ m, Known subs m → ¬ Conditional subs m → ((∃ q, a (r m) = some q) ↔ a p.name = some x) := by
    rw [← and_assoc, ← j.activityOk]
    constructor
    · intro hh
      refine ⟨fun c hc' n hn => hh c (by rw [e2, List.mem_append]; exact .inl hc') n hn, ?_⟩
      intro m hm hcon
      obtain ⟨c, hc', e⟩ := gout m hm hcon
      obtain ⟨_, _, _, _, hi⟩ := gin c hc'
      rw [← hi a]
      exact hh c (by rw [e2, List.mem_append]; exact .inr hc') _ e
    · rintro ⟨hh1, hh2⟩ c hc' n hn
      rw [e2, List.mem_append] at hc'
      rcases hc' with hc' | hc'
      · exact hh1 c hc' n hn
      · obtain ⟨m, hm, hcon, e, hi⟩ := gin c hc'
        rw [hn] at e
        cases e
        rw [hi a]
        exact hh2 m hm hcon
  have hleg : LegalAll all a ↔ LegalAll calls a ∧ LegalAll subs (a.part r) := by
    rw [← j.legalAll]; unfold LegalAll; rw [e1]
  have hforb : NotForbidden all a ↔ NotForbidden calls a ∧ NotForbidden subs (a.part r) := by
    rw [← j.notForbidden]; unfold NotForbidden; rw [e3]
  constructor
  · rintro ⟨v1, v2, v3, v4⟩
    rw [hroots] at v1
    rw [hact] at v2
    rw [hleg] at v3
    rw [hforb] at v4
    refine ⟨⟨v1, v2.1, v3.1, v4.1⟩, ?_⟩
    by_cases hax : a p.name = some x
    · exact .inl ⟨hax, fun m hm hcon => (v2.2.2 m hm hcon).2 hax, v2.2.1, v3.2, v4.2⟩
    · refine .inr ⟨hax, all_unset hs hne v2.2.1 fun m hm hcon => ?_⟩
      show a (r m) = none
      cases hq : a (r m) with
      | none => rfl
      | some q => exact absurd ((v2.2.2 m hm hcon).1 ⟨q, hq⟩) hax
  · rintro ⟨⟨v1, v2, v3, v4⟩, hh⟩
    rcases hh with ⟨hax, w1, w2, w3, w4⟩ | ⟨hax, hun⟩
    · exact ⟨hroots.2 v1, hact.2 ⟨v2, w2, fun m hm hcon => ⟨fun _ => hax, fun _ => w1 m hm hcon⟩⟩, hleg.2 ⟨v3, w3⟩,
        hforb.2 ⟨v4, w4⟩⟩
    · refine ⟨hroots.2 v1, hact.2 ⟨v2, ?_, ?_⟩, hleg.2 ⟨v3, ?_⟩, hforb.2 ⟨v4, ?_⟩⟩
      · intro c hc' m hm
        have e : Assign.part r a m = none := hun m (known_of_child hs hc' hm)
        constructor
        · rintro ⟨q, hq⟩; rw [e] at hq; cases hq
        · intro hh
          exfalso
          have hw := (reach_wf hs).2.1 c hc'
          simp only [Cond.wf, Bool.and_eq_true] at hw
          obtain ⟨l, hl, q, hq⟩ := holds_set hw.1 (hne c hc') hh
          have : Assign.part r a l.parent.name = none := hun _ (lit_names_known hs hc' hl).2
          rw [this] at hq
          cases hq
      · intro m hm hcon
        rw [hun m hm]
        simp [hax]
      · intro y hy q hq
        have : Assign.part r a y.name = none := hun _ ⟨y, hy, rfl⟩
        rw [this] at hq
        cases hq
      · intro f hf hh
        obtain ⟨y, hy⟩ := List.exists_mem_of_ne_nil _ (hvac f hf)
        obtain ⟨q, hq⟩ := forbids_set hh y hy
        have : Assign.part r a y.name = none := hun _ ((reach_isNode hs _).1 (forb_known hs hf hy))
        rw [this] at hq
        cases hq

/-! ## Concrete cases -/

namespace ExU
open Ex

/-- The receiving space: one categorical. -/
def callM : Call := ⟨[hpAlg], [], []⟩
def spM : Space := committed {} callM
theorem reachM : Reach [callM] spM := Reach.snoc (calls := []) .nil (by decide +kernel)
  (add_of_stages [("alg", some (.str "a"))] [some 0] [("alg", .str "a")] (by decide +kernel) (by decide +kernel)
    (by decide +kernel) (by decide +kernel) (by decide +kernel) (by decide +kernel))

/-- The added space: `k`, `x | k > 2`, and the clause `k == 5`. -/
def callS : Call := ⟨[hpK, hpX], [.lit litX], [.eq hpK (.int 5) (4/9)]⟩
def spS : Space := committed {} callS
theorem reachS : Reach [callS] spS := Reach.snoc (calls := []) .nil (by decide +kernel)
  (add_of_stages [("k", some (.int 3)), ("x", some (.flt 1))] [some (2/9), some (1/2)] [("k", .int 3), ("x", .flt 1)]
    (by decide +kernel) (by decide +kernel) (by decide +kernel) (by decide +kernel) (by decide +kernel)
    (by decide +kernel))

def callR : Call := spS.renamedCall (newName "p" ":")
def spU : Space := committed spM callR
theorem addU : spM.addSpace "p" spS = (spU, none) := by
  have := add_of_stages (s := spM) (c := callR) [("alg", some (.str "a")), ("p:k", some (.int 3)), ("p:x", some (.flt 1))]
    [some 0, some (2/9), some (1/2)] [("alg", .str "a"), ("p:k", .int 3), ("p:x", .flt 1)]
    (by decide +kernel) (by decide +kernel) (by decide +kernel) (by decide +kernel) (by decide +kernel)
    (by decide +kernel)
  unfold Space.addSpace
  simp only [show spS.renamedCall (newName "p" ":") = callR from rfl]
  rw [this]
  rfl

def callUG : Call := ⟨[], [.lit ⟨hpK.rename (newName "p" ":"), hpAlg, .bin .eq (.str "a") 0⟩], []⟩
def spUG : Space := committed spU callUG
theorem addUG : spM.addSpace "p" spS ":" (some (hpAlg, .str "a")) = (spUG, none) := by
  have h1 := add_of_stages (s := spM) (c := callR) [("alg", some (.str "a")), ("p:k", some (.int 3)), ("p:x", some (.flt 1))]
    [some 0, some (2/9), some (1/2)] [("alg", .str "a"), ("p:k", .int 3), ("p:x", .flt 1)]
    (by decide +kernel) (by decide +kernel) (by decide +kernel) (by decide +kernel) (by decide +kernel)
    (by decide +kernel)
  have h2 := add_of_stages (s := spU) (c := callUG) [("alg", some (.str "a")), ("p:k", some (.int 3)), ("p:x", some (.flt 1))]
    [some 0, some (2/9), some (1/2)] [("alg", .str "a"), ("p:k", .int 3), ("p:x", .flt 1)]
    (by decide +kernel) (by decide +kernel) (by decide +kernel) (by decide +kernel) (by decide +kernel)
    (by decide +kernel)
  unfold Space.addSpace
  simp only [show spS.renamedCall (newName "p" ":") = callR from rfl]
  rw [h1]
  simp only
  rw [show guards (committed spM callR) callR.hps hpAlg (.str "a") = .ok callUG.conds from by
    unfold guards
    rw [show callR.hps.filter (fun h => (committed spM callR).isRoot h.name) = [hpK.rename (newName "p" ":")] from by
      decide +kernel]
    rfl]
  simp only
  rw [if_neg (by decide +kernel)]
  exact h2

theorem apartS : PrintApart [callS] := by
  intro c hc d hd _
  simp only [allConds, List.flatMap_cons, List.flatMap_nil, List.append_nil, callS, List.mem_cons, List.not_mem_nil,
    or_false] at hc hd
  rw [hc, hd]

theorem clashS : ∀ x y, Known [callS] x → Known [callS] y → ¬ Clash "p" ":" x y := by
  have : ∀ h ∈ callS.hps, ∀ k ∈ callS.hps, ¬ (h.name = "" ∧ k.name = "p") ∧ k.name ≠ "p" ++ ":" ++ h.name := by
    decide +kernel
  rintro _ _ ⟨h, hh, rfl⟩ ⟨k, hk, rfl⟩ hc
  obtain ⟨h1, h2⟩ := this h (by simpa [allHps] using hh) k (by simpa [allHps] using hk)
  rcases hc with hc | hc
  · exact h1 hc
  · exact h2 hc.1

theorem noNeS : NoNotEquals [callS] := by
  intro c hc l hl
  simp only [allConds, List.flatMap_cons, List.flatMap_nil, List.append_nil, callS, List.mem_cons, List.not_mem_nil,
    or_false] at hc
  subst hc
  simp only [Cond.dlcs, List.mem_cons, List.not_mem_nil, or_false] at hl
  subst hl
  rintro ⟨w, x, e⟩
  cases e

theorem noVacS : NoVacuousClause [callS] := by
  intro f hf
  simp only [allForbs, List.flatMap_cons, List.flatMap_nil, List.append_nil, callS, List.mem_cons, List.not_mem_nil,
    or_false] at hf
  subst hf
  simp [clauseHps]

theorem sepS : Separable [callS] := by
  intro c hc d hd _ a
  simp only [allConds, List.flatMap_cons, List.flatMap_nil, List.append_nil, callS, List.mem_cons, List.not_mem_nil,
    or_false] at hc hd
  rw [hc, hd]

theorem sepM : Separable [callM] := by
  intro c hc
  simp [allConds, callM] at hc

theorem ownM : OwnClauses [callM] := by
  intro c hc
  simp [allForbs, callM] at hc

theorem ownS : OwnClauses [callS] := by
  intro f hf h hh
  simp only [allForbs, List.flatMap_cons, List.flatMap_nil, List.append_nil, callS, List.mem_cons, List.not_mem_nil,
    or_false] at hf
  subst hf
  revert h
  decide +kernel

end ExU

theorem represents_map {v : Vec} {a : Assign} (h1 : v = s.names.map a) (h2 : v.length = s.len) : Represents s v a := by
  refine ⟨h2, fun i n hi => ?_⟩
  unfold At at hi
  simp [Vec.at, h1, hi]

/-- The hypotheses of `C62_disjoint_union` are met. -/
example := C62_disjoint_union ExU.reachM ExU.reachS ExU.apartS ExU.sepS.oneMeaning ExU.clashS ExU.addU
/-- The hypotheses of `C62_check_union` are met: here by a vector that is accepted. -/
example : ExU.spU.check [some 1, some (3/9), some 0] = none ↔
    ExU.spM.check [some 1] = none ∧ ExU.spS.check [some (3/9), some 0] = none :=
  C62_check_union ExU.reachM ExU.reachS ExU.apartS ExU.clashS ExU.sepM ExU.sepS ExU.ownM ExU.ownS ExU.addU
    (a := fun n => if n = "alg" then some 1 else if n = "p:k" then some (3/9) else if n = "p:x" then some 0 else none)
    (represents_map (by decide +kernel) (by decide +kernel)) (represents_map (by decide +kernel) (by decide +kernel))
    (represents_map (by decide +kernel) (by decide +kernel))
example : ExU.spU.check [some 1, some (3/9), some 0] = none := by decide +kernel
/-- ... and by a vector that a renamed clause forbids. -/
example : ExU.spU.check [some 1, some (4/9), some 0] = some .forbidden := by decide +kernel
/-- The hypotheses of `C44_guarded_partial` are met. -/
example := C44_guarded_partial (x := 0) ExU.reachM ExU.reachS ExU.apartS ExU.sepS.oneMeaning ExU.clashS ExU.noNeS ExU.noVacS
  (by decide +kernel) (by decide +kernel) ExU.addUG
example : ExU.spUG.check [some 0, some (3/9), some 0] = none := by decide +kernel
example : ExU.spUG.check [some 1, none, none] = none := by decide +kernel
example : ExU.spUG.check [some 1, some (3/9), some 0] ≠ none := by decide +kernel
/-- The hypotheses of `C62_fits` are met. -/
example := C62_fits (pfx := "p") (delim := ":") ExU.reachM ExU.reachS ExU.apartS ExU.clashS (by
  rintro _ ⟨h, hh, rfl⟩ ⟨k, hk, e⟩
  have : ∀ h ∈ ExU.callS.hps, ∀ k ∈ ExU.callM.hps, k.name ≠ newName "p" ":" h.name := by decide +kernel
  exact this h (by simpa [allHps] using hh) k (by simpa [allHps] using hk) e)

namespace ExU
open Ex

/-- Two hyperparameters that get the same name under the prefix `p`. -/
def callT : Call := ⟨[⟨"a", .int 0 9, .int 0⟩, ⟨"p:a", .int 0 9, .int 0⟩], [], []⟩
def spT : Space := committed {} callT
theorem reachT : Reach [callT] spT := Reach.snoc (calls := []) .nil (by decide +kernel)
  (add_of_stages [("a", some (.int 0)), ("p:a", some (.int 0))] [some 0, some 0] [("a", .int 0), ("p:a", .int 0)]
    (by decide +kernel) (by decide +kernel) (by decide +kernel) (by decide +kernel) (by decide +kernel)
    (by decide +kernel))

end ExU

/-- **C44, false of the code.** The renaming is not injective: a space with the names `a` and `p:a` cannot be added
under the prefix `p`. -/
theorem C44_not_injective : ∃ (calls subs : List Call) (s sub : Space), Reach calls s ∧ Reach subs sub ∧
    sub.names = ["a", "p:a"] ∧ ∃ n, (s.addSpace "p" sub).2 = some (.alreadyExists n) :=
  ⟨[ExU.callM], [ExU.callT], ExU.spM, ExU.spT, ExU.reachM, ExU.reachT, by decide +kernel, C44_name_taken ExU.reachM ExU.reachT (.inr ⟨"a", "p:a", ⟨⟨"a", .int 0 9, .int 0⟩, by decide +kernel, rfl⟩,
    ⟨⟨"p:a", .int 0 9, .int 0⟩, by decide +kernel, rfl⟩, by decide, by decide +kernel⟩)⟩

namespace ExU
open Ex

/-- `x | k != 5`. -/
def callD : Call := ⟨[hpK, hpX], [.lit ⟨hpX, hpK, .bin .ne (.int 5) (4/9)⟩], []⟩
def spD : Space := committed {} callD
theorem reachD : Reach [callD] spD := Reach.snoc (calls := []) .nil (by decide +kernel)
  (add_of_stages [("k", some (.int 3)), ("x", some (.flt 1))] [some (2/9), some (1/2)] [("k", .int 3), ("x", .flt 1)]
    (by decide +kernel) (by decide +kernel) (by decide +kernel) (by decide +kernel) (by decide +kernel)
    (by decide +kernel))
def callDR : Call := spD.renamedCall (newName "p" ":")
def spDU : Space := committed spM callDR
def spDV : Space := committed spDU callUG
theorem addDV : spM.addSpace "p" spD ":" (some (hpAlg, .str "a")) = (spDV, none) := by
  have h1 := add_of_stages (s := spM) (c := callDR) [("alg", some (.str "a")), ("p:k", some (.int 3)), ("p:x", some (.flt 1))]
    [some 0, some (2/9), some (1/2)] [("alg", .str "a"), ("p:k", .int 3), ("p:x", .flt 1)]
    (by decide +kernel) (by decide +kernel) (by decide +kernel) (by decide +kernel) (by decide +kernel)
    (by decide +kernel)
  have h2 := add_of_stages (s := spDU) (c := callUG) [("alg", some (.str "a")), ("p:k", some (.int 3)), ("p:x", some (.flt 1))]
    [some 0, some (2/9), some (1/2)] [("alg", .str "a"), ("p:k", .int 3), ("p:x", .flt 1)]
    (by decide +kernel) (by decide +kernel) (by decide +kernel) (by decide +kernel) (by decide +kernel)
    (by decide +kernel)
  unfold Space.addSpace
  simp only [show spD.renamedCall (newName "p" ":") = callDR from rfl]
  rw [h1]
  simp only
  rw [show guards (committed spM callDR) callDR.hps hpAlg (.str "a") = .ok callUG.conds from by
    unfold guards
    rw [show callDR.hps.filter (fun h => (committed spM callDR).isRoot h.name) = [hpK.rename (newName "p" ":")] from by
      decide +kernel]
    rfl]
  simp only
  rw [if_neg (by decide +kernel)]
  exact h2

end ExU

/-- **C44, false of the code.** A conditional hyperparameter of the added space escapes the parent hyperparameter if
its condition is `!=`: here the parent does not have the value, and yet `p:x` must have one. -/
theorem C44_not_equals_escapes : ∃ (calls subs : List Call) (s sub s' : Space), Reach calls s ∧ Reach subs sub ∧
    s.addSpace "p" sub ":" (some (Ex.hpAlg, .str "a")) = (s', none) ∧ Ex.hpAlg.kind.toVec (.str "a") = some 0 ∧
    s'.names = ["alg", "p:k", "p:x"] ∧ s'.check [some 1, none, some (1/2)] = none ∧
    s'.check [some 1, none, none] ≠ none :=
  ⟨[ExU.callM], [ExU.callD], ExU.spM, ExU.spD, ExU.spDV, ExU.reachM, ExU.reachD, ExU.addDV, by decide +kernel,
    by decide +kernel, by decide +kernel, by decide +kernel⟩

end Verif
