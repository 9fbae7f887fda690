import Verif.Lemmas.Caught
import Mathlib.Data.List.Induction

/-!
# A condition that was entered in part, until it is added again
-/

set_option autoImplicit false

namespace Verif
open Spec

namespace Retry
open Caught

/-- The history invariant, except that the condition `c` of `ch` may have been entered in part. -/
structure Pend (g : Dag) (H : List HP) (C : List Cond) (F : List Forb) (ch : Name) (c : Cond) : Prop where
  dinv : DInv g.nodes
  child : ∀ p x d, x ≠ ch → (childAt g.nodes p x = some d ↔ condAt g.nodes x = some d ∧ p ∈ d.parents)
  parent : ∀ x p d, x ≠ ch → (parentAt g.nodes x p = some d ↔ condAt g.nodes x = some d ∧ p ∈ d.parents)
  childCh : ∀ p d, childAt g.nodes p ch = some d → condAt g.nodes ch = some c ∧ p ∈ c.parents
  parentCh : ∀ p d, parentAt g.nodes ch p = some d → condAt g.nodes ch = some c ∧ p ∈ c.parents
  cond : ∀ x d, x ≠ ch → condAt g.nodes x = some d →
    d.wf = true ∧ (d.child?.map HP.name = some x) ∧ ∀ p ∈ d.parents, IsNode g.nodes p
  hpwf : ∀ n h, hpAt g.nodes n = some h → h.wf = true
  hps : (g.nodes.map Node.hp).Perm H
  hist : ∀ n, n ≠ ch → condAt g.nodes n = lastCond C n
  free : ∀ x ∈ C, x.child?.map HP.name ≠ some ch
  same : ∀ x ∈ C, ∀ h, x.child? = some h → ∀ d, condAt g.nodes h.name = some d → d.pyEq x = true
  forbs : (g.uncond ++ g.condF).Perm F
  forbNames : ∀ f ∈ F, ∀ n ∈ f.names, IsNode g.nodes n
  forbWf : ∀ f ∈ F, f.wf = true

/-- The loop over the parents that stops at an unknown parent has entered those before it. -/
theorem loop_prefix {ch : Name} {c : Cond} : ∀ (ps : List Name) {ns ns' : Nodes} {p : Name},
    addCondLoop ns ch c ps = (ns', some (.parentNotFound p)) →
    p ∈ ps ∧ ∃ pre, (∀ q ∈ pre, q ∈ ps) ∧ addCondLoop ns ch c pre = (ns', none) ∧ p ∉ namesOf ns'
  | [], ns, ns', p, h => by simp [addCondLoop] at h
  | q :: ps, ns, ns', p, h => by
    unfold addCondLoop at h
    cases h1 : addCondParent ns ch c q with
    | mk ns1 e =>
      rw [h1] at h
      cases e with
      | some e =>
        simp only [Prod.mk.injEq, Option.some.injEq] at h
        obtain ⟨rfl, rfl⟩ := h
        have hq : ns1 = ns ∧ q = p ∧ findNode ns q = none := by
          unfold addCondParent at h1
          cases hf : findNode ns q with
          | none =>
            simp only [hf, Prod.mk.injEq, Option.some.injEq, Err.parentNotFound.injEq] at h1
            exact ⟨h1.1.symm, h1.2, rfl⟩
          | some pn =>
            simp only [hf] at h1
            split at h1
            · simp at h1
            · split at h1 <;> simp at h1
        obtain ⟨rfl, rfl, hf⟩ := hq
        exact ⟨by simp, [], by simp, rfl, findNode_none.1 hf⟩
      | none =>
        dsimp only at h
        obtain ⟨k1, pre, k2, k3, k4⟩ := loop_prefix ps h
        refine ⟨by simp [k1], q :: pre, ?_, ?_, k4⟩
        · intro x hx
          rcases List.mem_cons.1 hx with rfl | hx
          · simp
          · simp [k2 x hx]
        · unfold addCondLoop
          rw [h1]
          exact k3

theorem addCond_unknown {ns ns' : Nodes} {c : Cond} {p : Name} (h : addCondNodes ns c = (ns', some (.parentNotFound p))) :
    p ∈ c.parents ∧ ∃ chp, c.child? = some chp ∧ IsNode ns chp.name ∧ (∀ e, condAt ns chp.name = some e → c.pyEq e = true) ∧
      ∃ pre, (∀ q ∈ pre, q ∈ c.parents) ∧ addCondLoop ns chp.name c pre = (ns', none) ∧ p ∉ namesOf ns' := by
  unfold addCondNodes at h
  cases hchild : c.child? with
  | none => simp [hchild] at h
  | some chp =>
    simp only [hchild] at h
    cases hf : findNode ns chp.name with
    | none => simp [hf] at h
    | some cn =>
      simp only [hf] at h
      split at h
      · simp at h
      · rename_i hamb
        obtain ⟨k1, pre, k2, k3, k4⟩ := loop_prefix _ h
        refine ⟨k1, chp, rfl, mem_namesOf_of_find hf, ?_, pre, k2, k3, k4⟩
        intro e he
        have hcn : condAt ns chp.name = cn.cond := by simp [condAt, hf]
        rw [hcn] at he
        simpa [he] using hamb

theorem lastCond_none {C : List Cond} {n : Name} : lastCond C n = none ↔ ∀ x ∈ C, x.child?.map HP.name ≠ some n := by
  unfold lastCond
  rw [List.getLast?_eq_none_iff, List.filter_eq_nil_iff]
  simp

/-- A condition rejected for an unknown parent is pending. -/
theorem pend_of_unknown {g g' : Dag} {H : List HP} {C : List Cond} {F : List Forb} {c : Cond} {p : Name} (hi : HInv g H C F)
    (h : g.addCondition c = (g', some (.parentNotFound p))) :
    p ∈ c.parents ∧ ∃ chp, c.child? = some chp ∧ Pend g' H C F chp.name c := by
  simp only [Dag.addCondition, Prod.mk.injEq] at h
  obtain ⟨rfl, h2⟩ := h
  obtain ⟨hp, chp, hchp, hch, hpy, pre, hpre, hloop, hno⟩ := addCond_unknown (ns' := (addCondNodes g.nodes c).1) (Prod.ext rfl h2)
  refine ⟨hp, chp, hchp, ?_⟩
  generalize (addCondNodes g.nodes c).1 = ns' at hloop hno ⊢
  obtain ⟨k1, k2, k3, k4, k5, k6, k7⟩ := addCondLoop_ok pre hi.ninv.toDInv hch hloop
  have hnone : condAt g.nodes chp.name = none := by
    cases hd : condAt g.nodes chp.name with
    | none => rfl
    | some d =>
      have := (hi.ninv.cond _ d hd).2.2 p ((pyEq_parents c d (hpy d hd) p).1 hp)
      rw [k2] at hno
      exact absurd this hno
  have hV : IsNode ns' = IsNode g.nodes := by funext n; simp only [IsNode, k2]
  have hc : ∀ n, n ≠ chp.name → condAt ns' n = condAt g.nodes n := by
    intro n hn; rw [k5]; simp [hn]
  refine ⟨k1, ?_, ?_, ?_, ?_, ?_, ?_, ?_, ?_, ?_, ?_, hi.forbs, ?_, hi.forbWf⟩
  · intro q x d hx
    dsimp only
    rw [k6, hc x hx, if_neg (fun hh => hx hh.2)]
    exact hi.ninv.child q x d
  · intro x q d hx
    dsimp only
    rw [k7, hc x hx, if_neg (fun hh => hx hh.1)]
    exact hi.ninv.parent x q d
  · intro q d hd
    dsimp only at hd ⊢
    rw [k6] at hd
    by_cases hq : q ∈ pre
    · refine ⟨?_, hpre q hq⟩
      rw [k5, if_pos ⟨rfl, by intro h0; simp [h0] at hq⟩]
    · rw [if_neg (fun hh => hq hh.1), hi.ninv.child, hnone] at hd
      simp at hd
  · intro q d hd
    dsimp only at hd ⊢
    rw [k7] at hd
    by_cases hq : q ∈ pre
    · refine ⟨?_, hpre q hq⟩
      rw [k5, if_pos ⟨rfl, by intro h0; simp [h0] at hq⟩]
    · rw [if_neg (fun hh => hq hh.2), hi.ninv.parent, hnone] at hd
      simp at hd
  · intro x d hx hd
    dsimp only at hd ⊢
    rw [hc x hx] at hd
    rw [hV]
    exact hi.ninv.cond x d hd
  · intro n hh he
    dsimp only at he
    rw [k3] at he
    exact hi.ninv.hpwf n hh he
  · dsimp only
    rw [map_hp_eq k1.nodup, k2, show hpAt ns' = hpAt g.nodes from funext k3, ← map_hp_eq hi.ninv.nodup]
    exact hi.hps
  · intro n hn
    dsimp only
    rw [hc n hn]
    exact hi.cond n
  · rw [← lastCond_none, ← hi.cond]
    exact hnone
  · intro x hx hh hxh d hd
    dsimp only at hd
    have hne : hh.name ≠ chp.name := by
      intro e
      have h3 := hi.cond hh.name
      rw [e, hnone] at h3
      have := lastCond_none.1 h3.symm x hx
      rw [hxh] at this
      simp [e] at this
    rw [hc _ hne] at hd
    exact hi.same x hx hh hxh d hd
  · intro f hf n hn
    dsimp only
    rw [hV]
    exact hi.forbNames f hf n hn

theorem Pend.add {g g' : Dag} {H : List HP} {C : List Cond} {F : List Forb} {ch : Name} {c : Cond} {h : HP}
    (hi : Pend g H C F ch c) (hw : h.wf = true) (hr : g.add h = (g', none)) : Pend g' (H ++ [h]) C F ch c := by
  unfold Dag.add at hr
  cases hnew : findNode g.nodes h.name with
  | some x => simp [hnew] at hr
  | none =>
    simp only [hnew, Prod.mk.injEq, and_true] at hr
    subst hr
    change Pend { g with nodes := g.nodes ++ [newNode h], roots := g.roots ++ [h.name] } _ _ _ _ _
    generalize hns : g.nodes = ns at *
    have hname : (newNode h).name = h.name := rfl
    have hf := findNode_append ns (newNode h)
    rw [hname] at hf
    have hnames : namesOf (ns ++ [newNode h]) = namesOf ns ++ [h.name] := by
      simp [namesOf, hname]
    have hnot : h.name ∉ namesOf ns := findNode_none.1 hnew
    have hcond : ∀ n, condAt (ns ++ [newNode h]) n = condAt ns n := by
      intro n
      unfold condAt
      rw [hf]
      by_cases hn : h.name = n
      · subst hn; simp [hnew, newNode]
      · simp [hn]
    have hhp : ∀ n, hpAt (ns ++ [newNode h]) n = if n = h.name then some h else hpAt ns n := by
      intro n
      unfold hpAt
      rw [hf]
      by_cases hn : n = h.name
      · subst hn; simp [hnew, newNode]
      · have hn' : ¬ h.name = n := fun e => hn e.symm
        simp [hn, hn']
    have hchild : ∀ p ch, childAt (ns ++ [newNode h]) p ch = childAt ns p ch := by
      intro p ch
      unfold childAt
      rw [hf]
      by_cases hn : h.name = p
      · subst hn; simp [hnew, newNode]
      · simp [hn]
    have hparent : ∀ p ch, parentAt (ns ++ [newNode h]) p ch = parentAt ns p ch := by
      intro p ch
      unfold parentAt
      rw [hf]
      by_cases hn : h.name = p
      · subst hn; simp [hnew, newNode]
      · simp [hn]
    have hE : Edge (ns ++ [newNode h]) = Edge ns := by
      funext p c; simp only [edge_iff_childAt, hchild]
    have hV : ∀ n, IsNode (ns ++ [newNode h]) n ↔ IsNode ns n ∨ n = h.name := by
      intro n; simp [IsNode, hnames]
    have hdep : ∀ n, depthOf (ns ++ [newNode h]) n = if n = h.name then 1 else depthOf ns n := by
      intro n
      unfold depthOf
      rw [hf]
      by_cases hn : n = h.name
      · subst hn; simp [hnew, newNode]
      · have hn' : ¬ h.name = n := fun e => hn e.symm
        simp [hn, hn']
    obtain ⟨i1, i2, i3, i4, i5, i6, i7, i8, i9, i10, i11, i12, i13, i14⟩ := hi
    rw [hns] at i1 i2 i3 i4 i5 i6 i7 i8 i9 i11 i13
    refine ⟨⟨?_, ?_, ?_, ?_, ?_⟩, ?_, ?_, ?_, ?_, ?_, ?_, ?_, ?_, i10, ?_, i12, ?_, i14⟩ <;> dsimp only
    · rw [hnames, List.nodup_append]
      refine ⟨i1.nodup, by simp, ?_⟩
      intro a ha b hb
      simp at hb
      subst hb
      exact fun e => hnot (e ▸ ha)
    · intro x hx
      rcases List.mem_append.1 hx with hx | hx
      · exact i1.keys x hx
      · simp at hx; subst hx; simp [newNode]
    · rw [hE]
      intro p c he
      have := i1.edges p c he
      exact ⟨(hV p).2 (.inl this.1), (hV c).2 (.inl this.2)⟩
    · intro p c he
      rw [hE] at he
      have hpc := i1.edges p c he
      have h1 : p ≠ h.name := fun e => hnot (e ▸ hpc.1)
      have h2 : c ≠ h.name := fun e => hnot (e ▸ hpc.2)
      rw [hdep, hdep, if_neg h1, if_neg h2]
      exact i1.good p c he
    · intro n hn
      rw [hE, hdep]
      by_cases he : n = h.name
      · rw [if_pos he]
        exact .one hn
      · rw [if_neg he]
        have hn' : IsNode ns n := ((hV n).1 hn).resolve_right he
        exact (i1.chain n hn').mono (fun a ha => (hV a).2 (.inl ha)) (fun _ _ h => h)
    · intro p x d hx; rw [hchild, hcond]; exact i2 p x d hx
    · intro p x d hx; rw [hparent, hcond]; exact i3 p x d hx
    · intro p d; rw [hchild, hcond]; exact i4 p d
    · intro p d; rw [hparent, hcond]; exact i5 p d
    · intro x d hx hd
      rw [hcond] at hd
      have := i6 x d hx hd
      exact ⟨this.1, this.2.1, fun p hp => (hV p).2 (.inl (this.2.2 p hp))⟩
    · intro n k hk
      rw [hhp] at hk
      by_cases he : n = h.name
      · rw [if_pos he] at hk; cases hk; exact hw
      · rw [if_neg he] at hk; exact i7 n k hk
    · simp only [List.map_append, List.map_cons, List.map_nil]
      exact i8.append_right _
    · intro n hn; rw [hcond]; exact i9 n hn
    · intro x hx y hy d hd; rw [hcond] at hd; exact i11 x hx y hy d hd
    · intro f hf n hn; exact (hV n).2 (.inl (i13 f hf n hn))

theorem Pend.addForbidden {g g' : Dag} {H : List HP} {C : List Cond} {F : List Forb} {ch : Name} {c : Cond} {f : Forb}
    (hi : Pend g H C F ch c) (hw : f.wf = true) (hr : g.addForbidden f = (g', none)) : Pend g' H C (F ++ [f]) ch c := by
  unfold Dag.addForbidden at hr
  cases hm : firstMissing g.nodes f.names with
  | some n => simp [hm] at hr
  | none =>
    have hall := firstMissing_none hm
    simp only [hm] at hr
    have hnames : ∀ x ∈ F ++ [f], ∀ n ∈ x.names, IsNode g.nodes n := by
      intro x hx n hn
      rcases List.mem_append.1 hx with hx | hx
      · exact hi.forbNames x hx n hn
      · simp at hx; subst hx; exact hall n hn
    have hwf : ∀ x ∈ F ++ [f], x.wf = true := by
      intro x hx
      rcases List.mem_append.1 hx with hx | hx
      · exact hi.forbWf x hx
      · simp at hx; subst hx; exact hw
    have key : ∀ u v, (u ++ v).Perm (F ++ [f]) → Pend { g with uncond := u, condF := v } H C (F ++ [f]) ch c :=
      fun u v hp => ⟨hi.dinv, hi.child, hi.parent, hi.childCh, hi.parentCh, hi.cond, hi.hpwf, hi.hps, hi.hist, hi.free, hi.same, hp,
        hnames, hwf⟩
    split at hr
    · simp only [Prod.mk.injEq, and_true] at hr
      subst hr
      apply key
      have h1 : (g.uncond ++ [f] ++ g.condF).Perm (g.uncond ++ g.condF ++ [f]) := by
        rw [List.append_assoc, List.append_assoc]
        exact List.Perm.append_left _ List.perm_append_comm
      exact h1.trans (hi.forbs.append_right _)
    · simp only [Prod.mk.injEq, and_true] at hr
      subst hr
      apply key
      rw [← List.append_assoc]
      exact hi.forbs.append_right _

/-- A condition for another child leaves the other one pending; a condition for the child itself completes it. -/
theorem Pend.addCondition {g g' : Dag} {H : List HP} {C : List Cond} {F : List Forb} {ch : Name} {c x : Cond}
    (hi : Pend g H C F ch c) (hw : x.wf = true) (hr : g.addCondition x = (g', none)) :
    HInv g' H (C ++ [x]) F ∨ Pend g' H (C ++ [x]) F ch c := by
  simp only [Dag.addCondition, Prod.mk.injEq] at hr
  obtain ⟨rfl, h2⟩ := hr
  generalize hns : (addCondNodes g.nodes x).1 = ns' at *
  have h : addCondNodes g.nodes x = (ns', none) := Prod.ext hns h2
  unfold addCondNodes at h
  cases hchild : x.child? with
  | none => simp [hchild] at h
  | some chp =>
    simp only [hchild] at h
    cases hf : findNode g.nodes chp.name with
    | none => simp [hf] at h
    | some cn =>
      simp only [hf] at h
      split at h
      · simp at h
      rename_i hamb
      have hch : IsNode g.nodes chp.name := mem_namesOf_of_find hf
      have hpy : ∀ e, condAt g.nodes chp.name = some e → x.pyEq e = true := by
        intro e he
        have hcn : condAt g.nodes chp.name = cn.cond := by simp [condAt, hf]
        rw [hcn] at he
        simpa [he] using hamb
      obtain ⟨k1, k2, k3, k4, k5, k6, k7⟩ := addCondLoop_ok x.parents hi.dinv hch h
      have hne := wf_parents_ne hw
      have k5' : ∀ n, condAt ns' n = if n = chp.name then some x else condAt g.nodes n := by
        intro n; rw [k5]; simp [hne]
      have hV : IsNode ns' = IsNode g.nodes := by funext n; simp only [IsNode, k2]
      have hhps : (ns'.map Node.hp).Perm H := by
        rw [map_hp_eq k1.nodup, k2, show hpAt ns' = hpAt g.nodes from funext k3, ← map_hp_eq hi.dinv.nodup]
        exact hi.hps
      have hhpwf : ∀ n h, hpAt ns' n = some h → h.wf = true := by
        intro n hh he
        rw [k3] at he
        exact hi.hpwf n hh he
      have hfn : ∀ f ∈ F, ∀ n ∈ f.names, IsNode ns' n := by rw [hV]; exact hi.forbNames
      -- conditions recorded for a child are equal to the one stored
      have hsame : ∀ d ∈ C ++ [x], ∀ y, d.child? = some y → ∀ e, condAt ns' y.name = some e → e.pyEq d = true := by
        intro d hd y hy e he
        rw [k5'] at he
        rcases List.mem_append.1 hd with hd | hd
        · by_cases e1 : y.name = chp.name
          · rw [if_pos e1] at he
            cases he
            have hn : y.name ≠ ch := fun e => hi.free d hd (by rw [hy]; simp [e])
            have hst : ∃ d', condAt g.nodes y.name = some d' := by
              rw [hi.hist _ hn]
              cases hl : lastCond C y.name with
              | some z => exact ⟨z, rfl⟩
              | none => exact absurd (by rw [hy]; rfl) (lastCond_none.1 hl d hd)
            obtain ⟨d', hd'⟩ := hst
            have hs := hi.same d hd y hy d' hd'
            rw [e1] at hd'
            exact Cond.pyEq_trans (hpy d' hd') hs
          · rw [if_neg e1] at he
            exact hi.same d hd y hy e he
        · simp at hd
          subst hd
          rw [hchild] at hy
          cases hy
          simp at he
          subst he
          exact Cond.pyEq_refl _
      by_cases hc : chp.name = ch
      · left
        subst hc
        refine ⟨⟨k1, ?_, ?_, ?_, hhpwf⟩, hhps, ?_, hsame, hi.forbs, hfn, hi.forbWf⟩ <;> dsimp only
        · intro p y d
          rw [k6, k5']
          by_cases hy : y = chp.name
          · subst hy
            by_cases hp : p ∈ x.parents
            · simp only [hp, and_true, if_true]
              constructor
              · intro h; cases h; exact ⟨rfl, hp⟩
              · exact fun h => h.1
            · simp only [hp, false_and, if_false, if_true]
              constructor
              · intro h
                obtain ⟨h1, h2⟩ := hi.childCh p d h
                exact absurd ((pyEq_parents x c (hpy c h1) p).2 h2) hp
              · rintro ⟨h1, h2⟩; cases h1; exact absurd h2 hp
          · simp only [hy, and_false, if_false]
            exact hi.child p y d hy
        · intro y p d
          rw [k7, k5']
          by_cases hy : y = chp.name
          · subst hy
            by_cases hp : p ∈ x.parents
            · simp only [hp, and_true, if_true]
              constructor
              · intro h; cases h; exact ⟨rfl, hp⟩
              · exact fun h => h.1
            · simp only [hp, and_false, if_false, if_true]
              constructor
              · intro h
                obtain ⟨h1, h2⟩ := hi.parentCh p d h
                exact absurd ((pyEq_parents x c (hpy c h1) p).2 h2) hp
              · rintro ⟨h1, h2⟩; cases h1; exact absurd h2 hp
          · simp only [hy, false_and, if_false]
            exact hi.parent y p d hy
        · intro y d hd
          rw [k5'] at hd
          rw [hV]
          by_cases hy : y = chp.name
          · rw [if_pos hy] at hd
            cases hd
            exact ⟨hw, by rw [hchild, hy]; rfl, k4⟩
          · rw [if_neg hy] at hd
            exact hi.cond y d hy hd
        · intro n
          rw [lastCond_append, k5', hchild]
          simp only [Option.map_some, Option.some.injEq]
          by_cases e : n = chp.name
          · simp [e]
          · rw [if_neg e, if_neg (fun h => e h.symm)]
            exact hi.hist n e
      · right
        have hcc : condAt ns' ch = condAt g.nodes ch := by rw [k5', if_neg (fun e => hc e.symm)]
        refine ⟨k1, ?_, ?_, ?_, ?_, ?_, hhpwf, hhps, ?_, ?_, hsame, hi.forbs, hfn, hi.forbWf⟩ <;> try dsimp only
        · intro p y d hyc
          rw [k6, k5']
          by_cases hy : y = chp.name
          · subst hy
            by_cases hp : p ∈ x.parents
            · simp only [hp, and_true, if_true]
              constructor
              · intro h; cases h; exact ⟨rfl, hp⟩
              · exact fun h => h.1
            · simp only [hp, false_and, if_false, if_true]
              constructor
              · intro h
                obtain ⟨h1, h2⟩ := (hi.child p _ d hyc).1 h
                exact absurd ((pyEq_parents x d (hpy d h1) p).2 h2) hp
              · rintro ⟨h1, h2⟩; cases h1; exact absurd h2 hp
          · simp only [hy, and_false, if_false]
            exact hi.child p y d hyc
        · intro y p d hyc
          rw [k7, k5']
          by_cases hy : y = chp.name
          · subst hy
            by_cases hp : p ∈ x.parents
            · simp only [hp, and_true, if_true]
              constructor
              · intro h; cases h; exact ⟨rfl, hp⟩
              · exact fun h => h.1
            · simp only [hp, and_false, if_false, if_true]
              constructor
              · intro h
                obtain ⟨h1, h2⟩ := (hi.parent _ p d hyc).1 h
                exact absurd ((pyEq_parents x d (hpy d h1) p).2 h2) hp
              · rintro ⟨h1, h2⟩; cases h1; exact absurd h2 hp
          · simp only [hy, false_and, if_false]
            exact hi.parent y p d hyc
        · intro p d hd
          rw [k6, if_neg (fun h => hc h.2.symm)] at hd
          rw [hcc]
          exact hi.childCh p d hd
        · intro p d hd
          rw [k7, if_neg (fun h => hc h.1.symm)] at hd
          rw [hcc]
          exact hi.parentCh p d hd
        · intro y d hyc hd
          rw [k5'] at hd
          rw [hV]
          by_cases hy : y = chp.name
          · rw [if_pos hy] at hd
            cases hd
            exact ⟨hw, by rw [hchild, hy]; rfl, k4⟩
          · rw [if_neg hy] at hd
            exact hi.cond y d hyc hd
        · intro n hn
          rw [lastCond_append, k5', hchild]
          simp only [Option.map_some, Option.some.injEq]
          by_cases e : n = chp.name
          · simp [e]
          · rw [if_neg e, if_neg (fun h => e h.symm)]
            exact hi.hist n hn
        · intro y hy
          rcases List.mem_append.1 hy with hy | hy
          · exact hi.free y hy
          · simp at hy
            subst hy
            rw [hchild]
            simpa using hc

/-- Complete, or pending. -/
def Either (g : Dag) (H : List HP) (C : List Cond) (F : List Forb) (ch : Name) (c : Cond) : Prop :=
  HInv g H C F ∨ Pend g H C F ch c

theorem Either.addAll {g g' : Dag} {H : List HP} {C : List Cond} {F : List Forb} {ch : Name} {c : Cond} {k : Call}
    (hi : Either g H C F ch c) (hw : k.wf) (hr : g.addAll k.hps k.conds k.forbs = (g', none)) :
    Either g' (H ++ k.hps) (C ++ k.conds) (F ++ k.forbs) ch c := by
  unfold Dag.addAll at hr
  cases h1 : runAll Dag.add g k.hps with
  | mk g1 e1 =>
    rw [h1] at hr
    cases e1 with
    | some e => simp at hr
    | none =>
      simp only at hr
      have k1 : Either g1 (H ++ k.hps) C F ch c :=
        runAll_inv (P := fun g xs => Either g (H ++ xs) C F ch c) (Q := fun h => h.wf = true)
          (fun g g' xs x hP hQ h => by
            rw [← List.append_assoc]
            exact hP.imp (fun hP => hP.add hQ h) (fun hP => hP.add hQ h)) k.hps g g1 [] (by simpa using hi) hw.1 h1
      cases h2 : runAll Dag.addCondition g1 k.conds with
      | mk g2 e2 =>
        rw [h2] at hr
        cases e2 with
        | some e => simp at hr
        | none =>
          simp only at hr
          have k2 : Either g2 (H ++ k.hps) (C ++ k.conds) F ch c :=
            runAll_inv (P := fun g xs => Either g (H ++ k.hps) (C ++ xs) F ch c) (Q := fun h => h.wf = true)
              (fun g g' xs x hP hQ h => by
                rw [← List.append_assoc]
                rcases hP with hP | hP
                · exact .inl (hP.addCondition hQ h)
                · exact hP.addCondition hQ h) k.conds g1 g2 [] (by simpa using k1) hw.2.1 h2
          exact runAll_inv (P := fun g xs => Either g (H ++ k.hps) (C ++ k.conds) (F ++ xs) ch c) (Q := fun h => h.wf = true)
              (fun g g' xs x hP hQ h => by
                rw [← List.append_assoc]
                exact hP.imp (fun hP => hP.addForbidden hQ h) (fun hP => hP.addForbidden hQ h)) k.forbs g2 g' []
              (by simpa using k2) hw.2.2 hr

theorem dinv_perm {ns ns' : Nodes} (hp : ns'.Perm ns) (hi : DInv ns) : DInv ns' := by
  have hf := findNode_perm hp hi.nodup
  have h3 : ∀ p c, childAt ns' p c = childAt ns p c := fun n _ => by simp [childAt, hf]
  have h5 : ∀ n, depthOf ns' n = depthOf ns n := fun n => by simp [depthOf, hf]
  have hE : Edge ns' = Edge ns := by funext p c; simp only [edge_iff_childAt, h3]
  have hV : IsNode ns' = IsNode ns := by
    funext n
    exact propext (hp.map Node.name).mem_iff
  refine ⟨(hp.map Node.name).nodup_iff.2 hi.nodup, fun x hx => hi.keys x (hp.mem_iff.1 hx), ?_, ?_, ?_⟩
  · rw [hE, hV]; exact hi.edges
  · intro p c; rw [hE, h5, h5]; exact hi.good p c
  · intro n; rw [hE, hV, h5]; exact hi.chain n

theorem Pend.commit {s : Space} {g : Dag} {H : List HP} {C : List Cond} {F : List Forb} {ch : Name} {c : Cond}
    (hi : Pend g H C F ch c) : Pend (s.commit g).1.dag H C F ch c := by
  have hp : (sortNodes g.nodes).Perm g.nodes := sortBy_perm _ _
  have hf := findNode_perm hp hi.dinv.nodup
  have h1 : ∀ n, condAt (sortNodes g.nodes) n = condAt g.nodes n := fun n => by simp [condAt, hf]
  have h2 : ∀ n, hpAt (sortNodes g.nodes) n = hpAt g.nodes n := fun n => by simp [hpAt, hf]
  have h3 : ∀ p c, childAt (sortNodes g.nodes) p c = childAt g.nodes p c := fun n _ => by simp [childAt, hf]
  have h4 : ∀ p c, parentAt (sortNodes g.nodes) p c = parentAt g.nodes p c := fun n _ => by simp [parentAt, hf]
  have hV : IsNode (sortNodes g.nodes) = IsNode g.nodes := by
    funext n
    exact propext (hp.map Node.name).mem_iff
  have key : Pend (Dag.mk (sortNodes g.nodes) (rootNames (sortNodes g.nodes))
      ((sortForbs (g.uncond ++ g.condF)).filter (isUncondForb (rootNames (sortNodes g.nodes))))
      ((sortForbs (g.uncond ++ g.condF)).filter (fun f => !isUncondForb (rootNames (sortNodes g.nodes)) f))) H C F ch c := by
    refine ⟨dinv_perm hp hi.dinv, ?_, ?_, ?_, ?_, ?_, ?_, (hp.map Node.hp).trans hi.hps, ?_, hi.free, ?_, ?_, ?_, hi.forbWf⟩ <;>
      dsimp only
    · intro p x d hx; rw [h3, h1]; exact hi.child p x d hx
    · intro p x d hx; rw [h4, h1]; exact hi.parent p x d hx
    · intro p d; rw [h3, h1]; exact hi.childCh p d
    · intro p d; rw [h4, h1]; exact hi.parentCh p d
    · intro x d hx; rw [h1, hV]; exact hi.cond x d hx
    · intro n k; rw [h2]; exact hi.hpwf n k
    · intro n hn; rw [h1]; exact hi.hist n hn
    · intro x hx y hy d hd; rw [h1] at hd; exact hi.same x hx y hy d hd
    · have h1 := List.filter_append_perm (isUncondForb (rootNames (sortNodes g.nodes)))
        (sortForbs (g.uncond ++ g.condF))
      exact (h1.trans (sortBy_perm _ _)).trans hi.forbs
    · rw [hV]; exact hi.forbNames
  unfold Space.commit
  dsimp only
  split <;> exact key

/-- A successful call on a space in which a condition may be pending. -/
theorem either_add {s s' : Space} {ks : List Call} {ch : Name} {c : Cond} {k : Call}
    (hi : Either s.dag (allHps ks) (allConds ks) (allForbs ks) ch c) (hk : k.wf)
    (h : s.add k.hps k.conds k.forbs = (s', none)) :
    Either s'.dag (allHps (ks ++ [k])) (allConds (ks ++ [k])) (allForbs (ks ++ [k])) ch c ∧
      ((∃ x ∈ allConds (ks ++ [k]), x.child?.map HP.name = some ch) →
        Pre s' (allHps (ks ++ [k])) (allConds (ks ++ [k])) (allForbs (ks ++ [k])) ∧
          s'.lookup = changeLookup s'.com s'.minConds ∧ ∃ c, s'.defaultConfig = .ok c) := by
  unfold Space.add at h
  cases h4 : s.dag.addAll k.hps k.conds k.forbs with
  | mk g e =>
    rw [h4] at h
    cases e with
    | some e => simp at h
    | none =>
      dsimp only at h
      have hi1 := hi.addAll hk h4
      rw [← allHps_snoc, ← allConds_snoc, ← allForbs_snoc] at hi1
      have hc : Either (s.commit g).1.dag (allHps (ks ++ [k])) (allConds (ks ++ [k])) (allForbs (ks ++ [k])) ch c :=
        hi1.imp commit_hist Pend.commit
      cases h5 : s.commit g with
      | mk s1 e1 =>
        rw [h5] at h hc
        cases e1 with
        | some e => simp at h
        | none =>
          dsimp only at h
          split at h
          · simp at h
          · rename_i cfg hdef
            simp only [Prod.mk.injEq, and_true] at h
            subst h
            refine ⟨hc, ?_⟩
            rintro ⟨x, hx, hxc⟩
            rcases hi1 with hi1 | hi1
            · obtain ⟨m1, m2, m3, m4, m5, m6, m7, m8, m9⟩ := commit_ok hi1 h5
              refine ⟨⟨m1, m2, ?_, m4, ?_, m7, m8⟩, m9, cfg, hdef⟩
              · simp only [m3]
                exact sortBy_pairwise
                  (le := fun a b : Node => keyLe (a.depth, a.name) (b.depth, b.name))
                  (fun a b => keyLe_total _ _) (fun a b c => keyLe_trans _ _ _) _
              · simp only [m2]
            · exact absurd hxc (hi1.free x hx)

/-- A call that was rejected for an unknown parent. -/
theorem add_unknown {kept : List Call} {s s' : Space} {k : Call} {p : Name}
    (hi : HInv s.dag (allHps kept) (allConds kept) (allForbs kept)) (hk : k.wf)
    (h : s.add k.hps k.conds k.forbs = (s', some (.parentNotFound p))) :
    ∃ n, Longest kept k n ∧ ∃ c ∈ k.conds, p ∈ c.parents ∧ ∃ chp, c.child? = some chp ∧
      Pend s'.dag (allHps (kept ++ [first n k])) (allConds (kept ++ [first n k])) (allForbs (kept ++ [first n k])) chp.name c := by
  have h0 : (s.add k.hps k.conds k.forbs).2 = some (.parentNotFound p) := by rw [h]
  rw [add_structural (e := .parentNotFound p) trivial] at h0
  unfold Space.add at h
  cases h1 : s.dag.addAll k.hps k.conds k.forbs with
  | mk g e =>
    rw [h1] at h h0
    dsimp only at h0
    subst h0
    simp only [Prod.mk.injEq] at h
    obtain ⟨rfl, _⟩ := h
    rw [addAll_items] at h1
    obtain ⟨n, g1, x, hn, hx, h2, h3, h4⟩ := runAll_stops h1
    have h2' : s.dag.addAll (first n k).hps (first n k).conds (first n k).forbs = (g1, none) := by
      rw [addAll_items, items_first]; exact h2
    have hi1 := hinv_snoc hi (first_wf hk n) h2'
    refine ⟨n, ⟨by rw [← items_length]; omega, fits_of_hinv hi1 (first_wf hk n).2.1, ?_⟩, ?_⟩
    · intro m hm _ hfm
      obtain ⟨g2, hg2⟩ := addAll_fits hi (first_wf hk m) hfm
      rw [addAll_items, items_first, h4 m hm] at hg2
      simp at hg2
    · cases x with
      | hp y =>
        simp only [step, Dag.add] at h3
        split at h3 <;> simp at h3
      | cond c =>
        obtain ⟨k1, chp, k2, k3⟩ := pend_of_unknown hi1 h3
        exact ⟨c, by simpa [items] using hx, k1, chp, k2, k3⟩
      | forb f =>
        simp only [step, Dag.addForbidden] at h3
        split at h3
        · simp at h3
        · split at h3 <;> simp at h3

/-- The state after the rejected call and any number of successful ones. -/
theorem attempts_either {hist later : List (Call × Option Err)} {s : Space} {k : Call} {p : Name}
    (h : Attempts (hist ++ (k, some (.parentNotFound p)) :: later) s) (hh : ∀ x ∈ hist, NotHalf x.1 x.2)
    (hl : ∀ x ∈ later, x.2 = none) :
    (Stuck s.dag.nodes ∧ later = []) ∨ ∃ kept, Stayed (hist.map Prod.fst ++ [k]) kept ∧ (∀ x ∈ kept ++ later.map Prod.fst, x.wf) ∧
      ∃ c ∈ k.conds, p ∈ c.parents ∧ ∃ chp, c.child? = some chp ∧
      Either s.dag (allHps (kept ++ later.map Prod.fst)) (allConds (kept ++ later.map Prod.fst))
        (allForbs (kept ++ later.map Prod.fst)) chp.name c ∧
      (later ≠ [] → (∃ x ∈ allConds (kept ++ later.map Prod.fst), x.child?.map HP.name = some chp.name) →
        Pre s (allHps (kept ++ later.map Prod.fst)) (allConds (kept ++ later.map Prod.fst))
          (allForbs (kept ++ later.map Prod.fst)) ∧ s.lookup = changeLookup s.com s.minConds ∧
          ∃ c, s.defaultConfig = .ok c) := by
  induction later using List.reverseRecOn generalizing s with
  | nil =>
    generalize hz : hist ++ [(k, some (.parentNotFound p))] = zs at h
    cases h with
    | nil => simp at hz
    | @snoc hist2 s0 s' k2 o h0 hk ha =>
      obtain ⟨e1, e2⟩ := List.append_inj' hz rfl
      simp only [List.cons.injEq, Prod.mk.injEq, and_true] at e2
      obtain ⟨rfl, rfl⟩ := e2
      subst e1
      rcases attempts_hist h0 hh with hs | ⟨kept, h1, h2, h3⟩
      · exact .inl ⟨(hs.add ha).1, rfl⟩
      · obtain ⟨n, hlong, c, hc, hp, chp, hchp, hpend⟩ := add_unknown h3 hk ha
        refine .inr ⟨kept ++ [first n k], Stayed.snoc h1 hlong, ?_, c, hc, hp, chp, hchp, ?_, by simp⟩
        · intro x hx
          simp only [List.map_nil, List.append_nil] at hx
          rcases List.mem_append.1 hx with hx | hx
          · exact h2 x hx
          · rw [List.mem_singleton.1 hx]; exact first_wf hk n
        · rw [List.map_nil, List.append_nil]
          exact .inr hpend
  | append_singleton l y ih =>
    generalize hz : hist ++ (k, some (.parentNotFound p)) :: (l ++ [y]) = zs at h
    cases h with
    | nil => simp at hz
    | @snoc hist2 s0 s' k2 o h0 hk ha =>
      rw [← List.cons_append, ← List.append_assoc] at hz
      obtain ⟨e1, e2⟩ := List.append_inj' hz rfl
      simp only [List.cons.injEq, and_true] at e2
      subst e2 e1
      have ho : o = none := hl (k2, o) (by simp)
      subst ho
      rcases ih h0 (fun x hx => hl x (by simp [hx])) with ⟨hs, _⟩ | ⟨kept, h1, h2, c, hc, hp, chp, hchp, he, _⟩
      · exact absurd rfl (hs.add ha).2
      · right
        obtain ⟨g1, g2⟩ := either_add he hk ha
        have e : kept ++ (l ++ [(k2, (none : Option Err))]).map Prod.fst = kept ++ l.map Prod.fst ++ [k2] := by simp
        refine ⟨kept, h1, ?_, c, hc, hp, chp, hchp, by rw [e]; exact g1, fun _ => by rw [e]; exact g2⟩
        intro x hx
        simp only [List.map_append, List.map_cons, List.map_nil, ← List.append_assoc, List.mem_append, List.mem_singleton] at hx
        rcases hx with hx | rfl
        · exact h2 x (by simpa using hx)
        · exact hk

end Retry

end Verif
