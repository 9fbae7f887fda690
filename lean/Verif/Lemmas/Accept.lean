import Verif.Spec.Add
import Verif.Lemmas.Reject
import Verif.Lemmas.Opt
import Mathlib.Data.List.Nodup

/-!
# When `add` gets through the transaction and the commit
-/

set_option autoImplicit false

namespace Verif
open Verif.Spec

theorem dag_add_ok {g : Dag} {h : HP} (hn : ¬ IsNode g.nodes h.name) : ∃ g', g.add h = (g', none) := by
  unfold Dag.add
  rw [findNode_none.2 hn]
  exact ⟨_, rfl⟩

theorem runAll_hps_ok : ∀ (hs : List HP) {g : Dag} {H : List HP} {C : List Cond} {F : List Forb}, HInv g H C F →
    (∀ h ∈ hs, h.wf = true) → ((H ++ hs).map HP.name).Nodup →
    ∃ g', runAll Dag.add g hs = (g', none) ∧ HInv g' (H ++ hs) C F
  | [], g, H, C, F, hi, _, _ => ⟨g, rfl, by simpa using hi⟩
  | h :: hs, g, H, C, F, hi, hw, hnd => by
    have hn : ¬ IsNode g.nodes h.name := by
      rw [hi.isNode]
      rintro ⟨x, hx, e⟩
      rw [List.map_append, List.nodup_append] at hnd
      exact hnd.2.2 x.name (List.mem_map.2 ⟨x, hx, rfl⟩) h.name (by simp) e
    obtain ⟨g1, h1⟩ := dag_add_ok hn
    have hi1 := hi.add (hw h (by simp)) h1
    obtain ⟨g', h2, h3⟩ := runAll_hps_ok hs hi1 (fun x hx => hw x (by simp [hx])) (by simpa using hnd)
    refine ⟨g', ?_, by simpa using h3⟩
    unfold runAll
    rw [h1]
    exact h2

theorem runAll_conds_ok : ∀ (cs : List Cond) {g : Dag} {H : List HP} {C : List Cond} {F : List Forb}, HInv g H C F →
    (∀ c ∈ cs, c.wf = true) →
    (∀ c ∈ cs, ∀ n, childName c = some n → ∃ h ∈ H, h.name = n) →
    (∀ c ∈ cs, ∀ l ∈ c.dlcs, ∃ h ∈ H, h.name = l.parent.name) →
    (∀ c ∈ cs, ∀ x ∈ C ++ cs, childName x = childName c → c.pyEq x = true) →
    Acyclic (parentRel (C ++ cs)) →
    ∃ g', runAll Dag.addCondition g cs = (g', none) ∧ HInv g' H (C ++ cs) F
  | [], g, H, C, F, hi, _, _, _, _, _ => ⟨g, rfl, by simpa using hi⟩
  | c :: cs, g, H, C, F, hi, hw, hch, hpa, hone, hac => by
    obtain ⟨chp, hchild⟩ := wf_child (hw c (by simp))
    have hname : childName c = some chp.name := by simp [childName, hchild]
    have hok : ∃ g1, g.addCondition c = (g1, none) := by
      unfold Dag.addCondition
      rcases addCondNodes_cases hi.ninv hchild with ⟨ns', k⟩ | ⟨k, kn⟩ | ⟨ns', p, k, kp, kn⟩ |
          ⟨ns', e, k, ke, kne⟩ | ⟨ns', k, kc⟩
      · rw [k]; exact ⟨_, rfl⟩
      · exact absurd ((hi.isNode _).2 (hch c (by simp) _ hname)) kn
      · obtain ⟨l, hl, rfl⟩ := parents_iff.1 kp
        exact absurd ((hi.isNode _).2 (hpa c (by simp) l hl)) kn
      · rw [hi.cond] at ke
        obtain ⟨h1, h2⟩ := lastCond_some ke
        rw [hone c (by simp) e (by simp [h1]) (by rw [h2, hname])] at kne
        cases kne
      · exfalso
        apply kc
        refine acyclic_mono ?_ hac
        rintro a b (hab | ⟨hab, rfl⟩)
        · obtain ⟨x, hx, e1, e2⟩ := (hi.edge a b).1 hab
          exact ⟨x, by simp [hx], e1, e2⟩
        · exact ⟨c, by simp, hname, hab⟩
    obtain ⟨g1, h1⟩ := hok
    have hi1 := hi.addCondition (hw c (by simp)) h1
    obtain ⟨g', h2, h3⟩ := runAll_conds_ok cs hi1 (fun x hx => hw x (by simp [hx]))
      (fun x hx => hch x (by simp [hx])) (fun x hx => hpa x (by simp [hx]))
      (fun x hx y hy => hone x (by simp [hx]) y (by simpa using hy)) (by simpa using hac)
    refine ⟨g', ?_, by simpa using h3⟩
    unfold runAll
    rw [h1]
    exact h2

theorem firstMissing_none_iff {ns : Nodes} : ∀ {l : List Name}, (∀ n ∈ l, IsNode ns n) → firstMissing ns l = none
  | [], _ => rfl
  | n :: l, h => by
    unfold firstMissing
    obtain ⟨x, hx⟩ := findNode_isSome (h n (by simp))
    rw [hx]
    exact firstMissing_none_iff (fun m hm => h m (by simp [hm]))

theorem addForbidden_ok {g : Dag} {f : Forb} (h : ∀ n ∈ f.names, IsNode g.nodes n) :
    ∃ g', g.addForbidden f = (g', none) := by
  unfold Dag.addForbidden
  rw [firstMissing_none_iff h]
  simp only
  split
  · exact ⟨_, rfl⟩
  · exact ⟨_, rfl⟩

theorem runAll_forbs_ok : ∀ (fs : List Forb) {g : Dag} {H : List HP} {C : List Cond} {F : List Forb}, HInv g H C F →
    (∀ f ∈ fs, f.wf = true) → (∀ f ∈ fs, ∀ n ∈ f.names, ∃ h ∈ H, h.name = n) →
    ∃ g', runAll Dag.addForbidden g fs = (g', none) ∧ HInv g' H C (F ++ fs)
  | [], g, H, C, F, hi, _, _ => ⟨g, rfl, by simpa using hi⟩
  | f :: fs, g, H, C, F, hi, hw, hk => by
    obtain ⟨g1, h1⟩ := addForbidden_ok (g := g) (f := f) (fun n hn => (hi.isNode n).2 (hk f (by simp) n hn))
    have hi1 := hi.addForbidden (hw f (by simp)) h1
    obtain ⟨g', h2, h3⟩ := runAll_forbs_ok fs hi1 (fun x hx => hw x (by simp [hx]))
      (fun x hx => hk x (by simp [hx]))
    refine ⟨g', ?_, by simpa using h3⟩
    unfold runAll
    rw [h1]
    exact h2

theorem allHps_snoc (calls : List Call) (k : Call) : allHps (calls ++ [k]) = allHps calls ++ k.hps := by
  simp [allHps]
theorem allConds_snoc (calls : List Call) (k : Call) : allConds (calls ++ [k]) = allConds calls ++ k.conds := by
  simp [allConds]
theorem allForbs_snoc (calls : List Call) (k : Call) : allForbs (calls ++ [k]) = allForbs calls ++ k.forbs := by
  simp [allForbs]

theorem parentRel_iff (calls : List Call) : parentRel (allConds calls) = ParentOf calls := by
  funext p c
  simp only [parentRel, ParentOf, parents_iff]

/-- A call that fits gets through the transaction. -/
theorem addAll_ok {calls : List Call} {s : Space} (h : Reach calls s) {k : Call} (hk : k.wf) (hf : Fits calls k) :
    ∃ g, s.dag.addAll k.hps k.conds k.forbs = (g, none) ∧
      HInv g (allHps (calls ++ [k])) (allConds (calls ++ [k])) (allForbs (calls ++ [k])) := by
  have hi := (sinv_of_reach h).hist
  rw [allHps_snoc, allConds_snoc, allForbs_snoc]
  obtain ⟨g1, e1, i1⟩ := runAll_hps_ok k.hps hi hk.1 (by rw [← allHps_snoc]; exact hf.fresh)
  obtain ⟨g2, e2, i2⟩ := runAll_conds_ok k.conds i1 hk.2.1
    (by rw [← allHps_snoc]; exact hf.children) (by rw [← allHps_snoc]; exact hf.parents)
    (by rw [← allConds_snoc]; exact hf.single)
    (by rw [← allConds_snoc, parentRel_iff]; exact hf.acyclic)
  obtain ⟨g3, e3, i3⟩ := runAll_forbs_ok k.forbs i2 hk.2.2 (by rw [← allHps_snoc]; exact hf.clauses)
  refine ⟨g3, ?_, i3⟩
  unfold Dag.addAll
  rw [e1]
  simp only
  rw [e2]
  exact e3

theorem hinv_child {g : Dag} {H : List HP} {C : List Cond} {F : List Forb} (hi : HInv g H C F) {c : Cond} {n : Name}
    (hc : c ∈ C) (hn : childName c = some n) : ∃ d, condAt g.nodes n = some d ∧ d.pyEq c = true := by
  cases hd : condAt g.nodes n with
  | none =>
    rw [hi.cond, lastCond_none] at hd
    exact absurd hn (hd c hc)
  | some d =>
    refine ⟨d, rfl, ?_⟩
    cases hx : c.child? with
    | none => simp [childName, hx] at hn
    | some x =>
      have : x.name = n := by simpa [childName, hx] using hn
      exact hi.same c hc x hx d (this ▸ hd)

theorem hinv_child_known {g : Dag} {H : List HP} {C : List Cond} {F : List Forb} (hi : HInv g H C F) {c : Cond}
    {n : Name} (hc : c ∈ C) (hn : childName c = some n) : ∃ h ∈ H, h.name = n := by
  obtain ⟨d, hd, _⟩ := hinv_child hi hc hn
  exact (hi.isNode n).1 (condAt_isNode hd)

theorem hinv_parents_known {g : Dag} {H : List HP} {C : List Cond} {F : List Forb} (hi : HInv g H C F) {c : Cond}
    {n : Name} (hc : c ∈ C) (hn : childName c = some n) {l : Lit} (hl : l ∈ c.dlcs) :
    ∃ h ∈ H, h.name = l.parent.name := by
  obtain ⟨d, hd, he⟩ := hinv_child hi hc hn
  have h1 := (hi.ninv.cond n d hd).2.2
  exact (hi.isNode _).1 (h1 _ ((pyEq_parents d c he _).2 (parents_iff.2 ⟨l, hl, rfl⟩)))

theorem hinv_single {g : Dag} {H : List HP} {C : List Cond} {F : List Forb} (hi : HInv g H C F) {c x : Cond}
    {n : Name} (hc : c ∈ C) (hx : x ∈ C) (hn : childName c = some n) (hxn : childName x = some n) :
    c.pyEq x = true := by
  obtain ⟨d, hd, he⟩ := hinv_child hi hc hn
  obtain ⟨e, hd', he'⟩ := hinv_child hi hx hxn
  rw [hd] at hd'
  cases hd'
  exact Cond.pyEq_trans (Cond.pyEq_symm (Cond.wf_wf0 (hi.ninv.cond n d hd).1) he) he'

/-- What has got through the transaction fits. -/
theorem fits_of_hinv {calls : List Call} {k : Call} {g : Dag}
    (hi : HInv g (allHps (calls ++ [k])) (allConds (calls ++ [k])) (allForbs (calls ++ [k])))
    (hw : ∀ c ∈ k.conds, c.wf = true) : Fits calls k := by
  have hsub : ∀ c ∈ k.conds, c ∈ allConds (calls ++ [k]) := fun c hc => by rw [allConds_snoc]; simp [hc]
  have hch : ∀ c ∈ k.conds, ∃ n, childName c = some n := fun c hc => by
    obtain ⟨x, hx⟩ := wf_child (hw c hc)
    exact ⟨x.name, by simp [childName, hx]⟩
  refine ⟨?_, ?_, ?_, ?_, ?_, ?_⟩
  · have : (g.nodes.map Node.hp).map HP.name = namesOf g.nodes := by simp [namesOf, Node.name]
    exact ((hi.hps.map HP.name).nodup_iff).1 (this ▸ hi.ninv.nodup)
  · intro c hc n hn
    exact hinv_child_known hi (hsub c hc) hn
  · intro c hc l hl
    obtain ⟨n, hn⟩ := hch c hc
    exact hinv_parents_known hi (hsub c hc) hn hl
  · intro c hc x hx e
    obtain ⟨n, hn⟩ := hch c hc
    exact hinv_single hi (hsub c hc) hx hn (by rw [e, hn])
  · rw [← parentRel_iff]
    exact hi.acyclic
  · intro f hf n hn
    exact (hi.isNode n).1 (hi.forbNames f (by rw [allForbs_snoc]; simp [hf]) n hn)

theorem addCondNodes_errs {ns ns' : Nodes} {c : Cond} {e : Err} (hi : NInv ns) (hc : c.wf = true)
    (h : addCondNodes ns c = (ns', some e)) : MisfitError e := by
  obtain ⟨chp, hchild⟩ := wf_child hc
  rcases addCondNodes_cases hi hchild with ⟨_, k⟩ | ⟨k, _⟩ | ⟨_, p, k, _, _⟩ | ⟨_, e, k, _, _⟩ | ⟨_, k, _⟩ <;>
    rw [k] at h <;> simp only [Prod.mk.injEq, Option.some.injEq, reduceCtorEq, and_false] at h <;>
    rw [← h.2] <;> trivial

theorem runAll_hps_errs : ∀ (hs : List HP) {g g' : Dag} {e : Err}, runAll Dag.add g hs = (g', some e) → MisfitError e
  | [], g, g', e, h => by simp [runAll] at h
  | x :: hs, g, g', e, h => by
    unfold runAll at h
    cases h1 : g.add x with
    | mk g1 e1 =>
      rw [h1] at h
      cases e1 with
      | none => exact runAll_hps_errs hs h
      | some e1 =>
        simp only [Prod.mk.injEq, Option.some.injEq] at h
        obtain ⟨_, rfl⟩ := h
        unfold Dag.add at h1
        split at h1
        · simp only [Prod.mk.injEq, Option.some.injEq] at h1
          rw [← h1.2]; trivial
        · simp at h1

theorem runAll_conds_errs : ∀ (cs : List Cond) {g g' : Dag} {H : List HP} {C : List Cond} {F : List Forb} {e : Err},
    HInv g H C F → (∀ c ∈ cs, c.wf = true) → runAll Dag.addCondition g cs = (g', some e) → MisfitError e
  | [], g, g', H, C, F, e, _, _, h => by simp [runAll] at h
  | c :: cs, g, g', H, C, F, e, hi, hw, h => by
    unfold runAll at h
    cases h1 : g.addCondition c with
    | mk g1 e1 =>
      rw [h1] at h
      cases e1 with
      | none => exact runAll_conds_errs cs (hi.addCondition (hw c (by simp)) h1) (fun x hx => hw x (by simp [hx])) h
      | some e1 =>
        simp only [Prod.mk.injEq, Option.some.injEq] at h
        obtain ⟨_, rfl⟩ := h
        simp only [Dag.addCondition, Prod.mk.injEq] at h1
        exact addCondNodes_errs (ns' := (addCondNodes g.nodes c).1) hi.ninv (hw c (by simp))
          (Prod.ext rfl h1.2)

theorem runAll_forbs_errs : ∀ (fs : List Forb) {g g' : Dag} {e : Err}, runAll Dag.addForbidden g fs = (g', some e) →
    MisfitError e
  | [], g, g', e, h => by simp [runAll] at h
  | x :: hs, g, g', e, h => by
    unfold runAll at h
    cases h1 : g.addForbidden x with
    | mk g1 e1 =>
      rw [h1] at h
      cases e1 with
      | none => exact runAll_forbs_errs hs h
      | some e1 =>
        simp only [Prod.mk.injEq, Option.some.injEq] at h
        obtain ⟨_, rfl⟩ := h
        unfold Dag.addForbidden at h1
        split at h1
        · simp only [Prod.mk.injEq, Option.some.injEq] at h1
          rw [← h1.2]; trivial
        · split at h1 <;> simp at h1

/-- The transaction only raises the exceptions of arguments that do not fit. -/
theorem addAll_errs {calls : List Call} {s : Space} (h : Reach calls s) {k : Call} (hk : k.wf) {g : Dag} {e : Err}
    (he : s.dag.addAll k.hps k.conds k.forbs = (g, some e)) : MisfitError e := by
  have hi := (sinv_of_reach h).hist
  unfold Dag.addAll at he
  cases h1 : runAll Dag.add s.dag k.hps with
  | mk g1 e1 =>
    rw [h1] at he
    cases e1 with
    | some e1 =>
      simp only [Prod.mk.injEq, Option.some.injEq] at he
      obtain ⟨_, rfl⟩ := he
      exact runAll_hps_errs _ h1
    | none =>
      simp only at he
      have k1 : HInv g1 (allHps calls ++ k.hps) (allConds calls) (allForbs calls) :=
        runAll_inv (P := fun g xs => HInv g (allHps calls ++ xs) (allConds calls) (allForbs calls))
          (Q := fun h => h.wf = true)
          (fun g g' xs x hP hQ h => by
            have := hP.add hQ h
            simpa using this) k.hps s.dag g1 [] (by simpa using hi) hk.1 h1
      cases h2 : runAll Dag.addCondition g1 k.conds with
      | mk g2 e2 =>
        rw [h2] at he
        cases e2 with
        | some e2 =>
          simp only [Prod.mk.injEq, Option.some.injEq] at he
          obtain ⟨_, rfl⟩ := he
          exact runAll_conds_errs _ k1 hk.2.1 h2
        | none => exact runAll_forbs_errs _ he

theorem misfit_structural {e : Err} : MisfitError e ↔ e.structural := by
  cases e <;> simp [MisfitError, Err.structural]

/-! ## The commit -/

theorem splitLast_total {α : Type} : ∀ {l : List α}, l ≠ [] → ∃ r, splitLast l = some r
  | [], h => absurd rfl h
  | [x], _ => ⟨_, rfl⟩
  | x :: y :: l, _ => by
    obtain ⟨r, hr⟩ := splitLast_total (l := y :: l) (by simp)
    exact ⟨(x :: r.1, r.2), by simp [splitLast, hr]⟩

theorem optGroups_total : ∀ {ps : List (List EqPart)} {acc : List ((Name × List (Name × Rat)) × OptGroup)},
    (∀ p ∈ ps, p ≠ []) → ∃ gs, optGroups ps acc = .ok gs
  | [], acc, _ => ⟨acc, rfl⟩
  | p :: ps, acc, h => by
    obtain ⟨r, hr⟩ := splitLast_total (h p (by simp))
    unfold optGroups
    rw [hr]
    exact optGroups_total (fun q hq => h q (by simp [hq]))

theorem mapExcept_total {α β : Type} {f : α → Except Err β} : ∀ {l : List α}, (∀ x ∈ l, ∃ y, f x = .ok y) →
    ∃ r, mapExcept f l = .ok r
  | [], _ => ⟨[], rfl⟩
  | x :: l, h => by
    obtain ⟨y, hy⟩ := h x (by simp)
    obtain ⟨r, hr⟩ := mapExcept_total (l := l) (fun z hz => h z (by simp [hz]))
    exact ⟨y :: r, by simp [mapExcept, hy, hr]⟩

theorem optEmit_total {H : List HP} (hinj : ∀ x ∈ H, ∀ y ∈ H, x.name = y.name → x = y)
    {kg : (Name × List (Name × Rat)) × OptGroup} (hk : KeyRight kg) (hg : GroupOk H kg.2) (hne : kg.2.lasts ≠ []) :
    ∃ f, optEmit kg.2 = .ok f := by
  unfold optEmit
  simp only
  split
  · exact ⟨_, rfl⟩
  · rename_i h; exact absurd h hne
  · rename_i l ls _ hl
    have hall : ∀ p ∈ kg.2.lasts, p.hp = l.hp := by
      intro p hp
      have hlm : l ∈ kg.2.lasts := by rw [hl]; simp
      exact hinj _ (hg.2 p hp).1 _ (hg.2 l hlm).1 (by rw [hk.2 p hp, hk.2 l hlm])
    have hleg : ((l :: ls).map (fun p => p.value)).all l.hp.kind.legalValue = true := by
      rw [List.all_eq_true]
      intro w hw
      obtain ⟨p, hp, rfl⟩ := List.mem_map.1 hw
      rw [← hl] at hp
      rw [← hall p hp]
      exact (hg.2 p hp).2.1
    unfold mkForbIn
    rw [if_pos hleg]
    exact ⟨_, rfl⟩

/-- The clauses of a space can be merged, if they are about its hyperparameters and none is an empty conjunction. -/
theorem optimizedForbs_total {H : List HP} {idx : Name → Nat} {fs : List Forb}
    (hinj : ∀ x ∈ H, ∀ y ∈ H, x.name = y.name → x = y)
    (hown : ∀ f ∈ fs, ∀ h ∈ clauseHps f, h ∈ H) (hwf : ∀ f ∈ fs, f.wf = true) (hne : NoEmptyClause fs) :
    ∃ fast, optimizedForbs idx fs = .ok fast := by
  have hparts : ∀ p ∈ (fs.filterMap Forb.eqConj?).map
      (sortBy (fun a b => decide (idx a.hp.name ≤ idx b.hp.name))), (∀ e ∈ p, PartOk H e) ∧ p ≠ [] := by
    intro p hp
    obtain ⟨q, hq, rfl⟩ := List.mem_map.1 hp
    obtain ⟨f, hf, hfq⟩ := List.mem_filterMap.1 hq
    have hfe := eqConj_some hfq
    refine ⟨fun e he => ?_, fun h0 => ?_⟩
    · rw [mem_sortBy] at he
      have hem : (Forb.eq e.hp e.value e.vval) ∈ q.map (fun p => Forb.eq p.hp p.value p.vval) :=
        List.mem_map.2 ⟨e, he, rfl⟩
      have hw := hwf f hf
      rw [hfe] at hw
      simp only [Forb.wf] at hw
      have hw' := wfL_iff.1 hw _ hem
      simp only [Forb.wf, Bool.and_eq_true, decide_eq_true_eq] at hw'
      refine ⟨hown f hf e.hp ?_, hw'.1.2, hw'.2⟩
      rw [hfe]
      simp only [clauseHps]
      exact mem_clauseHpsL.2 ⟨_, hem, by simp [clauseHps]⟩
    · have hq0 : q = [] := by
        have := (sortBy_perm (fun a b : EqPart => decide (idx a.hp.name ≤ idx b.hp.name)) q)
        rw [h0] at this
        exact this.nil_eq.symm
      subst hq0
      apply hne
      simp only [List.map_nil] at hfe
      rw [← hfe]; exact hf
  obtain ⟨gs, hgs⟩ := optGroups_total (acc := []) (fun p hp => (hparts p hp).2)
  obtain ⟨k1, _⟩ := optGroups_on (a := fun _ => none) (fun p hp => (hparts p hp).1) (by simp) (by simp) hgs
  obtain ⟨cs, hcs⟩ := mapExcept_total (f := fun g : (Name × List (Name × Rat)) × OptGroup => optEmit g.2) (l := gs)
    (fun kg hkg => optEmit_total hinj (k1 kg hkg).1 (k1 kg hkg).2.1 (k1 kg hkg).2.2)
  unfold optimizedForbs
  simp only
  rw [hgs]
  simp only
  rw [hcs]
  exact ⟨_, rfl⟩

theorem commit_total {s : Space} {g : Dag} {H : List HP} {C : List Cond} {F : List Forb} (hi : HInv g H C F)
    (hown : ∀ f ∈ F, ∀ h ∈ clauseHps f, h ∈ H) (hne : NoEmptyClause F) : ∃ s', s.commit g = (s', none) := by
  have hnd : (H.map HP.name).Nodup := by
    have : (g.nodes.map Node.hp).map HP.name = namesOf g.nodes := by simp [namesOf, Node.name]
    exact ((hi.hps.map HP.name).nodup_iff).1 (this ▸ hi.ninv.nodup)
  have hinj : ∀ x ∈ H, ∀ y ∈ H, x.name = y.name → x = y := by
    intro x hx y hy e
    exact List.inj_on_of_nodup_map hnd hx hy e
  unfold Space.commit
  simp only
  have hperm : ((sortForbs (g.uncond ++ g.condF)).filter (isUncondForb (rootNames (sortNodes g.nodes))) ++
      (sortForbs (g.uncond ++ g.condF)).filter (fun f => !isUncondForb (rootNames (sortNodes g.nodes)) f)).Perm F :=
    ((List.filter_append_perm _ _).trans (sortBy_perm _ _)).trans hi.forbs
  obtain ⟨fast, hfast⟩ := optimizedForbs_total (H := H) (idx := idxOf (sortNodes g.nodes)) hinj
    (fun f hf => hown f (hperm.mem_iff.1 hf)) (fun f hf => hi.forbWf f (hperm.mem_iff.1 hf))
    (fun hf => hne (hperm.mem_iff.1 hf))
  rw [hfast]
  exact ⟨_, rfl⟩

end Verif
