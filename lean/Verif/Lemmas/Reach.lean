import Verif.Lemmas.Built

/-!
# Histories of `add` calls
-/

set_option autoImplicit false

namespace Verif
open Verif.Spec

/-- The last condition of a list that is about the child `n`. -/
def lastCond (cs : List Cond) (n : Name) : Option Cond :=
  (cs.filter (fun c => decide (c.child?.map HP.name = some n))).getLast?

theorem lastCond_append (cs : List Cond) (c : Cond) (n : Name) :
    lastCond (cs ++ [c]) n = if c.child?.map HP.name = some n then some c else lastCond cs n := by
  unfold lastCond
  rw [List.filter_append]
  by_cases h : c.child?.map HP.name = some n
  · rw [if_pos h, List.filter_cons_of_pos (by simpa using h), List.filter_nil,
      List.getLast?_concat]
  · rw [if_neg h, List.filter_cons_of_neg (by simpa using h), List.filter_nil, List.append_nil]

theorem map_hp_eq {ns : Nodes} (hnd : (namesOf ns).Nodup) :
    ns.map Node.hp = (namesOf ns).filterMap (hpAt ns) := by
  have key : ∀ l : Nodes, (∀ x ∈ l, x ∈ ns) →
      l.map Node.hp = (l.map Node.name).filterMap (hpAt ns) := by
    intro l
    induction l with
    | nil => simp
    | cons x xs ih =>
      intro hl
      have hx : hpAt ns x.name = some x.hp := by
        simp [hpAt, findNode_of_mem hnd (hl x (by simp))]
      simp only [List.map_cons]
      rw [List.filterMap_cons_some hx, ← ih (fun y hy => hl y (by simp [hy]))]
  exact key ns (fun _ h => h)

/-- What the state inside a transaction has to do with the history so far. -/
structure HInv (g : Dag) (H : List HP) (C : List Cond) (F : List Forb) : Prop where
  ninv : NInv g.nodes
  hps : (g.nodes.map Node.hp).Perm H
  cond : ∀ n, condAt g.nodes n = lastCond C n
  same : ∀ c ∈ C, ∀ h, c.child? = some h → ∀ d, condAt g.nodes h.name = some d →
    d.pyEq c = true
  forbs : (g.uncond ++ g.condF).Perm F
  forbNames : ∀ f ∈ F, ∀ n ∈ f.names, IsNode g.nodes n
  forbWf : ∀ f ∈ F, f.wf = true

theorem HInv.add {g g' : Dag} {H : List HP} {C : List Cond} {F : List Forb} {h : HP}
    (hi : HInv g H C F) (hw : h.wf = true) (hr : g.add h = (g', none)) :
    HInv g' (H ++ [h]) C F := by
  unfold Dag.add at hr
  cases hf : findNode g.nodes h.name with
  | some x => simp [hf] at hr
  | none =>
    simp only [hf, Prod.mk.injEq, and_true] at hr
    obtain ⟨k1, k2, k3⟩ := ninv_append hi.ninv hw hf
    subst hr
    refine ⟨k1, ?_, ?_, ?_, hi.forbs, ?_, hi.forbWf⟩
    · simp only [List.map_append, List.map_cons, List.map_nil]
      exact hi.hps.append_right _
    · intro n
      exact (k2 n).trans (hi.cond n)
    · intro c hc x hx d hd
      exact hi.same c hc x hx d ((k2 _).symm.trans hd)
    · intro f hf' n hn
      have := hi.forbNames f hf' n hn
      unfold IsNode namesOf at this ⊢
      simp only [List.map_append, List.mem_append]
      exact .inl this

theorem HInv.addCondition {g g' : Dag} {H : List HP} {C : List Cond} {F : List Forb} {c : Cond}
    (hi : HInv g H C F) (hw : c.wf = true) (hr : g.addCondition c = (g', none)) :
    HInv g' H (C ++ [c]) F := by
  unfold Dag.addCondition at hr
  cases hn : addCondNodes g.nodes c with
  | mk ns' e =>
    simp only [hn, Prod.mk.injEq] at hr
    obtain ⟨hr, he⟩ := hr
    subst he
    obtain ⟨chp, h1, h2, h3, h4, h5, h6, h7, h8⟩ := addCondNodes_ok hi.ninv hw hn
    subst hr
    refine ⟨h3, ?_, ?_, ?_, hi.forbs, ?_, hi.forbWf⟩
    · rw [map_hp_eq h3.nodup, h4, show hpAt ns' = hpAt g.nodes from funext h5,
        ← map_hp_eq hi.ninv.nodup]
      exact hi.hps
    · intro n
      rw [lastCond_append]
      simp only
      rw [h6, h1]
      simp only [Option.map_some, Option.some.injEq]
      by_cases e : n = chp.name
      · simp [e]
      · have e' : ¬ chp.name = n := fun h => e h.symm
        simp only [e, e', if_false]
        exact hi.cond n
    · intro d hd x hx e he
      simp only at he
      rw [h6] at he
      rcases List.mem_append.1 hd with hd | hd
      · by_cases e1 : x.name = chp.name
        · rw [if_pos e1] at he
          cases he
          -- an earlier condition for the same child: there was one stored
          have hst : ∃ d', condAt g.nodes x.name = some d' := by
            rw [hi.cond]
            unfold lastCond
            have hmem : d ∈ C.filter (fun c => decide (c.child?.map HP.name = some x.name)) := by
              simp [hd, hx]
            cases hl : (C.filter (fun c => decide (c.child?.map HP.name = some x.name))).getLast? with
            | some y => exact ⟨y, rfl⟩
            | none =>
              rw [List.getLast?_eq_none_iff] at hl
              rw [hl] at hmem
              simp at hmem
          obtain ⟨d', hd'⟩ := hst
          have hs := hi.same d hd x hx d' hd'
          rw [e1] at hd'
          exact Cond.pyEq_trans (h7 d' hd') hs
        · rw [if_neg e1] at he
          exact hi.same d hd x hx e he
      · simp at hd
        subst hd
        rw [h1] at hx
        cases hx
        simp at he
        subst he
        exact Cond.pyEq_refl _
    · intro f hf n hn'
      have := hi.forbNames f hf n hn'
      unfold IsNode at this ⊢
      simp only
      rw [h4]; exact this

theorem firstMissing_none {ns : Nodes} : ∀ {l : List Name}, firstMissing ns l = none →
    ∀ n ∈ l, IsNode ns n := by
  intro l
  induction l with
  | nil => simp
  | cons a l ih =>
    intro h n hn
    unfold firstMissing at h
    cases ha : findNode ns a with
    | none => simp [ha] at h
    | some x =>
      simp only [ha] at h
      rcases List.mem_cons.1 hn with rfl | hn
      · exact mem_namesOf_of_find ha
      · exact ih h n hn

theorem HInv.addForbidden {g g' : Dag} {H : List HP} {C : List Cond} {F : List Forb} {f : Forb}
    (hi : HInv g H C F) (hw : f.wf = true) (hr : g.addForbidden f = (g', none)) :
    HInv g' H C (F ++ [f]) := by
  unfold Dag.addForbidden at hr
  cases hm : firstMissing g.nodes f.names with
  | some n => simp [hm] at hr
  | none =>
    have hall := firstMissing_none hm
    simp only [hm] at hr
    have hnames : ∀ x ∈ F ++ [f], ∀ n ∈ x.names, IsNode g.nodes n := by
      intro x hx n hn
      rcases List.mem_append.1 hx with hx | hx
      · exact hi.forbNames x hx n hn
      · simp at hx; subst hx; exact hall n hn
    have hwf : ∀ x ∈ F ++ [f], x.wf = true := by
      intro x hx
      rcases List.mem_append.1 hx with hx | hx
      · exact hi.forbWf x hx
      · simp at hx; subst hx; exact hw
    split at hr
    · simp only [Prod.mk.injEq, and_true] at hr
      subst hr
      refine ⟨hi.ninv, hi.hps, hi.cond, hi.same, ?_, hnames, hwf⟩
      have h1 : (g.uncond ++ [f] ++ g.condF).Perm (g.uncond ++ g.condF ++ [f]) := by
        rw [List.append_assoc, List.append_assoc]
        exact List.Perm.append_left _ List.perm_append_comm
      exact h1.trans (hi.forbs.append_right _)
    · simp only [Prod.mk.injEq, and_true] at hr
      subst hr
      refine ⟨hi.ninv, hi.hps, hi.cond, hi.same, ?_, hnames, hwf⟩
      simp only
      rw [← List.append_assoc]
      exact hi.forbs.append_right _

theorem runAll_inv {α : Type} {op : Dag → α → Dag × Option Err} {P : Dag → List α → Prop}
    {Q : α → Prop} (hstep : ∀ g g' xs x, P g xs → Q x → op g x = (g', none) → P g' (xs ++ [x])) :
    ∀ (xs : List α) (g g' : Dag) (done : List α), P g done → (∀ x ∈ xs, Q x) →
      runAll op g xs = (g', none) → P g' (done ++ xs) := by
  intro xs
  induction xs with
  | nil =>
    intro g g' done hP _ h
    simp only [runAll, Prod.mk.injEq, and_true] at h
    subst h
    simpa using hP
  | cons x xs ih =>
    intro g g' done hP hQ h
    unfold runAll at h
    cases h1 : op g x with
    | mk g1 e =>
      rw [h1] at h
      cases e with
      | some e => simp at h
      | none =>
        have := ih g1 g' (done ++ [x]) (hstep g g1 done x hP (hQ x (by simp)) h1)
          (fun y hy => hQ y (by simp [hy])) h
        simpa using this

theorem HInv.addAll {g g' : Dag} {H : List HP} {C : List Cond} {F : List Forb} {c : Call}
    (hi : HInv g H C F) (hw : c.wf) (hr : g.addAll c.hps c.conds c.forbs = (g', none)) :
    HInv g' (H ++ c.hps) (C ++ c.conds) (F ++ c.forbs) := by
  unfold Dag.addAll at hr
  cases h1 : runAll Dag.add g c.hps with
  | mk g1 e1 =>
    rw [h1] at hr
    cases e1 with
    | some e => simp at hr
    | none =>
      simp only at hr
      have k1 : HInv g1 (H ++ c.hps) C F :=
        runAll_inv (P := fun g xs => HInv g (H ++ xs) C F) (Q := fun h => h.wf = true)
          (fun g g' xs x hP hQ h => by
            have := hP.add hQ h
            simpa using this) c.hps g g1 [] (by simpa using hi) hw.1 h1
      cases h2 : runAll Dag.addCondition g1 c.conds with
      | mk g2 e2 =>
        rw [h2] at hr
        cases e2 with
        | some e => simp at hr
        | none =>
          simp only at hr
          have k2 : HInv g2 (H ++ c.hps) (C ++ c.conds) F :=
            runAll_inv (P := fun g xs => HInv g (H ++ c.hps) (C ++ xs) F)
              (Q := fun h => h.wf = true)
              (fun g g' xs x hP hQ h => by
                have := hP.addCondition hQ h
                simpa using this) c.conds g1 g2 [] (by simpa using k1) hw.2.1 h2
          have k3 : HInv g' (H ++ c.hps) (C ++ c.conds) (F ++ c.forbs) :=
            runAll_inv (P := fun g xs => HInv g (H ++ c.hps) (C ++ c.conds) (F ++ xs))
              (Q := fun h => h.wf = true)
              (fun g g' xs x hP hQ h => by
                have := hP.addForbidden hQ h
                simpa using this) c.forbs g2 g' [] (by simpa using k2) hw.2.2 hr
          exact k3

/-! ## Invariant of committed spaces -/

/-- What holds of every space reached by successful calls. -/
structure SInv (s : Space) (calls : List Call) : Prop where
  hist : HInv s.dag (allHps calls) (allConds calls) (allForbs calls)
  com : s.dag.nodes = s.com
  sorted : s.com.Pairwise (fun a b => keyLe (a.depth, a.name) (b.depth, b.name) = true)
  roots : s.dag.roots = rootNames s.com
  len : s.len = s.com.length
  uncond : ∀ f ∈ s.dag.uncond, isUncondForb s.dag.roots f = true
  condF : ∀ f ∈ s.dag.condF, isUncondForb s.dag.roots f = false
  fast : optimizedForbs (idxOf s.com) (s.dag.uncond ++ s.dag.condF) = .ok s.fast
  mins : s.minConds = minCondsSorted s.com
  lookup : s.lookup = changeLookup s.com s.minConds
  default : ∃ c, s.defaultConfig = .ok c

theorem commit_ok {s s' : Space} {g : Dag} {H : List HP} {C : List Cond} {F : List Forb}
    (hi : HInv g H C F) (h : s.commit g = (s', none)) :
    HInv s'.dag H C F ∧ s'.dag.nodes = s'.com ∧ s'.com = sortNodes g.nodes ∧
    s'.dag.roots = rootNames s'.com ∧
    (∀ f ∈ s'.dag.uncond, isUncondForb s'.dag.roots f = true) ∧
    (∀ f ∈ s'.dag.condF, isUncondForb s'.dag.roots f = false) ∧
    optimizedForbs (idxOf s'.com) (s'.dag.uncond ++ s'.dag.condF) = .ok s'.fast ∧
    s'.minConds = minCondsSorted s'.com ∧ s'.lookup = changeLookup s'.com s'.minConds := by
  unfold Space.commit at h
  simp only at h
  split at h
  · simp at h
  · rename_i fast hfast
    simp only [Prod.mk.injEq, and_true] at h
    subst h
    have hp : (sortNodes g.nodes).Perm g.nodes := sortBy_perm _ _
    have hf := findNode_perm hp hi.ninv.nodup
    have hc : ∀ n, condAt (sortNodes g.nodes) n = condAt g.nodes n := fun n => by simp [condAt, hf]
    refine ⟨⟨ninv_perm hp hi.ninv, (hp.map Node.hp).trans hi.hps, ?_, ?_, ?_, ?_, hi.forbWf⟩,
      rfl, rfl, rfl, ?_, ?_, hfast, rfl, rfl⟩
    · intro n; exact (hc n).trans (hi.cond n)
    · intro c hcC x hx d hd
      exact hi.same c hcC x hx d ((hc _).symm.trans hd)
    · have h1 := List.filter_append_perm (isUncondForb (rootNames (sortNodes g.nodes)))
        (sortForbs (g.uncond ++ g.condF))
      exact (h1.trans (sortBy_perm _ _)).trans hi.forbs
    · intro f hf' n hn
      exact (hp.map Node.name).mem_iff.2 (hi.forbNames f hf' n hn)
    · intro f hf'
      exact (List.mem_filter.1 hf').2
    · intro f hf'
      simpa using (List.mem_filter.1 hf').2

theorem hinv_empty : HInv {} [] [] [] := by
  refine ⟨⟨⟨?_, ?_, ?_, ?_, ?_⟩, ?_, ?_, ?_, ?_⟩, ?_, ?_, ?_, ?_, ?_, ?_⟩ <;>
    simp [namesOf, KeysOk, Edge, childNames, findNode, IsNode, childAt, condAt, parentAt, hpAt,
      lastCond]

theorem sinv_of_reach {calls : List Call} {s : Space} (h : Reach calls s) : SInv s calls := by
  induction h with
  | nil =>
    refine ⟨hinv_empty, rfl, .nil, rfl, rfl, ?_, ?_, rfl, rfl, rfl, ⟨⟨[], some [], false⟩, rfl⟩⟩ <;> simp
  | @snoc calls s s' c hr hw hadd ih =>
    unfold Space.add at hadd
    cases h1 : s.dag.addAll c.hps c.conds c.forbs with
    | mk g e =>
      rw [h1] at hadd
      cases e with
      | some e => simp at hadd
      | none =>
        simp only at hadd
        have k1 := ih.hist.addAll hw h1
        cases h2 : s.commit g with
        | mk s1 e1 =>
          rw [h2] at hadd
          cases e1 with
          | some e => simp at hadd
          | none =>
            simp only at hadd
            obtain ⟨m1, m2, m3, m4, m5, m6, m7, m8, m9⟩ := commit_ok k1 h2
            split at hadd
            · simp at hadd
            · rename_i cfg hdef
              simp only [Prod.mk.injEq, and_true] at hadd
              subst hadd
              have e1 : allHps (calls ++ [c]) = allHps calls ++ c.hps := by
                simp [allHps]
              have e2 : allConds (calls ++ [c]) = allConds calls ++ c.conds := by
                simp [allConds]
              have e3 : allForbs (calls ++ [c]) = allForbs calls ++ c.forbs := by
                simp [allForbs]
              refine ⟨by rw [e1, e2, e3]; exact m1, m2, ?_, m4, ?_, m5, m6, m7, m8, m9, ⟨cfg, hdef⟩⟩
              · simp only [m3]
                exact sortBy_pairwise
                  (le := fun a b : Node => keyLe (a.depth, a.name) (b.depth, b.name))
                  (fun a b => keyLe_total _ _) (fun a b c => keyLe_trans _ _ _) _
              · simp only [m2]

end Verif
