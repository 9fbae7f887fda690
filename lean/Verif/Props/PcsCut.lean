import Verif.Lemmas.PcsCut

/-!
# Files in the new pcs format that were written in part (C126)

The writer gives the text of a file; a crash, a full disk or a broken transfer leaves a part of it from the beginning.  What a user
relies on: such a part is not taken for the file of another space.
-/

set_option autoImplicit false

namespace Verif
open Verif.Spec

variable {calls : List Call} {s : Space}

namespace Spec

/-- What was loaded is a space with only the first `k` hyperparameters of `s`, without conditions and without clauses. -/
def OnlyFirst (s s' : Space) (k : Nat) : Prop :=
  (∃ calls', Reach calls' s') ∧ (s'.com.map Node.hp).Perm ((s.com.map Node.hp).take k) ∧ s'.conditions = [] ∧ s'.forbs = []

end Spec

theorem nodeConds_nil {calls' : List Call} {s' : Space} (h : Reach calls' s') (hc : allConds calls' = []) : s'.com.filterMap Node.cond = [] := by
  rw [List.eq_nil_iff_forall_not_mem]
  intro c hm
  obtain ⟨_, _, _, h1, _⟩ := mem_nodeConds h hm
  rw [hc] at h1
  cases h1

/-- The rest of the reader, when there are only parameters. -/
theorem pcsRead_params {T : PyText} {text : String} {hs : List HP} {s1 : Space}
    (hl : readLines T {} ((fileLines text).map String.toList) = .ok { space := s1 }) (hr : Reach (singles hs) s1) :
    ∃ s' calls', pcsRead T (fileLines text) = .ok s' ∧ Reach calls' s' ∧ allHps calls' = hs ∧ allConds calls' = [] ∧ allForbs calls' = [] := by
  have hnd : ((allHps (singles hs) ++ []).map HP.name).Nodup := by
    rw [List.append_nil]
    exact ((hps_perm hr).map HP.name).nodup_iff.1 (hps_nodup hr)
  have h1 := C58_fresh_hyperparameters hr (allConds_singles hs) (allForbs_singles hs) [] (by simp) hnd
  have ha1 : s1.add [] [] [] = ((s1.add [] [] []).1, none) := by rw [← h1]
  have hr1 := Reach.snoc hr (c := ⟨[], [], []⟩) ⟨by simp, by simp, by simp⟩ ha1
  have e1 : allConds (singles hs ++ [⟨[], [], []⟩]) = [] := by rw [allConds_snoc, allConds_singles]; rfl
  have e2 : allForbs (singles hs ++ [⟨[], [], []⟩]) = [] := by rw [allForbs_snoc, allForbs_singles]; rfl
  have e3 : allHps (singles hs ++ [⟨[], [], []⟩]) = hs := by rw [allHps_snoc, allHps_singles]; simp
  have h2 := C58_fresh_hyperparameters hr1 e1 e2 [] (by simp) (by rw [e3]; rwa [allHps_singles] at hnd)
  have ha2 : (s1.add [] [] []).1.add [] [] [] = (((s1.add [] [] []).1.add [] [] []).1, none) := by rw [← h2]
  have hr2 := Reach.snoc hr1 (c := ⟨[], [], []⟩) ⟨by simp, by simp, by simp⟩ ha2
  refine ⟨_, _, ?_, hr2, by rw [allHps_snoc, e3]; simp, by rw [allConds_snoc, e1]; rfl, by rw [allForbs_snoc, e2]; rfl⟩
  unfold pcsRead
  rw [hl]
  simp only [mapExcept]
  rw [ha1]
  simp only [groupByChild, List.map_nil, uniqueBy, List.flatMap_nil, mapExcept]
  rw [ha2]

/-- The lines of the parameters. -/
theorem pcs_params (h : Reach calls s) {T : PyText} (hT : NumberTexts T) {weighted : Name → Bool}
    (hwt : ∀ x ∈ allHps calls, weighted x.name = false) (hwr : Writable T calls) {text : String}
    (hw : pcsWrite T weighted s = .ok text) :
    ∃ params rest, text.toList = joinWith "\n".toList params ++ rest ∧ (rest = [] ∨ "\n\n".toList <+: rest) ∧
      List.Forall₂ (fun x l => buildParam T weighted x = .ok l) (s.com.map Node.hp) params := by
  unfold pcsWrite at hw
  cases hp : mapExcept (fun x : Node => if (ppName x.name.toList).isNone then .error .valueError
      else buildParam T weighted x.hp) s.com with
  | error e => rw [hp] at hw; cases hw
  | ok params =>
    rw [hp] at hw
    simp only at hw
    cases hc : mapExcept (buildCond T) s.conditions with
    | error e => rw [hc] at hw; cases hw
    | ok conds =>
      rw [hc] at hw
      simp only at hw
      cases hf : mapExcept pcsLines s.forbs with
      | error e => rw [hf] at hw; cases hw
      | ok lines =>
        rw [hf] at hw
        simp only [Except.ok.injEq] at hw
        refine ⟨params, _, by rw [← hw, String.toList_ofList, List.append_assoc], ?_, ?_⟩
        · by_cases h1 : conds.isEmpty = true
          · rw [if_pos h1]
            by_cases h2 : (sortBy charsLe (lines.flatten.map (forbText T))).isEmpty = true
            · rw [if_pos h2]; exact .inl rfl
            · rw [if_neg h2]; exact .inr (by simp)
          · rw [if_neg h1]
            exact .inr (by rw [List.append_assoc]; exact List.prefix_append _ _)
        · rw [List.forall₂_map_left_iff]
          refine (mapExcept_forall₂ hp).imp ?_
          intro x l hx
          split at hx
          · cases hx
          · exact hx

theorem forall₂_take {α β : Type} {R : α → β → Prop} : ∀ {l : List α} {r : List β}, List.Forall₂ R l r → ∀ k, List.Forall₂ R (l.take k) (r.take k)
  | _, _, .nil, k => by simp
  | _, _, .cons h t, 0 => by simp
  | _, _, .cons h t, k + 1 => by simpa using ⟨h, forall₂_take t k⟩

theorem forall₂_get {α β : Type} {R : α → β → Prop} : ∀ {l : List α} {r : List β}, List.Forall₂ R l r → ∀ {k : Nat}, k < r.length →
    ∃ x y, l[k]? = some x ∧ r[k]? = some y ∧ R x y
  | _, _, .nil, k, hk => by simp at hk
  | x :: _, y :: _, .cons h t, 0, _ => ⟨x, y, by simp, by simp, h⟩
  | _ :: _, _ :: _, .cons h t, k + 1, hk => by simpa using forall₂_get t (by simpa using hk)

section
variable (h : Reach calls s) {T : PyText} (hT : NumberTexts T) {weighted : Name → Bool}
    (hwt : ∀ x ∈ allHps calls, weighted x.name = false) (hwr : Writable T calls)

include h hT hwt hwr

theorem params_read {params : List Chars} (hp : List.Forall₂ (fun x l => buildParam T weighted x = .ok l) (s.com.map Node.hp) params)
    (k : Nat) : ∃ s1, readLines T {} (params.take k) = .ok { space := s1 } ∧ Reach (singles ((s.com.map Node.hp).take k)) s1 := by
  have hw := reach_wf h
  have hmem : ∀ x, x ∈ s.com.map Node.hp ↔ x ∈ allHps calls := fun x => (hps_perm h).mem_iff
  have ht := forall₂_take hp k
  have hsub : ∀ x ∈ (s.com.map Node.hp).take k, x ∈ allHps calls := fun x hx => (hmem x).1 (List.mem_of_mem_take hx)
  have := readLines_params (T := T) ((s.com.map Node.hp).take k) (params.take k) Reach.nil rfl rfl (fun x hx => hw.1 x (hsub x hx))
    (by
      simp only [allHps, List.flatMap_nil, List.nil_append]
      rw [List.map_take]
      exact (hps_nodup h).sublist (List.take_sublist _ _)) (by
    generalize (s.com.map Node.hp).take k = hs at ht hsub
    generalize params.take k = ls at ht
    induction ht with
    | nil => exact .nil
    | cons hb _ ih =>
      rename_i x l hs ls _
      refine .cons ?_ (ih (fun y hy => hsub y (by simp [hy])))
      have hx := hsub x (by simp)
      obtain ⟨c, cs, h1, h2, h3, h4⟩ := hp_line hT (hw.1 _ hx) (hwr.hps _ hx) (hwt _ hx)
      rw [hb] at h1
      cases h1
      exact ⟨c, cs, rfl, h2, h3, h4⟩)
  obtain ⟨s1, h1, h2⟩ := this
  exact ⟨s1, h1, by simpa using h2⟩

theorem params_clean {params : List Chars} (hp : List.Forall₂ (fun x l => buildParam T weighted x = .ok l) (s.com.map Node.hp) params) :
    ∀ l ∈ params, '\n' ∉ l := by
  have hw := reach_wf h
  have hsub : ∀ x ∈ s.com.map Node.hp, x ∈ allHps calls := fun x => (hps_perm h).mem_iff.1
  generalize s.com.map Node.hp = hs at hp hsub
  induction hp with
  | nil => simp
  | cons hb _ ih =>
    rename_i x l hs ls _
    have hx := hsub x (by simp)
    obtain ⟨c, cs, h1, h2, h3, -⟩ := hp_line hT (hw.1 _ hx) (hwr.hps _ hx) (hwt _ hx)
    rw [hb] at h1
    cases h1
    intro y hy
    rcases List.mem_cons.1 hy with rfl | hy
    · intro hb
      simp only [List.mem_cons, List.mem_append, List.not_mem_nil, or_false] at hb
      rcases hb with rfl | hb | hb
      · exact absurd h2 (by decide)
      · exact absurd (h3 _ hb) (by decide)
      · exact absurd hb (by decide)
    · exact ih (fun z hz => hsub z (by simp [hz])) y hy

theorem only_first {text : String} {k : Nat} {s1 : Space}
    (hl : readLines T {} ((fileLines text).map String.toList) = .ok { space := s1 }) (hr : Reach (singles ((s.com.map Node.hp).take k)) s1) :
    ∃ s', pcsRead T (fileLines text) = .ok s' ∧ OnlyFirst s s' k := by
  obtain ⟨s', calls', h1, h2, h3, h4, h5⟩ := pcsRead_params hl hr
  refine ⟨s', h1, ⟨calls', h2⟩, by rw [← h3]; exact hps_perm h2, ?_, ?_⟩
  · unfold Space.conditions
    rw [nodeConds_nil h2 h4]
    rfl
  · rw [List.eq_nil_iff_forall_not_mem]
    intro f hf
    have := (mem_forbs h2 f).1 hf
    rw [h5] at this
    cases this

/-- A part of the lines of the hyperparameters. -/
theorem cut_params {params : List Chars} (hp : List.Forall₂ (fun x l => buildParam T weighted x = .ok l) (s.com.map Node.hp) params)
    {pre : List Char} (hpre : pre <+: joinWith "\n".toList params ++ ['\n']) :
    (∃ e, pcsRead T (fileLines (String.ofList pre)) = .error e) ∨
      ∃ k s', pcsRead T (fileLines (String.ofList pre)) = .ok s' ∧ OnlyFirst s s' k := by
  have hclean := params_clean h hT hwt hwr hp
  have hwf := reach_wf h
  have hl : (fileLines (String.ofList pre)).map String.toList = splitChar '\n' pre := by
    unfold fileLines
    rw [String.toList_ofList, List.map_map]
    have e : (String.toList ∘ String.ofList) = id := by funext x; simp
    rw [e, List.map_id]
  -- complete lines, a part of the next, and possibly the end of a line
  obtain ⟨k, q, hq, tail, hsplit, htail⟩ : ∃ k q, q <+: params.getD k [] ∧ ∃ tail, splitChar '\n' pre = params.take k ++ [q] ++ tail ∧
      (tail = [] ∨ tail = [[]]) := by
    rcases List.prefix_or_prefix_of_prefix hpre (List.prefix_append (joinWith "\n".toList params) ['\n']) with h1 | h1
    · obtain ⟨k, q, e1, e2⟩ := split_prefix hclean h1
      exact ⟨k, q, e2, [], by simpa using e1, .inl rfl⟩
    · obtain ⟨r, rfl⟩ := h1
      rw [List.prefix_append_right_inj] at hpre
      obtain ⟨k, q, e1, e2⟩ := split_prefix hclean (List.prefix_refl (joinWith ['\n'] params))
      cases r with
      | nil => exact ⟨k, q, e2, [], by simpa using e1, .inl rfl⟩
      | cons x r =>
        rw [List.cons_prefix_cons] at hpre
        obtain ⟨rfl, hr⟩ := hpre
        have hr0 : r = [] := by simpa using hr
        subst hr0
        refine ⟨k, q, e2, [[]], ?_, .inr rfl⟩
        rw [splitChar_append, show ("\n".toList : Chars) = ['\n'] from rfl, e1]
        simp [splitChar]
  have hdone : ∀ f : PcsFile, readLines T f tail = .ok f := by
    intro f
    rcases htail with rfl | rfl
    · rfl
    · simp [readLines, readLine_empty]
  obtain ⟨s1, hr1, hreach⟩ := params_read h hT hwt hwr hp k
  have hlines : readLines T {} ((fileLines (String.ofList pre)).map String.toList) =
      match readLine T { space := s1 } q with
      | .error e => .error e
      | .ok f' => .ok f' := by
    rw [hl, hsplit, readLines_append, readLines_append, hr1]
    simp only [readLines]
    cases readLine T { space := s1 } q with
    | error e => rfl
    | ok f' => exact hdone f'
  by_cases hk : k < params.length
  · obtain ⟨x, l, hx, hl', hb⟩ := forall₂_get hp hk
    have hxm : x ∈ allHps calls := (hps_perm h).mem_iff.1 (List.mem_of_getElem? hx)
    have hgd : params.getD k [] = l := by simp [List.getD, hl']
    rw [hgd] at hq
    by_cases hne : q = l
    · -- the next line is complete as well
      subst hne
      obtain ⟨s2, hr2, hreach2⟩ := params_read h hT hwt hwr hp (k + 1)
      have ek : params.take (k + 1) = params.take k ++ [q] := by
        rw [List.take_add_one, hl']
        rfl
      refine .inr ⟨k + 1, only_first h hT hwt hwr ?_ hreach2⟩
      rw [hl, hsplit, readLines_append, ← ek, hr2]
      exact hdone _
    · rcases readLine_cut hT (hwf.1 x hxm) (hwr.hps x hxm) (hwt x hxm) hb hq hne { space := s1 } with h1 | ⟨e, h1⟩
      · rw [h1] at hlines
        exact .inr ⟨k, only_first h hT hwt hwr hlines hreach⟩
      · rw [h1] at hlines
        refine .inl ⟨e, ?_⟩
        unfold pcsRead
        rw [hlines]
  · have hgd : params.getD k [] = [] := by simp [List.getD, List.getElem?_eq_none (Nat.le_of_not_lt hk)]
    rw [hgd] at hq
    have hq0 : q = [] := by simpa using hq
    subst hq0
    rw [readLine_empty] at hlines
    exact .inr ⟨k, only_first h hT hwt hwr hlines hreach⟩

/-- C126, the part that holds: a file that was cut before the first empty line, that is, among the hyperparameters, cannot be loaded,
or it gives a space with the first hyperparameters of the original, each of them unchanged, without conditions and clauses. -/
theorem C126_cut_in_parameters_partial {text : String} (hw : pcsWrite T weighted s = .ok text) {pre : List Char} (hpre : pre <+: text.toList)
    (hempty : ¬ ['\n', '\n'] <:+: pre) :
    (∃ e, pcsRead T (fileLines (String.ofList pre)) = .error e) ∨
      ∃ k s', pcsRead T (fileLines (String.ofList pre)) = .ok s' ∧ OnlyFirst s s' k := by
  obtain ⟨params, rest, ht, hrest, hp⟩ := pcs_params h hT hwt hwr hw
  apply cut_params h hT hwt hwr hp
  rw [ht] at hpre
  rcases List.prefix_or_prefix_of_prefix hpre (List.prefix_append (joinWith "\n".toList params) rest) with h1 | h1
  · exact h1.trans (List.prefix_append _ _)
  · obtain ⟨r, rfl⟩ := h1
    rw [List.prefix_append_right_inj] at hpre ⊢
    cases r with
    | nil => simp
    | cons x r =>
      rcases hrest with rfl | ⟨w, rfl⟩
      · simp at hpre
      · rw [show ("\n\n".toList ++ w : Chars) = '\n' :: ('\n' :: w) from rfl, List.cons_prefix_cons] at hpre
        obtain ⟨rfl, hpre⟩ := hpre
        cases r with
        | nil => simp
        | cons y r =>
          rw [List.cons_prefix_cons] at hpre
          obtain ⟨rfl, -⟩ := hpre
          exact absurd ⟨joinWith "\n".toList params, r, by simp⟩ hempty

/-- C126 is false of the code: for every space and every number, a part of its file is loaded as a space with that many of its
hyperparameters.  The empty file is a space as well. -/
theorem C126_hyperparameters_lost {text : String} (hw : pcsWrite T weighted s = .ok text) (k : Nat) :
    ∃ pre s', pre <+: text.toList ∧ pcsRead T (fileLines (String.ofList pre)) = .ok s' ∧ OnlyFirst s s' k := by
  obtain ⟨params, rest, ht, hrest, hp⟩ := pcs_params h hT hwt hwr hw
  have hclean := params_clean h hT hwt hwr hp
  obtain ⟨s1, hr1, hreach⟩ := params_read h hT hwt hwr hp k
  have hpre : joinWith "\n".toList (params.take k) <+: joinWith "\n".toList params := by
    clear hr1 ht hclean hp hreach
    induction params generalizing k with
    | nil => simp
    | cons l ls ih =>
      cases k with
      | zero => simp [joinWith]
      | succ k =>
        rw [List.take_succ_cons]
        cases ls with
        | nil => simp
        | cons m ls =>
          cases k with
          | zero =>
            rw [List.take_zero, joinWith_cons]
            simp [joinWith]
          | succ k =>
            have := ih (k + 1)
            rw [List.take_succ_cons] at this ⊢
            have e : ∀ (x y : Chars) (zs : List Chars), joinWith "\n".toList (x :: y :: zs) =
                x ++ ("\n".toList ++ joinWith "\n".toList (y :: zs)) := by
              intro x y zs
              rw [joinWith]
              · rw [List.append_assoc]
              · simp
            rw [e, e, List.prefix_append_right_inj, List.prefix_append_right_inj]
            exact this
  obtain ⟨s', h1, h2⟩ := only_first h hT hwt hwr (text := String.ofList (joinWith "\n".toList (params.take k))) (k := k) (s1 := s1) (by
    unfold fileLines
    rw [String.toList_ofList, List.map_map]
    have e : (String.toList ∘ String.ofList) = id := by funext x; simp
    rw [e, List.map_id]
    by_cases hn : params.take k = []
    · rw [hn] at hr1 ⊢
      simpa [joinWith, splitChar, readLines, readLine_empty] using hr1
    · rw [show ("\n".toList : Chars) = ['\n'] from rfl, splitChar_join (fun l hl => hclean l (List.mem_of_mem_take hl)) hn]
      exact hr1) hreach
  exact ⟨_, s', by rw [ht]; exact hpre.trans (List.prefix_append _ _), h1, h2⟩

end

/-! ## Without the clauses -/

/-- Two spaces with the same nodes: what is accepted by the one with more clauses is accepted by the other. -/
theorem fewer_clauses {s s' : Space} {H H' : List HP} {C C' : List Cond} {F F' : List Forb} (p : Pre s H C F)
    (p' : Pre s' H' C' F') (hh : H.Perm H') (hown : ∀ f ∈ F, ∀ h ∈ clauseHps f, h ∈ H)
    (hown' : ∀ f ∈ F', ∀ h ∈ clauseHps f, h ∈ H') (hF : ∀ a : Assign, (∃ f ∈ F', Forbids a f) → ∃ f ∈ F, Forbids a f)
    (hcore : s.com.map Node.core = s'.com.map Node.core) :
    (∀ v al, s.check v al = none → s'.check v al = none) ∧
    (∀ d al c, Config.ofValues s d al = .ok c → Config.ofValues s' d al = .ok c) ∧
    (∀ c, s.defaultConfig = .ok c → s'.defaultConfig = .ok c) := by
  have hidx : s.idx = s'.idx := by
    funext n
    simp [Space.idx, idxOf, names_core hcore]
  have hhp : s.hp? = s'.hp? := by
    funext n
    have := congrArg (Option.map (fun c : HP × Nat × Option Cond => c.1)) (findNode_core n hcore)
    simpa [Space.hp?, Option.map_map, Function.comp_def, Node.core] using this
  have hnd : (H.map HP.name).Nodup := by
    have : (s.dag.nodes.map Node.hp).map HP.name = namesOf s.dag.nodes := by simp [namesOf, Node.name]
    exact ((p.hist.hps.map HP.name).nodup_iff).1 (this ▸ p.hist.ninv.nodup)
  have hinj : ∀ x ∈ H, ∀ y ∈ H, x.name = y.name → x = y :=
    fun x hx y hy e => List.inj_on_of_nodup_map hnd hx hy e
  have hfast : ∀ v, (s'.fast.any (fun f => f.onVec s'.idx v)) = true → (s.fast.any (fun f => f.onVec s.idx v)) = true := by
    intro v
    rw [forb_any_iff, forb_any_iff, hidx,
      optimizedForbs_on (H := H) hinj (fun f hf => hown f (p.hist.forbs.mem_iff.1 hf))
        (fun f hf => p.hist.forbWf f (p.hist.forbs.mem_iff.1 hf)) p.fast,
      optimizedForbs_on (H := H) hinj
        (fun f hf x hx => hh.mem_iff.2 (hown' f (p'.hist.forbs.mem_iff.1 hf) x hx))
        (fun f hf => p'.hist.forbWf f (p'.hist.forbs.mem_iff.1 hf)) p'.fast]
    simp only [p.hist.forbs.mem_iff, p'.hist.forbs.mem_iff]
    exact hF _
  have hcheck : ∀ v al, s.check v al = none → s'.check v al = none := by
    intro v al h
    unfold Space.check at h ⊢
    rw [p.roots, rootNames_core hcore, p.mins, minCondsSorted_core hcore, checkConds_core hidx hhp] at h
    rw [p'.roots, p'.mins]
    unfold firstWith at h ⊢
    rw [hidx] at h
    split at h
    · cases h
    · split at h
      · cases h
      · split at h
        · cases h
        · rename_i h3
          rw [if_neg]
          intro h4
          apply h3
          have := hfast v h4
          rwa [hidx] at this
  have hof : ∀ d al c, Config.ofValues s d al = .ok c → Config.ofValues s' d al = .ok c := by
    intro d al c h
    unfold Config.ofValues at h ⊢
    have hlen : s.len = s'.len := by
      rw [p.len, p'.len]
      simpa using congrArg List.length hcore
    rw [p.com, names_core hcore, hlen, fillValues_core hidx _ _ _ hcore] at h
    rw [p'.com]
    split at h
    · cases h
    · rename_i h1
      rw [if_neg h1]
      split at h
      · cases h
      · split at h
        · cases h
        · rename_i h3
          rw [hcheck _ _ h3]
          exact h
  refine ⟨hcheck, hof, ?_⟩
  intro c h
  unfold Space.defaultConfig at h ⊢
  rw [p.com, defaultValues_core [] hcore] at h
  rw [p'.com]
  split at h
  · cases h
  · exact hof _ _ _ h

/-- The space without its clauses is a space: the same hyperparameters and conditions, and it accepts what the space accepts. -/
theorem without_clauses (h : Reach calls s) (hown : OwnClauses calls) :
    ∃ s0 calls0, Reach calls0 s0 ∧ allHps calls0 = s.com.map Node.hp ∧ allConds calls0 = s.com.filterMap Node.cond ∧
      allForbs calls0 = [] ∧ s0.com.map Node.core = s.com.map Node.core ∧ (∀ v al, s.check v al = none → s0.check v al = none) := by
  have hw := reach_wf h
  have hp := hps_perm h
  have hr := rebuild_fits h
  have eH0 : allHps ([s.hpCall] ++ [s.ruleCall]) = s.com.map Node.hp := by simp [allHps, Space.hpCall, Space.ruleCall]
  have eC0 : allConds ([s.hpCall] ++ [s.ruleCall]) = s.com.filterMap Node.cond := by
    simp [allConds, Space.hpCall, Space.ruleCall]
  have k1 : Call.wf ⟨s.com.map Node.hp, [], []⟩ := ⟨fun x hx => hw.1 x (hp.mem_iff.1 hx), by simp, by simp⟩
  have a1 : (({} : Space).add (s.com.map Node.hp) [] []).2 = none :=
    C58_fresh_hyperparameters Reach.nil rfl rfl _ k1.1 (by simpa [allHps] using hps_nodup h)
  have hr1 := Reach.snoc Reach.nil (c := ⟨s.com.map Node.hp, [], []⟩) k1 (s' := (({} : Space).add (s.com.map Node.hp) [] []).1) (by rw [← a1])
  rw [List.nil_append] at hr1
  have kC : Call.wf ⟨[], s.com.filterMap Node.cond, []⟩ := ⟨by simp, (ruleCall_wf h).2.1, by simp⟩
  have gH : allHps ([⟨s.com.map Node.hp, [], []⟩] ++ [⟨[], s.com.filterMap Node.cond, []⟩]) = s.com.map Node.hp := by simp [allHps]
  have gC : allConds ([⟨s.com.map Node.hp, [], []⟩] ++ [⟨[], s.com.filterMap Node.cond, []⟩]) = s.com.filterMap Node.cond := by
    simp [allConds]
  have gF : allForbs ([⟨s.com.map Node.hp, [], []⟩] ++ [⟨[], s.com.filterMap Node.cond, []⟩]) = [] := by simp [allForbs]
  have hkn : ∀ n, Known ([s.hpCall] ++ [s.ruleCall]) n →
      Known ([⟨s.com.map Node.hp, [], []⟩] ++ [⟨[], s.com.filterMap Node.cond, []⟩]) n := by
    intro n hn
    unfold Known at hn ⊢
    rw [eH0] at hn
    rwa [gH]
  have hfit : Fits [⟨s.com.map Node.hp, [], []⟩] ⟨[], s.com.filterMap Node.cond, []⟩ := by
    refine ⟨by rw [gH]; exact hps_nodup h, fun c hc n hn => hkn n (hr.children c hc n hn),
      fun c hc l hl => hkn _ (hr.parents c hc l hl), ?_, ?_, by simp⟩
    · intro c hc x hx e
      rw [gC] at hx
      exact hr.single c hc x (by rw [eC0]; exact hx) e
    · have := hr.acyclic
      rw [← parentRel_iff, eC0] at this
      rw [← parentRel_iff, gC]
      exact this
  obtain ⟨s0, p0, ha0⟩ := add_candidate hr1 kC hfit (by
    unfold OwnClauses
    rw [gF]
    simp) (by rw [gF]; simp [NoEmptyClause])
  rw [gH, gC, gF] at p0
  have p := pre_of_reach h
  have hcore : s.com.map Node.core = s0.com.map Node.core :=
    core_eq p p0 hp.symm (parentRel_nodeConds h).symm (fun n => (lastCond_nodeConds h n).symm)
  obtain ⟨q1, q2, q3⟩ := fewer_clauses p p0 hp.symm hown (by simp) (by simp) hcore
  obtain ⟨c, hc⟩ := (sinv_of_reach h).default
  rw [q3 c hc] at ha0
  exact ⟨s0, _, Reach.snoc hr1 kC ha0, gH, gC, gF, hcore.symm, q1⟩

/-- C126 is false of the code: every file with clauses has a part that is loaded as a space with the same hyperparameters and the same
conditions and without the clauses.  It accepts all that the space accepts, and what only the clauses exclude. -/
theorem C126_clauses_lost (h : Reach calls s) (hoc : OwnConds calls) (hown : OwnClauses calls) {T : PyText} (hT : NumberTexts T)
    {weighted : Name → Bool} (hwt : ∀ x ∈ allHps calls, weighted x.name = false) (hwr : Writable T calls) {text : String}
    (hw : pcsWrite T weighted s = .ok text) :
    ∃ pre s', pre <+: text.toList ∧ pcsRead T (fileLines (String.ofList pre)) = .ok s' ∧ (∃ calls', Reach calls' s') ∧
      s'.com.map Node.hp = s.com.map Node.hp ∧ s'.com.map Node.cond = s.com.map Node.cond ∧ (∀ a, ∀ f ∈ s'.forbs, ¬ Forbids a f) ∧
      ∀ v al, s.check v al = none → s'.check v al = none := by
  obtain ⟨s0, calls0, h0, e1, e2, e3, hcore, hck⟩ := without_clauses h hown
  have hmem : ∀ x, x ∈ s.com.map Node.hp ↔ x ∈ allHps calls := fun x => (hps_perm h).mem_iff
  have hconds : ∀ c ∈ allConds calls0, c ∈ allConds calls := by
    intro c hc
    rw [e2] at hc
    obtain ⟨_, _, _, h1, _⟩ := mem_nodeConds h hc
    exact h1
  have hoc0 : OwnConds calls0 := by
    intro c hc l hl
    rw [e1, hmem, hmem]
    exact hoc c (hconds c hc) l hl
  have hown0 : OwnClauses calls0 := by intro f hf; rw [e3] at hf; cases hf
  have hwr0 : Writable T calls0 :=
    ⟨fun x hx => hwr.hps x (by rw [e1] at hx; exact (hmem x).1 hx), fun c hc => hwr.conds c (hconds c hc),
      fun f hf => by rw [e3] at hf; cases hf⟩
  obtain ⟨text0, s', calls', w1, w2, w3, w4, w5, w6, w7, -, -⟩ := C67_round_trip_partial h0 hoc0 hown0 hT (weighted := weighted)
    (fun x hx => hwt x (by rw [e1] at hx; exact (hmem x).1 hx)) hwr0 (by intro a _ f hf; rw [e3] at hf; cases hf)
  have ehp : s0.com.map Node.hp = s.com.map Node.hp := by
    have := congrArg (List.map (fun c : HP × Nat × Option Cond => c.1)) hcore
    simpa [Function.comp_def, Node.core] using this
  have ecd : s0.com.map Node.cond = s.com.map Node.cond := by
    have := congrArg (List.map (fun c : HP × Nat × Option Cond => c.2.2)) hcore
    simpa [Function.comp_def, Node.core] using this
  have hf0 : s0.forbs = [] := by
    apply List.eq_nil_iff_forall_not_mem.2
    intro f hf
    have := (mem_forbs h0 f).1 hf
    rw [e3] at this
    cases this
  refine ⟨text0.toList, s', ?_, by rw [String.ofList_toList]; exact w2, ⟨_, w3⟩, by rw [w4, ehp], by rw [w5, ecd], ?_, ?_⟩
  · unfold pcsWrite at hw w1
    have emap : ∀ t : Space, mapExcept (fun x : Node => if (ppName x.name.toList).isNone then .error .valueError
        else buildParam T weighted x.hp) t.com = mapExcept (fun x : HP => if (ppName x.name.toList).isNone then .error .valueError
        else buildParam T weighted x) (t.com.map Node.hp) := by
      intro t
      induction t.com with
      | nil => rfl
      | cons x l ih =>
        simp only [mapExcept, List.map_cons, Node.name]
        rw [← ih]
        rfl
    have econd : s0.conditions = s.conditions := by
      have e : ∀ t : Space, t.com.filterMap Node.cond = (t.com.map Node.cond).filterMap id := by
        intro t; simp [List.filterMap_map]
      unfold Space.conditions
      rw [e, e, ecd]
    rw [emap, econd, hf0, ehp] at w1
    rw [emap] at hw
    revert hw w1
    generalize mapExcept _ (s.com.map Node.hp) = ps
    generalize mapExcept (buildCond T) s.conditions = cs
    generalize mapExcept pcsLines s.forbs = ls
    intro hw w1
    cases ps with
    | error e => cases w1
    | ok ps =>
      cases cs with
      | error e => cases w1
      | ok cs =>
        cases ls with
        | error e => cases hw
        | ok ls =>
          simp only [mapExcept, Except.ok.injEq, List.flatten_nil, List.map_nil] at w1 hw
          rw [← w1, ← hw, String.toList_ofList, String.toList_ofList]
          simp [sortBy]
  · intro a f hf hb
    obtain ⟨g, hg, -⟩ := (w6 a).1 ⟨f, (mem_forbs w3 f).1 hf, hb⟩
    rw [e3] at hg
    cases hg
  · intro v al hv
    rw [w7]
    exact hck v al hv

/-! ## Parts of conditions -/

namespace ExCut
open Ex ExN

def hp3 : HP := ⟨"p", .cat [.str "a", .str "b", .str "c"], .str "a"⟩
def callQ : Call := ⟨[hp3, ab "y"], [.lit ⟨ab "y", hp3, .isIn [.str "a", .str "b"] [0, 1]⟩], []⟩
def spQ : Space := committed {} callQ

theorem reachQ : Reach [callQ] spQ :=
  Reach.snoc (calls := []) .nil (by decide +kernel)
    (add_of_stages [("p", some (.str "a")), ("y", some (.str "a"))] [some 0, some 0] [("p", .str "a"), ("y", .str "a")]
      (by decide +kernel) (by decide +kernel) (by decide +kernel) (by decide +kernel) (by decide +kernel) (by decide +kernel))

/-- The file of the space, up to its condition. -/
def headQ : String := "p categorical {a, b, c} [a]\ny categorical {a, b} [a]\n\n"

/-- The space of a text, and what its constructor of configurations says to `p = v` and `y = a`. -/
def sayQ (text : String) (v : String) : Option (Option Err) :=
  (pcsRead ExT.text (fileLines text)).toOption.map
    (fun s => raisedBy (Config.ofValues s [("p", some (.str v)), ("y", some (.str "a"))] false))

/-- The hypotheses of the theorems are met: a space with numbers, conditions and clauses. -/
example : ∃ text, pcsWrite ExT.text (fun _ => false) ExN.spN = .ok text ∧ ∀ pre, pre <+: text.toList → ¬ ['\n', '\n'] <:+: pre →
    (∃ e, pcsRead ExT.text (fileLines (String.ofList pre)) = .error e) ∨
      ∃ k s', pcsRead ExT.text (fileLines (String.ofList pre)) = .ok s' ∧ OnlyFirst ExN.spN s' k := by
  obtain ⟨text, -, -, h1, -⟩ := C67_round_trip_partial ExN.reachN ownCN ownN textN (weighted := fun _ => false) (fun _ _ => rfl)
    writableN defaultsN
  exact ⟨text, h1, fun pre h2 h3 => C126_cut_in_parameters_partial ExN.reachN textN (fun _ _ => rfl) writableN h1 h2 h3⟩

example : ∃ text, pcsWrite ExT.text (fun _ => false) ExN.spN = .ok text ∧ (∃ f, f ∈ ExN.spN.forbs) ∧ ∃ pre s', pre <+: text.toList ∧
    pcsRead ExT.text (fileLines (String.ofList pre)) = .ok s' ∧ ∀ a, ∀ f ∈ s'.forbs, ¬ Forbids a f := by
  obtain ⟨text, -, -, h1, -⟩ := C67_round_trip_partial ExN.reachN ownCN ownN textN (weighted := fun _ => false) (fun _ _ => rfl)
    writableN defaultsN
  obtain ⟨pre, s', h2, h3, -, -, -, h4, -⟩ := C126_clauses_lost ExN.reachN ownCN ownN textN (weighted := fun _ => false) (fun _ _ => rfl)
    writableN h1
  exact ⟨text, h1, ⟨forbN, (mem_forbs ExN.reachN forbN).2 (by simp [allForbs, ExN.callN])⟩, pre, s', h2, h3, h4⟩

end ExCut

/-- C126 is false of the code: a file cut inside a condition is loaded with another condition.  The condition says that `y` is active if
`p` is `a` or `b`.  Without its last character it says: only if `p` is `a`.  Cut behind `{a` it says: never.  Cut behind the name of the
child the condition is gone: `y` is always active. -/
theorem C126_condition_changed : ∃ calls s text, Reach calls s ∧ pcsWrite ExT.text (fun _ => false) s = .ok text ∧
    text = ExCut.headQ ++ "y | p in {a, b}" ∧
    ["a", "b", "c"].map (ExCut.sayQ text) = [some none, some none, some (some (.inactiveSet "y"))] ∧
    ["a", "b", "c"].map (ExCut.sayQ (ExCut.headQ ++ "y | p in {a, b")) =
      [some none, some (some (.inactiveSet "y")), some (some (.inactiveSet "y"))] ∧
    ["a", "b", "c"].map (ExCut.sayQ (ExCut.headQ ++ "y | p in {a")) =
      [some (some (.inactiveSet "y")), some (some (.inactiveSet "y")), some (some (.inactiveSet "y"))] ∧
    ["a", "b", "c"].map (ExCut.sayQ (ExCut.headQ ++ "y ")) = [some none, some none, some none] := by
  have h1 : (pcsWrite ExT.text (fun _ => false) ExCut.spQ).toOption = some (ExCut.headQ ++ "y | p in {a, b}") := by decide +kernel
  cases e1 : pcsWrite ExT.text (fun _ => false) ExCut.spQ with
  | error e => rw [e1] at h1; cases h1
  | ok text =>
    rw [e1] at h1
    obtain rfl : text = ExCut.headQ ++ "y | p in {a, b}" := by simpa [Except.toOption] using h1
    exact ⟨_, _, _, ExCut.reachQ, e1, rfl, by decide +kernel, by decide +kernel, by decide +kernel, by decide +kernel⟩

end Verif
