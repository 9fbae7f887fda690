import Verif.Props.PcsCut
import Verif.Lemmas.PcsQuiet

/-!
# Every part of a pcs file (C126)
-/

set_option autoImplicit false

namespace Verif

open Spec

variable {calls : List Call} {s : Space}

theorem buildCond_form {T : PyText} {c : Cond} {l : Chars} (h : buildCond T c = .ok l) :
    ∃ r, l = c.childStr.toList ++ " | ".toList ++ r := by
  cases c with
  | lit x =>
    cases h
    exact ⟨_, rfl⟩
  | and cs =>
    simp only [buildCond] at h
    split at h
    · cases h
    · cases h; exact ⟨_, rfl⟩
  | or cs =>
    simp only [buildCond] at h
    split at h
    · cases h
    · cases h; exact ⟨_, rfl⟩

/-- The text behind the lines of the hyperparameters. -/
theorem pcs_rest (h : Reach calls s) (hoc : OwnConds calls) (hown : OwnClauses calls) {T : PyText} (hT : NumberTexts T)
    {weighted : Name → Bool} (hwr : Writable T calls) {text : String} (hw : pcsWrite T weighted s = .ok text) :
    ∃ params rest, text.toList = joinWith "\n".toList params ++ rest ∧ (rest = [] ∨ "\n\n".toList <+: rest) ∧
      List.Forall₂ (fun x l => buildParam T weighted x = .ok l) (s.com.map Node.hp) params ∧
      ∀ L ∈ splitChar '\n' rest, Quiet T L := by
  have hwf := reach_wf h
  have hmem : ∀ x, x ∈ s.com.map Node.hp ↔ x ∈ allHps calls := fun x => (hps_perm h).mem_iff
  have hplain : ∀ x ∈ allHps calls, PlainName x.name := by
    intro x hx
    have := (hwr.hps x hx).1.name
    exact ⟨fun hb => absurd (this _ hb) (by decide), fun hb => absurd (this _ hb) (by decide)⟩
  have hpa := printApart_of_plain h hoc hplain
  have hwrs : ∀ x ∈ s.com.map Node.hp, WritableHP x := fun x hx => hwr.hps x ((hmem x).1 hx)
  unfold pcsWrite at hw
  cases hp : mapExcept (fun x : Node => if (ppName x.name.toList).isNone then .error .valueError
      else buildParam T weighted x.hp) s.com with
  | error e => rw [hp] at hw; cases hw
  | ok params =>
    rw [hp] at hw
    simp only at hw
    cases hc : mapExcept (buildCond T) s.conditions with
    | error e => rw [hc] at hw; cases hw
    | ok conds =>
      rw [hc] at hw
      simp only at hw
      cases hf : mapExcept pcsLines s.forbs with
      | error e => rw [hf] at hw; cases hw
      | ok lines =>
        rw [hf] at hw
        simp only [Except.ok.injEq] at hw
        have hconds : ∀ l ∈ conds, ('\n' ∉ l ∧ l ≠ []) ∧ Quiet T l := by
          intro l hl
          obtain ⟨c, hc', hb⟩ := (mapExcept_on hc).1 l hl
          rw [conditions_eq h hpa] at hc'
          obtain ⟨_, _, _, hc2, _⟩ := mem_nodeConds h hc'
          obtain ⟨line, tk, k1, k2, k3, -, k5, -⟩ := cond_line hT (hwf.2.1 c hc2) (hwr.conds c hc2) (fun l hl =>
            ⟨hwr.hps _ (hoc c hc2 l hl).1, (hwr.hps _ (hoc c hc2 l hl).2).1⟩)
          rw [hb] at k1
          cases k1
          refine ⟨⟨fun hm => absurd (k2.1 _ hm) (by decide), by rintro rfl; cases k3⟩, ?_⟩
          obtain ⟨r, rfl⟩ := buildCond_form hb
          refine quiet_cond ?_ (fun x hx => k2.1 x (List.mem_append_right _ hx))
          intro x hx
          unfold Cond.childStr Cond.child? at hx
          cases hd : c.dlcs with
          | nil => rw [hd] at hx; simp at hx
          | cons d ds =>
            rw [hd] at hx
            exact (hwr.hps _ (hoc c hc2 d (by rw [hd]; simp)).2).1.name x hx
        have hforbs : ∀ l ∈ sortBy charsLe (lines.flatten.map (forbText T)), ('\n' ∉ l ∧ l ≠ []) ∧ Quiet T l := by
          intro l hl
          rw [(sortBy_perm _ _).mem_iff] at hl
          obtain ⟨ps, hps, rfl⟩ := List.mem_map.1 hl
          obtain ⟨ls, hls, hps⟩ := List.mem_flatten.1 hps
          obtain ⟨f, hf1, hf2⟩ := (mapExcept_on hf).1 ls hls
          have hf' := (mem_forbs h f).1 hf1
          obtain ⟨gss, k1, k2, k3⟩ := forb_lines (hwf.2.2 f hf') (hwr.forbs f hf')
          rw [hf2] at k1
          cases k1
          obtain ⟨gs, hgs, rfl⟩ := List.mem_map.1 hps
          have hg : ∀ g ∈ gs, GoodEq T (s.com.map Node.hp) g := by
            intro g hg
            obtain ⟨y, v, q, e, e1, e2, e3⟩ := (k2 gs hgs).2 g hg
            exact ⟨y, v, q, e, e1, e2, (hmem y).2 (hown f hf' y e3)⟩
          obtain ⟨cs, e, hcs⟩ := forbText_line (goodEq_pair hT hwrs hg)
          rw [e]
          refine ⟨⟨?_, by simp⟩, quiet_brace⟩
          intro hb
          simp only [List.mem_cons, List.mem_append, List.not_mem_nil, or_false] at hb
          rcases hb with hb | hb | hb
          · exact absurd hb (by decide)
          · exact absurd (hcs _ hb) (by decide)
          · exact absurd hb (by decide)
        refine ⟨params, _, by rw [← hw, String.toList_ofList, List.append_assoc], ?_, ?_, ?_⟩
        · by_cases h1 : conds.isEmpty = true
          · rw [if_pos h1]
            by_cases h2 : (sortBy charsLe (lines.flatten.map (forbText T))).isEmpty = true
            · rw [if_pos h2]; exact .inl rfl
            · rw [if_neg h2]; exact .inr (by simp)
          · rw [if_neg h1]
            exact .inr (by rw [List.append_assoc]; exact List.prefix_append _ _)
        · rw [List.forall₂_map_left_iff]
          refine (mapExcept_forall₂ hp).imp ?_
          intro x l hx
          split at hx
          · cases hx
          · exact hx
        · intro L hL
          cases L with
          | nil => exact quiet_nil T
          | cons x L =>
            have := file_lines (ps := []) (by simp) (fun l hl => (hconds l hl).1) (fun l hl => (hforbs l hl).1)
            have hm : (x :: L) ∈ [] ++ conds ++ sortBy charsLe (lines.flatten.map (forbText T)) := by
              rw [← this, List.mem_filter]
              exact ⟨by simpa [joinWith] using hL, rfl⟩
            simp only [List.nil_append, List.mem_append] at hm
            rcases hm with hm | hm
            · exact (hconds _ hm).2
            · exact (hforbs _ hm).2

/-- The hyperparameters of what is read are those of the lines. -/
theorem pcsRead_hps {T : PyText} {lines : List String} {s' : Space} (hr : pcsRead T lines = .ok s') {f : PcsFile}
    (hf : readLines T {} (lines.map String.toList) = .ok f) {calls1 : List Call} (h1 : Reach calls1 f.space) (hoc : OwnConds calls1)
    (hown : OwnClauses calls1) : ∃ calls', Reach calls' s' ∧ allHps calls' = allHps calls1 := by
  unfold pcsRead at hr
  rw [hf] at hr
  simp only at hr
  split at hr; · cases hr
  rename_i fs hfs
  split at hr; · cases hr
  rename_i s1 ha
  obtain ⟨g, g1, g2⟩ := own_snoc h1 hoc hown (by simp) (by simp) (mapExcept_all (fun x y hx => readForbidden_own h1 hx) hfs) ha
  split at hr; · cases hr
  rename_i cs hcs
  split at hr; · cases hr
  rename_i s2 hb
  cases hr
  refine ⟨_, (own_snoc g g1 g2 (by simp) (mapExcept_all (fun x y hx => readCond_own g hx) hcs) (by simp) hb).1, ?_⟩
  rw [allHps_snoc, allHps_snoc]
  simp

/-- C126, for every part of the file: it cannot be loaded, or it is loaded as a proper space whose hyperparameters are the first ones of
the original, each of them unchanged.  No part gives a hyperparameter that was not in the space. -/
theorem C126_hyperparameters_kept_partial (h : Reach calls s) (hoc : OwnConds calls) (hown : OwnClauses calls) {T : PyText}
    (hT : NumberTexts T) {weighted : Name → Bool} (hwt : ∀ x ∈ allHps calls, weighted x.name = false) (hwr : Writable T calls)
    {text : String} (hw : pcsWrite T weighted s = .ok text) {pre : List Char} (hpre : pre <+: text.toList) :
    (∃ e, pcsRead T (fileLines (String.ofList pre)) = .error e) ∨
      ∃ k s', pcsRead T (fileLines (String.ofList pre)) = .ok s' ∧ (∃ calls', Reach calls' s') ∧
        (s'.com.map Node.hp).Perm ((s.com.map Node.hp).take k) := by
  obtain ⟨params, rest, ht, hrest, hp, hquiet⟩ := pcs_rest h hoc hown hT hwr hw
  have hpre' : pre <+: joinWith "\n".toList params ++ ['\n'] ++ rest.tail := by
    rw [ht] at hpre
    rcases hrest with rfl | ⟨w, rfl⟩
    · rw [List.append_nil] at hpre
      rw [List.append_assoc]
      exact hpre.trans (List.prefix_append _ _)
    · simpa using hpre
  rcases List.prefix_or_prefix_of_prefix hpre' (List.prefix_append _ _) with h1 | ⟨r, rfl⟩
  · rcases cut_params h hT hwt hwr hp h1 with h2 | ⟨k, s', h2, h3, h4, -⟩
    · exact .inl h2
    · exact .inr ⟨k, s', h2, h3, h4⟩
  · cases hr : pcsRead T (fileLines (String.ofList (joinWith "\n".toList params ++ ['\n'] ++ r))) with
    | error e => exact .inl ⟨e, rfl⟩
    | ok s' =>
      right
      have hl : (fileLines (String.ofList (joinWith "\n".toList params ++ ['\n'] ++ r))).map String.toList =
          splitChar '\n' (joinWith "\n".toList params) ++ splitChar '\n' r := by
        unfold fileLines
        rw [String.toList_ofList, List.map_map]
        have e : (String.toList ∘ String.ofList) = id := by funext x; simp
        rw [e, List.map_id, List.append_assoc]
        exact splitChar_append
      obtain ⟨s1, hr1, hreach⟩ := params_read h hT hwt hwr hp params.length
      rw [List.take_length] at hr1
      have hr2 : readLines T {} (splitChar '\n' (joinWith "\n".toList params)) = .ok { space := s1 } := by
        by_cases hn : params = []
        · rw [hn] at hr1 ⊢
          simpa [joinWith, splitChar, readLines, readLine_empty] using hr1
        · rw [show ("\n".toList : Chars) = ['\n'] from rfl, splitChar_join (params_clean h hT hwt hwr hp) hn]
          exact hr1
      have hlines : ∃ f, readLines T {} ((fileLines (String.ofList (joinWith "\n".toList params ++ ['\n'] ++ r))).map String.toList) = .ok f := by
        unfold pcsRead at hr
        split at hr
        · cases hr
        · rename_i f hf; exact ⟨f, hf⟩
      obtain ⟨f, hf⟩ := hlines
      have hfs : f.space = s1 := by
        have hf' := hf
        rw [hl, readLines_append, hr2] at hf'
        simp only at hf'
        refine readLines_quiet ?_ hf'
        intro l hl
        have hsub : '\n' :: r <+: rest := by
          rw [ht, List.append_assoc, List.prefix_append_right_inj] at hpre
          exact hpre
        obtain ⟨L, h1, h2⟩ := splitChar_prefix (c := '\n') hsub l (by simp [splitChar, hl])
        exact ⟨L, h2, hquiet L h1⟩
      obtain ⟨calls', g1, g2⟩ := pcsRead_hps hr hf (calls1 := singles ((s.com.map Node.hp).take params.length)) (by rw [hfs]; exact hreach)
        (by intro c hc; rw [allConds_singles] at hc; cases hc) (by intro c hc; rw [allForbs_singles] at hc; cases hc)
      refine ⟨params.length, s', rfl, ⟨_, g1⟩, ?_⟩
      have := hps_perm g1
      rwa [g2, allHps_singles] at this

/-- The hypotheses are met: a space with numbers, conditions and clauses. -/
example : ∃ text, pcsWrite ExT.text (fun _ => false) ExN.spN = .ok text ∧ ∀ pre, pre <+: text.toList →
    (∃ e, pcsRead ExT.text (fileLines (String.ofList pre)) = .error e) ∨
      ∃ k s', pcsRead ExT.text (fileLines (String.ofList pre)) = .ok s' ∧ (∃ calls', Reach calls' s') ∧
        (s'.com.map Node.hp).Perm ((ExN.spN.com.map Node.hp).take k) := by
  obtain ⟨text, -, -, h1, -⟩ := C67_round_trip_partial ExN.reachN ExN.ownCN ExN.ownN ExN.textN (weighted := fun _ => false)
    (fun _ _ => rfl) ExN.writableN ExN.defaultsN
  exact ⟨text, h1, fun pre h2 => C126_hyperparameters_kept_partial ExN.reachN ExN.ownCN ExN.ownN ExN.textN (fun _ _ => rfl)
    ExN.writableN h1 h2⟩

end Verif
