import Verif.Props.PcsNew
import Verif.Lemmas.PcsOld

/-!
# C73: the old pcs format
-/

set_option autoImplicit false

namespace Verif
open Verif.Spec

variable {calls : List Call} {s : Space}

/-- **C73.** A space without ordinal hyperparameters and constants, whose names and choices are words of the format and whose
conditions are (conjunctions of) tests for choices and whose clauses are about categorical hyperparameters, can be written, and reading
the text gives a space with the same hyperparameters in the same order and the same conditions, whose clauses forbid the same, which
accepts and rejects the same vectors and values with the same errors, and which has the same default configuration.  `OldWritable` says
what is required; the theorems below show what happens without. -/
theorem C73_round_trip_partial (h : Reach calls s) (hoc : OwnConds calls) (hown : OwnClauses calls) {T : PyText} (hT : NumberTexts T)
    {weighted : Name → Bool} (hwt : ∀ x ∈ allHps calls, weighted x.name = false) (hwr : OldWritable T calls) :
    ∃ text s' calls', pcsWriteOld T weighted s = .ok text ∧ pcsReadOld T (fileLines text) = .ok s' ∧ Reach calls' s' ∧
      s'.com.map Node.hp = s.com.map Node.hp ∧ s'.com.map Node.cond = s.com.map Node.cond ∧
      (∀ a, (∃ f ∈ allForbs calls', Forbids a f) ↔ ∃ f ∈ allForbs calls, Forbids a f) ∧
      (∀ v al, s'.check v al = s.check v al) ∧ (∀ d al, Config.ofValues s' d al = Config.ofValues s d al) ∧
      s'.defaultConfig = s.defaultConfig := by
  have hw := reach_wf h
  have hmem : ∀ x, x ∈ s.com.map Node.hp ↔ x ∈ allHps calls := fun x => (hps_perm h).mem_iff
  have hplain : ∀ x ∈ allHps calls, PlainName x.name := by
    intro x hx
    have := (hwr.hps x hx).1.1.name
    exact ⟨fun hb => absurd (this _ hb) (by decide), fun hb => absurd (this _ hb) (by decide)⟩
  have hpa := printApart_of_plain h hoc hplain
  -- the parameters
  obtain ⟨params, hpar, hpar2⟩ := mapExcept_forall (f := fun x : Node => if (ppName x.name.toList).isNone then .error .valueError
      else buildOldParam T weighted x.hp) (P := fun x l => (Line parChar l ∧ ']' ∈ l) ∧ readOldParam T l = .ok x.hp) (xs := s.com) (by
    intro x hx
    have hx' : x.hp ∈ allHps calls := (hmem _).1 (List.mem_map.2 ⟨x, hx, rfl⟩)
    obtain ⟨line, h1, h2, h3⟩ := old_hp_line hT (hw.1 _ hx') (hwr.hps _ hx') (hwt _ hx')
    have hn : ppName (x.name.toList ++ []) = some ([x.name.toList], []) := ppName_ok (hwr.hps _ hx').1.1 (by simp [Ends])
    rw [List.append_nil] at hn
    refine ⟨line, ?_, h2, h3⟩
    rw [hn, ← h1]
    rfl)
  have hpar3 := List.forall₂_map_left_iff (f := Node.hp) (R := fun x l => (Line parChar l ∧ ']' ∈ l) ∧ readOldParam T l = .ok x) |>.2 hpar2
  -- the conditions
  obtain ⟨clines, hcl, hcl2⟩ := mapExcept_forall (f := buildOldCond T) (P := fun c l => ∃ ls : List Lit,
      (ls ≠ [] ∧ (∀ l ∈ ls, (Line okChar (oldLitText T l) ∧ '|' ∈ oldLitText T l) ∧
        ppOldCond (oldLitText T l) = some (oldLitToks T l, []) ∧ l.child.name = c.childStr) ∧
      ∀ s', Looked s' → CondIn s' c → readOldCond s' (ls.map (oldLitToks T)) = .ok c) ∧
      l = joinWith "\n".toList (ls.map (oldLitText T))) (xs := s.conditions) (by
    intro c hc
    rw [conditions_eq h hpa] at hc
    obtain ⟨_, _, _, hc', _⟩ := mem_nodeConds h hc
    obtain ⟨ls, k1, k2, k3, k4⟩ := old_cond_lines (T := T) (hw.2.1 c hc') (hwr.conds c hc') (fun l hl =>
      ⟨(hwr.hps _ (hoc c hc' l hl).1).1, (hwr.hps _ (hoc c hc' l hl).2).1.1⟩)
    exact ⟨_, k2, ls, ⟨k1, k3, k4⟩, rfl⟩)
  obtain ⟨lss, ht1, ht2⟩ := forall₂_between hcl2
  have hclines : clines = (lss.map (fun ls => ls.map (oldLitText T))).map (joinWith "\n".toList) := by
    have := forall₂_map_eq (f := fun ls : List Lit => joinWith "\n".toList (ls.map (oldLitText T))) (g := id)
        (List.Forall₂.imp (fun _ _ e => e.symm) ht2)
    rw [List.map_map]
    simpa [Function.comp_def] using this.symm
  have hlsne : ∀ ls ∈ lss, ls ≠ [] := forall₂_right (fun _ _ k => k.1) ht1
  have hlits : ∀ l ∈ lss.flatten, (Line okChar (oldLitText T l) ∧ '|' ∈ oldLitText T l) ∧
      ppOldCond (oldLitText T l) = some (oldLitToks T l, []) := by
    intro l hl
    obtain ⟨ls, hls, hl⟩ := List.mem_flatten.1 hl
    exact forall₂_right (Q := fun ls : List Lit => ∀ l ∈ ls, (Line okChar (oldLitText T l) ∧ '|' ∈ oldLitText T l) ∧
      ppOldCond (oldLitText T l) = some (oldLitToks T l, [])) (fun _ _ k l hl => ⟨(k.2.1 l hl).1, (k.2.1 l hl).2.1⟩) ht1 ls hls l hl
  -- the clauses
  obtain ⟨hs, hhs⟩ : ∃ hs, hs = (s.com.map Node.hp).filter (fun x => match x.kind with | .cat _ => true | _ => false) := ⟨_, rfl⟩
  have hhsm : ∀ x, x ∈ hs ↔ x ∈ s.com.map Node.hp ∧ IsCat x := by
    intro x
    rw [hhs, List.mem_filter]
    unfold IsCat
    cases x.kind <;> simp
  obtain ⟨flines, hfl, hfl2⟩ := mapExcept_forall (f := pcsLines) (P := fun f ls => ∃ gss : List (List Forb),
      ((∀ gs ∈ gss, gs ≠ [] ∧ ∀ g ∈ gs, GoodEq T hs g) ∧
        (∀ a : Assign, Forbids a f ↔ ∃ gs ∈ gss, Forbids a (.and gs))) ∧ ls = gss.map pairsOf) (xs := s.forbs) (by
    intro f hf
    have hf' := (mem_forbs h f).1 hf
    obtain ⟨gss, k1, k2, k3⟩ := forb_lines (hw.2.2 f hf') (hwr.forbs f hf').1
    refine ⟨_, k1, gss, ⟨fun gs hgs => ⟨(k2 gs hgs).1, fun g hg => ?_⟩, forbids_of_onVec k3⟩, rfl⟩
    obtain ⟨y, v, q, e, e1, e2, e3⟩ := (k2 gs hgs).2 g hg
    exact ⟨y, v, q, e, e1, e2, (hhsm y).2 ⟨(hmem y).2 (hown f hf' y e3), (hwr.forbs f hf').2 y e3⟩⟩)
  obtain ⟨gsss, hg1, hg2⟩ := forall₂_between hfl2
  have hfl3 : flines.flatten = gsss.flatten.map pairsOf := by
    have : flines = gsss.map (fun gss => gss.map pairsOf) := by
      have := forall₂_map_eq (f := fun gss : List (List Forb) => gss.map pairsOf) (g := id)
        (List.Forall₂.imp (fun _ _ e => e.symm) hg2)
      simpa using this.symm
    rw [this, List.map_flatten]
  have hgood : ∀ gs ∈ gsss.flatten, gs ≠ [] ∧ ∀ g ∈ gs, GoodEq T hs g := by
    intro gs hgs
    obtain ⟨gss, hgss, hgs⟩ := List.mem_flatten.1 hgs
    exact forall₂_right (Q := fun gss : List (List Forb) => ∀ gs ∈ gss, gs ≠ [] ∧ ∀ g ∈ gs, GoodEq T hs g)
      (fun _ _ k => k.1) hg1 gss hgss gs hgs
  have hsem : ∀ a : Assign, (∃ f ∈ s.forbs, Forbids a f) ↔ ∃ gs ∈ gsss.flatten, Forbids a (.and gs) := by
    intro a
    clear hfl3 hgood hg2 hfl2 hfl
    generalize s.forbs = fs at hg1
    induction hg1 with
    | nil => simp
    | cons k _ ih =>
      rw [List.flatten_cons]
      simp only [List.exists_mem_cons_iff, List.mem_append, or_and_right, exists_or]
      rw [ih, k.2 a]
  obtain ⟨gs', hperm, hsort⟩ := perm_map (f := fun gs => forbText T (pairsOf gs)) (a := gsss.flatten)
    (l := sortBy charsLe (flines.flatten.map (forbText T))) (by
      rw [hfl3, List.map_map]
      exact sortBy_perm _ _)
  have hgood' : ∀ gs ∈ gs', gs ≠ [] ∧ ∀ g ∈ gs, GoodEq T hs g := fun gs hgs => hgood gs (hperm.mem_iff.1 hgs)
  have hwrs : ∀ x ∈ hs, WritableHP x ∧ IsCat x := fun x hx =>
    ⟨(hwr.hps x ((hmem x).1 ((hhsm x).1 hx).1)).1, ((hhsm x).1 hx).2⟩
  have hforbline : ∀ l ∈ gs'.map (fun gs => forbText T (pairsOf gs)), ∃ cs, l = '{' :: (cs ++ ['}']) ∧ ∀ x ∈ cs, parChar x = true := by
    intro l hl
    obtain ⟨gs, hgs, rfl⟩ := List.mem_map.1 hl
    exact forbText_line (goodEq_pair hT (fun x hx => (hwrs x hx).1) (hgood' gs hgs).2)
  have hoF : ∀ f ∈ gs'.map Forb.and, ∀ x ∈ clauseHps f, x ∈ s.com.map Node.hp := by
    intro f hf x hx
    obtain ⟨gs, hgs, rfl⟩ := List.mem_map.1 hf
    exact ((hhsm x).1 ((goodEq_hps (hgood' gs hgs).2).2 x hx)).1
  have hF : ∀ a : Assign, (∃ f ∈ allForbs calls, Forbids a f) ↔ ∃ f ∈ gs'.map Forb.and, Forbids a f := by
    intro a
    simp only [← mem_forbs h]
    rw [hsem a]
    simp [hperm.mem_iff]
  obtain ⟨s1, s2, ha1, hr1, ha2, hr2, hcore, k1, k2, k3⟩ := rebuild_rules h hown (F := gs'.map Forb.and) (by
      intro f hf
      obtain ⟨gs, hgs, rfl⟩ := List.mem_map.1 hf
      exact (goodEq_hps (hgood' gs hgs).2).1) hoF (by
      intro hf
      obtain ⟨gs, hgs, e⟩ := List.mem_map.1 hf
      cases e
      exact (hgood' [] hgs).1 rfl) hF
  have hcom1 : ∀ x, x ∈ s1.com.map Node.hp ↔ x ∈ allHps calls := fun x => by
    rw [(hps_perm hr1).mem_iff, ← hmem]
    simp [allHps, Space.hpCall]
  refine ⟨String.ofList (joinWith "\n".toList params
          ++ (if clines.isEmpty then [] else "\n\n".toList ++ joinWith "\n".toList clines)
          ++ (if (sortBy charsLe (flines.flatten.map (forbText T))).isEmpty then [] else "\n\n".toList ++
            ((sortBy charsLe (flines.flatten.map (forbText T))).map (· ++ "\n".toList)).flatten)),
    s2, _, ?_, ?_, hr2, ?_, ?_, ?_, k1, k2, k3⟩
  · unfold pcsWriteOld
    rw [hpar]
    simp only
    rw [hcl]
    simp only
    rw [hfl]
  · have hlines : readOldLines T {} ((fileLines (String.ofList (joinWith "\n".toList params
        ++ (if clines.isEmpty then [] else "\n\n".toList ++ joinWith "\n".toList clines)
        ++ (if (sortBy charsLe (flines.flatten.map (forbText T))).isEmpty then [] else "\n\n".toList ++
          ((sortBy charsLe (flines.flatten.map (forbText T))).map (· ++ "\n".toList)).flatten)))).map String.toList) =
        .ok { hps := s.com.map Node.hp, conds := (lss.map (fun ls => ls.map (oldLitToks T))).flatten,
              forbs := gs'.map (fun gs => forbText T (pairsOf gs)) } := by
      unfold fileLines
      rw [String.toList_ofList, List.map_map]
      have e : (String.toList ∘ String.ofList) = id := by funext x; simp
      have hemp : clines.isEmpty = (lss.flatten.map (oldLitText T)).isEmpty := by
        rw [hclines]
        match lss, hlsne with
        | [], _ => rfl
        | [] :: _, hne => exact absurd rfl (hne [] (by simp))
        | (a :: b) :: lss, _ => rfl
      have hjoin : joinWith "\n".toList clines = joinWith "\n".toList (lss.flatten.map (oldLitText T)) := by
        rw [hclines, joinWith_flatten, List.map_flatten]
        intro ls hls
        obtain ⟨l, hl, rfl⟩ := List.mem_map.1 hls
        intro e
        exact hlsne l hl (List.map_eq_nil_iff.1 e)
      rw [e, List.map_id, readOldLines_filter, hsort, hemp, hjoin, file_lines]
      · rw [readOldLines_append, readOldLines_append, readOldLines_params _ _ hpar3]
        simp only
        rw [readOldLines_conds _ hlits]
        simp only
        rw [readOldLines_forbs _ hforbline]
        simp [List.map_flatten]
      · refine forall₂_right ?_ hpar2
        rintro x l ⟨⟨q1, q2⟩, -⟩
        refine ⟨fun hb => absurd (q1.1 _ hb) (by decide), ?_⟩
        rintro rfl
        cases q2
      · intro l hl
        obtain ⟨k, hk, rfl⟩ := List.mem_map.1 hl
        obtain ⟨⟨q1, q2⟩, -⟩ := hlits k hk
        refine ⟨fun hb => absurd (q1.1 _ hb) (by decide), ?_⟩
        intro e
        rw [e] at q2
        cases q2
      · intro l hl
        obtain ⟨cs, rfl, q⟩ := hforbline l hl
        refine ⟨?_, by simp⟩
        intro hb
        simp only [List.mem_cons, List.mem_append, List.not_mem_nil, or_false] at hb
        rcases hb with hb | hb | hb
        · exact absurd hb (by decide)
        · exact absurd (q _ hb) (by decide)
        · exact absurd hb (by decide)
    have hrf : mapExcept (readOldForb s1) (gs'.map (fun gs => forbText T (pairsOf gs))) = .ok (gs'.map Forb.and) := by
      apply forall₂_mapExcept
      rw [List.forall₂_map_left_iff, List.forall₂_map_right_iff, List.forall₂_same]
      intro gs hgs
      exact readOldForb_ok hT hwrs (looked hr1) (fun x hx => (hcom1 x).2 ((hmem x).1 ((hhsm x).1 hx).1)) (hgood' gs hgs).1
        (hgood' gs hgs).2
    have hgroups : perChild (lss.map (fun ls => ls.map (oldLitToks T))).flatten = lss.map (fun ls => ls.map (oldLitToks T)) := by
      apply perChild_groups (ks := s.conditions.map (fun c => c.childStr.toList))
      · rw [List.forall₂_map_left_iff, List.forall₂_map_right_iff]
        refine (List.Forall₂.imp ?_ ht1).flip
        rintro c ls ⟨q1, q2, -⟩
        refine ⟨fun e => q1 (List.map_eq_nil_iff.1 e), ?_⟩
        intro t ht
        obtain ⟨l, hl, rfl⟩ := List.mem_map.1 ht
        rw [← (q2 l hl).2.2]
        rfl
      · rw [conditions_eq h hpa]
        exact conds_nodup h
    have hrc : mapExcept (readOldCond s1) (lss.map (fun ls => ls.map (oldLitToks T))) = .ok (s.com.filterMap Node.cond) := by
      apply forall₂_mapExcept
      rw [← conditions_eq h hpa, List.forall₂_map_right_iff]
      have hin : ∀ c ∈ s.conditions, CondIn s1 c := by
        intro c hc l hl
        rw [conditions_eq h hpa] at hc
        obtain ⟨_, _, _, hc', _⟩ := mem_nodeConds h hc
        exact ⟨(hcom1 _).2 (hoc c hc' l hl).1, (hcom1 _).2 (hoc c hc' l hl).2⟩
      clear hcl hcl2 ht2 hlines hgroups hclines hlsne hlits
      revert hin
      generalize s.conditions = cs at ht1
      induction ht1 with
      | nil => intro _; exact .nil
      | cons k _ ih =>
        intro hin
        exact .cons (k.2.2 s1 (looked hr1) (hin _ (by simp))) (ih (fun c hc => hin c (by simp [hc])))
    unfold pcsReadOld
    rw [hlines]
    simp only
    rw [ha1]
    simp only
    rw [hrf]
    simp only
    rw [hgroups, hrc]
    simp only
    rw [ha2]
  · have := congrArg (List.map (fun c : HP × Nat × Option Cond => c.1)) hcore
    simpa [Function.comp_def, Node.core] using this
  · have := congrArg (List.map (fun c : HP × Nat × Option Cond => c.2.2)) hcore
    simpa [Function.comp_def, Node.core] using this
  · intro a
    have : allForbs [s.hpCall, ⟨[], s.com.filterMap Node.cond, gs'.map Forb.and⟩] = gs'.map Forb.and := by simp [allForbs, Space.hpCall]
    rw [this]
    exact (hF a).symm

/-! ## What is not written -/

theorem joinStrings_iff {vs : List Val} : (∃ ts, joinStrings vs = .ok ts) ↔ ∀ v ∈ vs, ∃ t, v = .str t := by
  induction vs with
  | nil => simp [joinStrings]
  | cons v vs ih =>
    cases v with
    | str t =>
      simp only [joinStrings, List.forall_mem_cons]
      rw [← ih]
      constructor
      · rintro ⟨ts, h⟩
        refine ⟨⟨t, rfl⟩, ?_⟩
        cases hj : joinStrings vs with
        | error e => rw [hj] at h; cases h
        | ok ts => exact ⟨ts, rfl⟩
      · rintro ⟨-, ts, h⟩
        exact ⟨_, by rw [h]⟩
    | int n => simp [joinStrings]
    | flt q => simp [joinStrings]

mutual
theorem buildOldCond_only (T : PyText) : ∀ (c : Cond) {t : Chars}, buildOldCond T c = .ok t → SmacCond c
  | .lit ⟨child, parent, .bin .eq v x⟩, _, _ => .eq
  | .lit ⟨child, parent, .bin .ne v x⟩, _, h => by simp [buildOldCond, buildOldLit] at h
  | .lit ⟨child, parent, .bin .lt v x⟩, _, h => by simp [buildOldCond, buildOldLit] at h
  | .lit ⟨child, parent, .bin .gt v x⟩, _, h => by simp [buildOldCond, buildOldLit] at h
  | .lit ⟨child, parent, .isIn vs xs⟩, _, h => by
    refine .isIn (joinStrings_iff.1 ?_)
    cases hj : joinStrings vs with
    | error e => simp [buildOldCond, buildOldLit, hj] at h
    | ok ts => exact ⟨ts, rfl⟩
  | .and cs, _, h => by
    refine .and ?_
    cases hj : buildOldConds T cs with
    | error e => simp [buildOldCond, hj] at h
    | ok ts => exact buildOldConds_only T cs hj
  | .or cs, _, h => by simp [buildOldCond] at h
theorem buildOldConds_only (T : PyText) : ∀ (cs : List Cond) {t : List Chars}, buildOldConds T cs = .ok t → ∀ c ∈ cs, SmacCond c
  | [], _, _ => by simp
  | c :: cs, _, h => by
    cases hc : buildOldCond T c with
    | error e => simp [buildOldConds, hc] at h
    | ok t =>
      cases hj : buildOldConds T cs with
      | error e => simp [buildOldConds, hc, hj] at h
      | ok ts =>
        have h1 := buildOldCond_only T c hc
        have h2 := buildOldConds_only T cs hj
        intro d hd
        rcases List.mem_cons.1 hd with rfl | hd
        · exact h1
        · exact h2 d hd
end

/-- **C73**, violated: only some conditions are written; the others (`!=`, `<`, `>`, disjunctions, `in` with numbers) raise an
exception. -/
theorem C73_conditions_written (T : PyText) (c : Cond) : (∃ t, buildOldCond T c = .ok t) ↔ SmacCond c := by
  refine ⟨fun ⟨t, h⟩ => buildOldCond_only T c h, ?_⟩
  intro h
  induction h with
  | eq => exact ⟨_, rfl⟩
  | isIn h =>
    obtain ⟨ts, e⟩ := joinStrings_iff.2 h
    exact ⟨_, by simp only [buildOldCond, buildOldLit, e]; rfl⟩
  | @and cs _ ih =>
    have : ∀ cs : List Cond, (∀ c ∈ cs, ∃ t, buildOldCond T c = .ok t) → ∃ ts, buildOldConds T cs = .ok ts := by
      intro cs
      induction cs with
      | nil => intro _; exact ⟨[], rfl⟩
      | cons c cs ih =>
        intro h
        obtain ⟨t, e⟩ := h c (by simp)
        obtain ⟨ts, e'⟩ := ih (fun d hd => h d (by simp [hd]))
        exact ⟨t :: ts, by simp [buildOldConds, e, e']⟩
    obtain ⟨ts, e⟩ := this cs ih
    exact ⟨_, by simp only [buildOldCond, e]; rfl⟩

theorem mapExcept_each {α β : Type} {f : α → Except Err β} {xs : List α} {ys : List β} (h : mapExcept f xs = .ok ys) :
    ∀ x ∈ xs, ∃ y, f x = .ok y := by
  have := mapExcept_forall₂ h
  clear h
  induction this with
  | nil => simp
  | cons h1 _ ih =>
    intro z hz
    rcases List.mem_cons.1 hz with rfl | hz
    · exact ⟨_, h1⟩
    · exact ih z hz

/-- **C73**, violated: a space with an ordinal hyperparameter, with a weighted categorical one, or with a condition outside of these,
is not written. -/
theorem C73_not_written (s : Space) (T : PyText) (weighted : Name → Bool)
    (hbad : (∃ x ∈ s.com, ∃ vs, x.hp.kind = .ord vs) ∨ (∃ x ∈ s.com, IsCat x.hp ∧ weighted x.name = true) ∨
      ∃ c ∈ s.conditions, ¬ SmacCond c) : ∀ text, pcsWriteOld T weighted s ≠ .ok text := by
  intro text h
  unfold pcsWriteOld at h
  split at h
  · cases h
  rename_i params hp
  split at h
  · cases h
  rename_i conds hc
  rcases hbad with ⟨x, hx, vs, hk⟩ | ⟨x, hx, ⟨vs, hk⟩, hwt⟩ | ⟨c, hm, hn⟩
  · obtain ⟨y, hy⟩ := mapExcept_each hp x hx
    split at hy
    · cases hy
    · simp [buildOldParam, hk] at hy
  · obtain ⟨y, hy⟩ := mapExcept_each hp x hx
    split at hy
    · cases hy
    · have hwt : weighted x.hp.name = true := hwt
      simp [buildOldParam, hk, hwt] at hy
  · exact hn ((C73_conditions_written T c).1 (mapExcept_each hc c hm))

/-! ## What is not read, or read as something else -/

/-- **C73**, violated: a condition on a number is written, but the number in it stays a string when it is read: `ValueError`. -/
theorem C73_number_condition_not_read {calls : List Call} {s : Space} (h : Reach calls s) {T : PyText} {l : Lit}
    (hp : l.parent ∈ s.com.map Node.hp) (hc : l.child ∈ s.com.map Node.hp)
    (hk : (∃ a b, l.parent.kind = .int a b) ∨ ∃ a b, l.parent.kind = .flt a b) {v : Val} {x : Rat} (ht : l.test = .bin .eq v x) :
    buildOldLit T l = .ok (oldLitText T l) ∧ readOldLit s (oldLitToks T l) = .error .valueError := by
  have hlk := looked h
  constructor
  · unfold buildOldLit oldLitText oldWords
    simp [ht]
  · unfold readOldLit oldLitToks
    simp only [List.getD_cons_zero, List.getD_cons_succ, String.ofList_toList, getHP_ok hlk hp, getHP_ok hlk hc,
      List.drop_succ_cons, List.drop_zero, List.dropLast_concat, everyOther_toks]
    unfold oldWords
    simp only [ht, List.map_cons, List.map_nil]
    have : l.parent.kind.legalValue (strVal (T.chars v)) = false := by
      rcases hk with ⟨a, b, hk⟩ | ⟨a, b, hk⟩ <;> rw [hk] <;> rfl
    unfold mkBin
    rw [this]
    simp only [Bool.not_false, if_true]
    split
    · rfl
    · rfl

/-- **C73**, violated: neither is a clause on a number. -/
theorem C73_number_clause_not_read {calls : List Call} {s : Space} (h : Reach calls s) {T : PyText} {x : HP}
    (hx : x ∈ s.com.map Node.hp) (hn : Plain x.name.toList) (hk : (∃ a b, x.kind = .int a b) ∨ ∃ a b, x.kind = .flt a b) {v : Val}
    (hv : ClauseWord (T.str v).toList) (hp : Plain (T.str v).toList) :
    readOldForb s (forbText T [(x.name, v)]) = .error .valueError := by
  have hf : x.kind.legalValue (strVal (T.chars v)) = false := by
    rcases hk with ⟨a, b, hk⟩ | ⟨a, b, hk⟩ <;> rw [hk] <;> rfl
  unfold readOldForb
  rw [ppForbidden_ok (p := (x.name, v)) (ps := []) (by
    intro nv hnv
    rw [List.mem_singleton.1 hnv]
    exact ⟨hn, hp, hv⟩)]
  simp only [pairToks, List.flatMap_nil, List.cons_append, List.nil_append, List.drop_succ_cons, List.drop_zero, oldClauses]
  rw [if_pos (by decide), String.ofList_toList, getHP_ok (looked h) hx]
  simp [mkForbEq, hf]

/-- **C73**, violated: `in` with one value comes back as `==`. -/
theorem C73_single_in_becomes_equals {calls : List Call} {s : Space} (h : Reach calls s) {T : PyText} {l : Lit}
    (hp : l.parent ∈ s.com.map Node.hp) (hc : l.child ∈ s.com.map Node.hp) (hw : l.wf = true) {t : String} {xs : List Rat}
    (ht : l.test = .isIn [.str t] xs) :
    buildOldLit T l = .ok (oldLitText T l) ∧
      ∃ x, xs = [x] ∧ readOldLit s (oldLitToks T l) = .ok (.lit { l with test := .bin .eq (.str t) x }) := by
  have hlk := looked h
  constructor
  · unfold buildOldLit oldLitText oldWords
    simp [ht, joinStrings, PyText.chars, PyText.str]
  · simp only [Lit.wf, ht, Bool.and_eq_true, Bool.not_eq_true', decide_eq_true_eq, List.all_cons, List.all_nil, and_true] at hw
    obtain ⟨⟨⟨h1, -⟩, -⟩, h2, h3⟩ := hw
    obtain ⟨x, hx⟩ := legal_toVec h2
    refine ⟨x, by rw [h3]; simp [hx], ?_⟩
    unfold readOldLit oldLitToks
    simp only [List.getD_cons_zero, List.getD_cons_succ, String.ofList_toList, getHP_ok hlk hp, getHP_ok hlk hc,
      List.drop_succ_cons, List.drop_zero, List.dropLast_concat, everyOther_toks]
    unfold oldWords
    simp only [ht, List.map_cons, List.map_nil]
    rw [show strVal (T.chars (.str t)) = .str t from strVal_chars t]
    unfold mkBin
    rw [h1, h2]
    simp [hx, Except.map]

/-- **C73**, violated: the choices of a categorical hyperparameter come back as strings. -/
theorem C73_choices_become_text {T : PyText} {weighted : Name → Bool} {h : HP} {cs : List Val} (hk : h.kind = .cat cs)
    (hd : h.default ∈ cs) (hn : Plain h.name.toList) (hv : ∀ v ∈ cs, Plain (T.str v).toList) (hap : (cs.map T.str).Nodup)
    (hwt : weighted h.name = false) :
    ∃ line, buildOldParam T weighted h = .ok line ∧
      readOldParam T line = .ok ⟨h.name, .cat (cs.map (asText T)), asText T h.default⟩ := by
  refine ⟨oldCatText h.name.toList (cs.map T.chars) (T.chars h.default), ?_, ?_⟩
  · unfold buildOldParam
    simp [hk, hwt, oldCatText]
  · have := readOldParam_cat (T := T) (asText_wf (n := h.name) hd hap) hn rfl (asText_plain hv)
    rwa [asText_chars] at this

/-- **C73**, violated: a constant comes back as a categorical hyperparameter with one choice, which is a string. -/
theorem C73_constant_becomes_categorical {T : PyText} {weighted : Name → Bool} {h : HP} {v : Val} (hk : h.kind = .const v)
    (hd : h.default = v) (hn : Plain h.name.toList) (hv : Plain (T.str v).toList) :
    ∃ line, buildOldParam T weighted h = .ok line ∧ readOldParam T line = .ok ⟨h.name, .cat [asText T v], asText T v⟩ := by
  refine ⟨oldCatText h.name.toList ([v].map T.chars) (T.chars h.default), ?_, ?_⟩
  · unfold buildOldParam
    simp [hk, oldCatText]
  · have := readOldParam_cat (T := T) (asText_wf (n := h.name) (cs := [v]) (d := v) (by simp) (by simp)) hn rfl
      (asText_plain (by simpa using hv))
    rw [asText_chars] at this
    rw [hd]
    exact this

/-- **C73**, violated: the bounds of an integer hyperparameter are read as floats; integers of more than 53 bits come back as others. -/
theorem C73_integers_through_floats {T : PyText} {weighted : Name → Bool} {h : HP} {l u m : Int} {l' u' m' : Int}
    (hk : h.kind = .int l u) (hd : h.default = .int m) (hn : Plain h.name.toList)
    (h1 : T.parseFloat (toString l) = some (l' : Rat)) (h2 : T.parseFloat (toString u) = some (u' : Rat))
    (h3 : T.parseFloat (toString m) = some (m' : Rat)) (hlm : l' ≤ m') (hmu : m' ≤ u') (hlu : l' < u') :
    ∃ line, buildOldParam T weighted h = .ok line ∧ readOldParam T line = .ok ⟨h.name, .int l' u', .int m'⟩ := by
  refine ⟨oldContText h.name.toList (toString l).toList (toString u).toList (toString m).toList ['i'], ?_, ?_⟩
  · unfold buildOldParam
    simp [hk, hd, oldContText, Val.num?, trunc_int', PyText.chars, PyText.str]
  · rw [readOldParam_int hn h1 h2 h3]
    obtain ⟨hp, e1, e2, e3⟩ := C48_integer_accepts (n := h.name) hlu (d := some m') (by rintro _ ⟨⟩; exact ⟨hlm, hmu⟩)
    have e4 := (C48_integer e1).2.1
    have : hp = ⟨h.name, .int l' u', .int m'⟩ := by
      obtain ⟨n', k', d'⟩ := hp
      simp only at e2 e3 e4 ⊢
      rw [e2, e3 m' rfl, e4]
    rw [← this]
    exact e1

/-! ## Examples -/

namespace ExQ
open Ex

/-- Another way to write floats: with a fraction, so that integers can be read as floats. -/
def text : PyText where
  strFloat q := String.ofList ((toString ((Encodable.encode q : Nat) : Int)).toList ++ ['.'] ++ ['0'])
  parseFloat t := if '.' ∈ t.toList then (String.ofList t.toList.dropLast.dropLast).toInt?.bind (fun n => Encodable.decode n.toNat)
    else t.toInt?.map (fun n => (n : Rat))
  parseInt t := t.toInt?

theorem toInt?_toString (n : Int) : (toString n).toInt? = some n := Int.toInt?_repr n

theorem textQ : NumberTexts text := by
  refine ⟨⟨?_, toInt?_toString⟩, ?_⟩
  · intro q
    simp only [text, String.toList_ofList]
    rw [if_pos (by simp), List.dropLast_concat, List.dropLast_concat, String.ofList_toList, toInt?_toString]
    simp [Encodable.encodek]
  · intro q
    have := NumberText.mk [] (toString (Encodable.encode q : Nat)).toList ['.', '0'] [] (.inl rfl) (digits_repr _)
      (.inr ⟨['0'], ⟨by simp, by decide⟩, rfl⟩) (.inl rfl)
    rw [List.nil_append, List.append_nil] at this
    have e : (text.strFloat q).toList = (toString (Encodable.encode q : Nat)).toList ++ ['.', '0'] := by
      simp only [text, String.toList_ofList, List.append_assoc, List.cons_append, List.nil_append]
      rfl
    rw [e]
    exact this

theorem float_text (n : Int) (h : '.' ∉ (toString n).toList) : FloatReadable text n := by
  unfold FloatReadable
  simp only [text]
  rw [if_neg h, toInt?_toString]
  rfl

/-- `k | alg == "a"`, `x | alg in ["a", "b"] && p == "a"`, and not (`alg == "b"` and `p == "b"`). -/
def hpP : HP := ab "p"
def condKQ : Cond := .lit ⟨hpK, hpAlg, .bin .eq (.str "a") 0⟩
def condXQ : Cond := .and [.lit ⟨hpX, hpAlg, .isIn [.str "a", .str "b"] [0, 1]⟩, .lit ⟨hpX, hpP, .bin .eq (.str "a") 0⟩]
def forbQ : Forb := .and [.eq hpAlg (.str "b") 1, .eq hpP (.str "b") 1]
def callQ : Call := ⟨[hpX, hpK, hpP, hpAlg], [condXQ, condKQ], [forbQ]⟩
def spQ : Space := committed {} callQ

theorem reachQ : Reach [callQ] spQ :=
  Reach.snoc (calls := []) .nil (by decide +kernel)
    (add_of_stages [("alg", some (.str "a")), ("p", some (.str "a")), ("k", some (.int 3)), ("x", some (.flt 1))]
      [some 0, some 0, some (2/9), some (1/2)] [("alg", .str "a"), ("p", .str "a"), ("k", .int 3), ("x", .flt 1)]
      (by decide +kernel) (by decide +kernel) (by decide +kernel) (by decide +kernel) (by decide +kernel) (by decide +kernel))

theorem ownQ : OwnClauses [callQ] := by
  have : ∀ f ∈ callQ.forbs, ∀ h ∈ clauseHps f, h ∈ callQ.hps := by decide +kernel
  simpa [OwnClauses, allForbs, allHps] using this

theorem ownCQ : OwnConds [callQ] := by
  have : ∀ c ∈ callQ.conds, ∀ l ∈ c.dlcs, l.parent ∈ callQ.hps ∧ l.child ∈ callQ.hps := by decide +kernel
  simpa [OwnConds, allConds, allHps] using this

theorem writableQ : OldWritable text [callQ] := by
  have hab : ∀ v ∈ [Val.str "a", Val.str "b"], ∃ t, v = .str t ∧ Plain t.toList := by
    intro v hv
    simp only [List.mem_cons, List.not_mem_nil, or_false] at hv
    rcases hv with rfl | rfl <;> exact ⟨_, rfl, by decide +kernel⟩
  refine ⟨?_, ?_, ?_⟩
  · intro h hh
    simp only [allHps, List.flatMap_cons, List.flatMap_nil, List.append_nil, callQ, List.mem_cons, List.not_mem_nil, or_false] at hh
    rcases hh with rfl | rfl | rfl | rfl
    · exact ⟨⟨by decide +kernel, trivial⟩, trivial⟩
    · refine ⟨⟨by decide +kernel, trivial⟩, ?_⟩
      have e : hpK.kind = .int 1 10 := rfl
      rw [e]
      refine ⟨float_text _ (by decide +kernel), float_text _ (by decide +kernel), ?_⟩
      intro n hn
      cases hn
      exact float_text _ (by decide +kernel)
    · exact ⟨⟨by decide +kernel, hab⟩, trivial⟩
    · exact ⟨⟨by decide +kernel, hab⟩, trivial⟩
  · intro c hc
    simp only [allConds, List.flatMap_cons, List.flatMap_nil, List.append_nil, callQ, List.mem_cons, List.not_mem_nil, or_false] at hc
    rcases hc with rfl | rfl
    · refine .and ?_
      intro c hc
      simp only [List.mem_cons, List.not_mem_nil, or_false] at hc
      rcases hc with rfl | rfl
      · refine ⟨_, rfl, ⟨_, rfl⟩, ⟨by decide, (by decide : ∀ v ∈ [Val.str "a", Val.str "b"], v ∈ [Val.str "a", Val.str "b"])⟩, ?_⟩
        intro op v x e
        cases e
      · refine ⟨_, rfl, ⟨_, rfl⟩, (by decide : (Val.str "a") ∈ [Val.str "a", Val.str "b"]), ?_⟩
        intro op v x e
        cases e
        rfl
    · refine .lit ⟨⟨_, rfl⟩, (by decide : (Val.str "a") ∈ [Val.str "a", Val.str "b"]), ?_⟩
      intro op v x e
      cases e
      rfl
  · have hb : ∀ n, WritableForb text (.eq (ab n) (.str "b") 1) := fun n =>
      .eq ⟨(by decide : (Val.str "b") ∈ [Val.str "a", Val.str "b"]), .inr fun d hd => by
        rw [show (text.str (.str "b")).toList = ['b'] by decide +kernel] at hd
        cases hd
        decide⟩
    intro f hf
    simp only [allForbs, List.flatMap_cons, List.flatMap_nil, List.append_nil, callQ, List.mem_cons, List.not_mem_nil, or_false] at hf
    subst hf
    refine ⟨.and ?_, ?_⟩
    · intro g hg
      simp only [List.mem_cons, List.not_mem_nil, or_false] at hg
      rcases hg with rfl | rfl
      · exact hb "alg"
      · exact hb "p"
    · intro h hh
      have : h = hpAlg ∨ h = hpP := by simpa [forbQ, clauseHps, clauseHpsL] using hh
      rcases this with rfl | rfl <;> exact ⟨_, rfl⟩

/-- The hypotheses of `C73_round_trip_partial` are met. -/
example : ∃ text' s', pcsWriteOld text (fun _ => false) spQ = .ok text' ∧ pcsReadOld text (fileLines text') = .ok s' ∧
    s'.defaultConfig = spQ.defaultConfig := by
  obtain ⟨t, s', _, h1, h2, _, _, _, _, _, _, h3⟩ :=
    C73_round_trip_partial reachQ ownCQ ownQ textQ (weighted := fun _ => false) (fun _ _ => rfl) writableQ
  exact ⟨t, s', h1, h2, h3⟩

/-- The hypotheses of `C73_not_written` are met by a space with an ordinal hyperparameter. -/
example : Reach [ExN.callN] ExN.spN ∧ ∀ t, pcsWriteOld text (fun _ => false) ExN.spN ≠ .ok t := by
  refine ⟨ExN.reachN, C73_not_written _ _ _ (.inl ?_)⟩
  have : hpO ∈ ExN.spN.com.map Node.hp := by decide +kernel
  obtain ⟨x, hx, e⟩ := List.mem_map.1 this
  exact ⟨x, hx, _, by rw [e]; rfl⟩

/-- `p | k == 3`, and not (`k == 4`). -/
def callK : Call := ⟨[hpP, hpK], [.lit ⟨hpP, hpK, .bin .eq (.int 3) (2/9)⟩], [.eq hpK (.int 4) (3/9)]⟩
def spK : Space := committed {} callK

theorem reachK : Reach [callK] spK :=
  Reach.snoc (calls := []) .nil (by decide +kernel)
    (add_of_stages [("k", some (.int 3)), ("p", some (.str "a"))]
      [some (2/9), some 0] [("k", .int 3), ("p", .str "a")]
      (by decide +kernel) (by decide +kernel) (by decide +kernel) (by decide +kernel) (by decide +kernel) (by decide +kernel))

/-- The hypotheses of `C73_number_condition_not_read` are met. -/
example : readOldLit spK (oldLitToks text ⟨hpP, hpK, .bin .eq (.int 3) (2/9)⟩) = .error .valueError :=
  (C73_number_condition_not_read reachK (by decide +kernel) (by decide +kernel) (.inl ⟨_, _, rfl⟩) rfl).2

/-- The hypotheses of `C73_number_clause_not_read` are met. -/
example : readOldForb spK (forbText text [("k", .int 4)]) = .error .valueError :=
  C73_number_clause_not_read (x := hpK) (v := .int 4) reachK (by decide +kernel) (by decide +kernel) (.inl ⟨_, _, rfl⟩)
    (.inl (numberText_int 4)) (numberText_int 4).plain

/-- The hypotheses of `C73_single_in_becomes_equals` are met. -/
example : readOldLit spQ (oldLitToks text ⟨hpX, hpAlg, .isIn [.str "a"] [0]⟩) = .ok (.lit ⟨hpX, hpAlg, .bin .eq (.str "a") 0⟩) := by
  obtain ⟨-, x, e, h⟩ := C73_single_in_becomes_equals (T := text) reachQ (l := ⟨hpX, hpAlg, .isIn [.str "a"] [0]⟩) (by decide +kernel)
    (by decide +kernel) (by decide +kernel) rfl
  cases e
  exact h

/-- The hypotheses of `C73_choices_become_text` are met. -/
example : ∃ line, buildOldParam text (fun _ => false) ⟨"n", .cat [.int 1, .int 2], .int 1⟩ = .ok line ∧
    readOldParam text line = .ok ⟨"n", .cat [.str "1", .str "2"], .str "1"⟩ := by
  have e1 : asText text (.int 1) = .str "1" := by decide +kernel
  have e2 : asText text (.int 2) = .str "2" := by decide +kernel
  have := C73_choices_become_text (T := text) (weighted := fun _ => false) (h := ⟨"n", .cat [.int 1, .int 2], .int 1⟩) rfl
    (by decide) (by decide +kernel) (by decide +kernel) (by decide +kernel) rfl
  simpa [e1, e2] using this

/-- The hypotheses of `C73_constant_becomes_categorical` are met. -/
example : ∃ line, buildOldParam text (fun _ => false) hpC = .ok line ∧ readOldParam text line = .ok ⟨"c", .cat [.str "7"], .str "7"⟩ := by
  have e1 : asText text (.int 7) = .str "7" := by decide +kernel
  have := C73_constant_becomes_categorical (T := text) (weighted := fun _ => false) (h := hpC) rfl rfl (by decide +kernel)
    (by decide +kernel)
  rwa [e1] at this

/-- A conversion that knows only even integers beyond 2^53, as that of Python. -/
def textE : PyText := { text with
  parseFloat := fun t => t.toInt?.map (fun n : Int => if n ≤ 9007199254740992 then (n : Rat) else ((2 * (n / 2) : Int) : Rat)) }

/-- The hypotheses of `C73_integers_through_floats` are met: the upper bound 2^53 + 1 becomes 2^53. -/
example : ∃ line, buildOldParam textE (fun _ => false) ⟨"n", .int 0 9007199254740993, .int 1⟩ = .ok line ∧
    readOldParam textE line = .ok ⟨"n", .int 0 9007199254740992, .int 1⟩ :=
  C73_integers_through_floats (T := textE) (l := 0) (u := 9007199254740993) (m := 1) (l' := 0) (u' := 9007199254740992) (m' := 1)
    rfl rfl (by decide +kernel) (by simp [textE]) (by simp [textE]; norm_num) (by simp [textE])
    (by decide) (by decide) (by decide)

/-- A conversion that reads some numbers. -/
def textF : PyText := { text with parseFloat := fun t => [("1", 1), ("3", 3), ("10", 10)].lookup t }

end ExQ

/-- **C73**, violated: a space with a condition and a clause on a number is written, but not read. -/
theorem C73_numbers_not_read : ∃ calls s text, Reach calls s ∧ pcsWriteOld ExQ.textF (fun _ => false) s = .ok text ∧
    pcsReadOld ExQ.textF (fileLines text) = .error .valueError := by
  have h1 : (pcsWriteOld ExQ.textF (fun _ => false) ExQ.spK).toOption =
    some "k [1, 10] [3]i\np {a, b} [a]\n\np | k in {3}\n\n{k=4}\n" := by decide +kernel
  have h2 : raisedBy (pcsReadOld ExQ.textF (fileLines "k [1, 10] [3]i\np {a, b} [a]\n\np | k in {3}\n\n{k=4}\n")) =
    some .valueError := by decide +kernel
  cases e1 : pcsWriteOld ExQ.textF (fun _ => false) ExQ.spK with
  | error e => rw [e1] at h1; cases h1
  | ok text =>
    rw [e1] at h1
    obtain rfl : text = "k [1, 10] [3]i\np {a, b} [a]\n\np | k in {3}\n\n{k=4}\n" := by simpa [Except.toOption] using h1
    exact ⟨_, _, _, ExQ.reachK, e1, raisedBy_some h2⟩

end Verif
