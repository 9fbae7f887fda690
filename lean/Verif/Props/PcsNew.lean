import Verif.Props.Subst
import Verif.Lemmas.PcsFile
import Verif.Props.FromDict
import Verif.Props.FixTypes

/-!
# C67: the new pcs format
-/

set_option autoImplicit false

namespace Verif
open Verif.Spec

variable {calls : List Call} {s : Space}

/-! ## Helpers -/

theorem forall₂_between {α β γ : Type} {P : α → γ → Prop} {Q : γ → β → Prop} : ∀ {as : List α} {bs : List β},
    List.Forall₂ (fun a b => ∃ c, P a c ∧ Q c b) as bs → ∃ cs, List.Forall₂ P as cs ∧ List.Forall₂ Q cs bs
  | [], _, .nil => ⟨[], .nil, .nil⟩
  | _ :: _, _ :: _, .cons ⟨c, h1, h2⟩ h => by
    obtain ⟨cs, h3, h4⟩ := forall₂_between h
    exact ⟨c :: cs, .cons h1 h3, .cons h2 h4⟩

theorem forall₂_right {α β : Type} {P : α → β → Prop} {Q : β → Prop} (h : ∀ a b, P a b → Q b) : ∀ {as : List α} {bs : List β},
    List.Forall₂ P as bs → ∀ b ∈ bs, Q b
  | [], _, .nil => by simp
  | _ :: _, _ :: _, .cons h1 h2 => by
    intro x hx
    rcases List.mem_cons.1 hx with rfl | hx
    · exact h _ _ h1
    · exact forall₂_right h h2 x hx

theorem forall₂_mapExcept {α β : Type} {f : β → Except Err α} : ∀ {as : List α} {bs : List β},
    List.Forall₂ (fun a b => f b = .ok a) as bs → mapExcept f bs = .ok as
  | [], _, .nil => rfl
  | _ :: _, _ :: _, .cons h1 h2 => by rw [mapExcept, h1, forall₂_mapExcept h2]

theorem forall₂_map_eq {α β γ : Type} {f : α → γ} {g : β → γ} : ∀ {as : List α} {bs : List β},
    List.Forall₂ (fun a b => f a = g b) as bs → as.map f = bs.map g
  | [], _, .nil => rfl
  | _ :: _, _ :: _, .cons h1 h2 => by rw [List.map_cons, List.map_cons, h1, forall₂_map_eq h2]

/-- Agreement on vectors is agreement on assignments. -/
theorem forbids_of_onVec {f : Forb} {gss : List (List Forb)}
    (h : ∀ idx v, f.onVec idx v = true ↔ ∃ gs ∈ gss, (Forb.and gs).onVec idx v = true) (a : Assign) :
    Forbids a f ↔ ∃ gs ∈ gss, Forbids a (.and gs) := by
  obtain ⟨ns, hns⟩ : ∃ ns : List Name, ns = (clauseHps f ++ gss.flatMap (fun gs => clauseHps (.and gs))).map HP.name := ⟨_, rfl⟩
  have hat : ∀ n ∈ ns, asg (fun n => ns.idxOf n) (ns.map a) n = a n := by
    intro n hn
    unfold asg Vec.at
    have := List.idxOf_lt_length_of_mem hn
    rw [List.getD_eq_getElem?_getD, List.getElem?_map, List.getElem?_eq_getElem this]
    simp
  have key := h (fun n => ns.idxOf n) (ns.map a)
  rw [onVec_iff, forbids_congr f (b := a) (fun x hx => hat _ (by
    rw [hns]
    exact List.mem_map.2 ⟨x, by simp [hx], rfl⟩))] at key
  rw [key]
  constructor <;> rintro ⟨gs, hgs, hb⟩ <;> refine ⟨gs, hgs, ?_⟩
  · rw [onVec_iff] at hb
    refine (forbids_congr _ (fun x hx => hat _ ?_)).1 hb
    rw [hns]
    exact List.mem_map.2 ⟨x, List.mem_append_right _ (List.mem_flatMap.2 ⟨gs, hgs, hx⟩), rfl⟩
  · rw [onVec_iff]
    refine (forbids_congr _ (fun x hx => hat _ ?_)).2 hb
    rw [hns]
    exact List.mem_map.2 ⟨x, List.mem_append_right _ (List.mem_flatMap.2 ⟨gs, hgs, hx⟩), rfl⟩

theorem goodEq_hps {T : PyText} {hs : List HP} {gs : List Forb} (h : ∀ g ∈ gs, GoodEq T hs g) :
    (Forb.and gs).wf = true ∧ ∀ x ∈ clauseHps (.and gs), x ∈ hs := by
  constructor
  · have : ∀ gs : List Forb, (∀ g ∈ gs, GoodEq T hs g) → Forb.wfL gs = true := by
      intro gs
      induction gs with
      | nil => intro _; rfl
      | cons g gs ih =>
        intro h
        obtain ⟨_, _, _, _, hw, _⟩ := h g (by simp)
        rw [Forb.wfL, hw, ih (fun x hx => h x (by simp [hx]))]
        rfl
    exact this gs h
  · intro x hx
    simp only [clauseHps, mem_clauseHpsL] at hx
    obtain ⟨g, hg, hx⟩ := hx
    obtain ⟨y, v, q, rfl, _, _, hm⟩ := h g hg
    simp only [clauseHps, List.mem_singleton] at hx
    exact hx ▸ hm

theorem childStr_of {c : Cond} {n : Name} (h : childName c = some n) : c.childStr = n := by
  unfold Cond.childStr
  rw [show c.child?.map HP.name = some n from h]
  rfl

theorem conds_nodup (h : Reach calls s) : ((s.com.filterMap Node.cond).map (fun c => c.childStr.toList)).Nodup := by
  have key : ∀ ns : Nodes, (∀ x ∈ ns, x ∈ s.com) →
      ((ns.filterMap Node.cond).map (fun c => c.childStr.toList)).Sublist (ns.map (fun x => x.name.toList)) := by
    intro ns
    induction ns with
    | nil => intro _; exact List.Sublist.refl _
    | cons x ns ih =>
      intro hns
      have := ih (fun y hy => hns y (by simp [hy]))
      cases hc : x.cond with
      | none => rw [List.filterMap_cons_none hc, List.map_cons]; exact this.cons _
      | some c =>
        rw [List.filterMap_cons_some hc, List.map_cons, List.map_cons]
        obtain ⟨-, h2, -⟩ := node_cond h (hns x (by simp)) hc
        rw [childStr_of h2]
        exact this.cons₂ _
  refine (key s.com (fun _ hx => hx)).nodup ?_
  have : s.com.map (fun x => x.name.toList) = (namesOf s.com).map String.toList := by simp [namesOf]
  rw [this]
  exact (reach_ninv h).nodup.map (fun a b e => String.toList_injective e)

/-! ## The round trip -/

/-- What is written, and what reading it amounts to: adding the hyperparameters one by one, then equivalent clauses, then the
conditions. -/
theorem pcs_text (h : Reach calls s) (hoc : OwnConds calls) (hown : OwnClauses calls) {T : PyText} (hT : NumberTexts T)
    {weighted : Name → Bool} (hwt : ∀ x ∈ allHps calls, weighted x.name = false) (hwr : Writable T calls) :
    ∃ text s1 F, pcsWrite T weighted s = .ok text ∧ Reach (singles (s.com.map Node.hp)) s1 ∧ (∀ f ∈ F, f.wf = true) ∧
      (∀ f ∈ F, ∀ x ∈ clauseHps f, x ∈ s.com.map Node.hp) ∧ NoEmptyClause F ∧
      (∀ a : Assign, (∃ f ∈ allForbs calls, Forbids a f) ↔ ∃ f ∈ F, Forbids a f) ∧
      (∀ s2 e, s1.add [] [] F = (s2, some e) → pcsRead T (fileLines text) = .error e) ∧
      (∀ s2 s3, s1.add [] [] F = (s2, none) → Reach (singles (s.com.map Node.hp) ++ [⟨[], [], F⟩]) s2 →
        s2.add [] (s.com.filterMap Node.cond) [] = (s3, none) → pcsRead T (fileLines text) = .ok s3) := by
  have hw := reach_wf h
  have hmem : ∀ x, x ∈ s.com.map Node.hp ↔ x ∈ allHps calls := fun x => (hps_perm h).mem_iff
  have hplain : ∀ x ∈ allHps calls, PlainName x.name := by
    intro x hx
    have := (hwr.hps x hx).1.name
    exact ⟨fun hb => absurd (this _ hb) (by decide), fun hb => absurd (this _ hb) (by decide)⟩
  have hpa := printApart_of_plain h hoc hplain
  -- the parameters
  obtain ⟨params, hpar, hpar2⟩ := mapExcept_forall (f := fun x : Node => if (ppName x.name.toList).isNone then .error .valueError
      else buildParam T weighted x.hp) (P := fun x l => ∃ c cs, l = c :: (cs ++ [']']) ∧ nameChar c = true ∧
        (∀ y ∈ cs, parChar y = true) ∧ readParam T l = .ok x.hp) (xs := s.com) (by
    intro x hx
    have hx' : x.hp ∈ allHps calls := (hmem _).1 (List.mem_map.2 ⟨x, hx, rfl⟩)
    obtain ⟨c, cs, h1, h2, h3, h4⟩ := hp_line hT (hw.1 _ hx') (hwr.hps _ hx') (hwt _ hx')
    have hn : ppName (x.name.toList ++ []) = some ([x.name.toList], []) := ppName_ok (hwr.hps _ hx').1 (by simp [Ends])
    rw [List.append_nil] at hn
    refine ⟨_, ?_, c, cs, rfl, h2, h3, h4⟩
    rw [hn, ← h1]
    rfl)
  have hpar3 := List.forall₂_map_left_iff (f := Node.hp) (R := fun x l => ∃ c cs, l = c :: (cs ++ [']']) ∧ nameChar c = true ∧
        (∀ y ∈ cs, parChar y = true) ∧ readParam T l = .ok x) |>.2 hpar2
  obtain ⟨s1, hr1, hreach1⟩ := readLines_params (T := T) (s.com.map Node.hp) params Reach.nil rfl rfl
    (fun x hx => hw.1 x ((hmem x).1 hx)) (by simpa [allHps] using hps_nodup h) hpar3
  rw [List.nil_append] at hreach1
  have hcom1 : ∀ x, x ∈ s1.com.map Node.hp ↔ x ∈ allHps calls := fun x => by
    rw [(hps_perm hreach1).mem_iff, allHps_singles, hmem]
  -- the conditions
  obtain ⟨clines, hcl, hcl2⟩ := mapExcept_forall (f := buildCond T) (P := fun c l => ∃ tk,
      (tk.getD 0 [] = c.childStr.toList ∧ ∀ s', Looked s' → CondIn s' c → readCond T s' tk = .ok c) ∧
      (Line okChar l ∧ '|' ∈ l ∧ ppCondition l = some (tk, []))) (xs := s.conditions) (by
    intro c hc
    rw [conditions_eq h hpa] at hc
    obtain ⟨_, _, _, hc', _⟩ := mem_nodeConds h hc
    obtain ⟨line, tk, k1, k2, k3, k4, k5, k6⟩ := cond_line hT (hw.2.1 c hc') (hwr.conds c hc') (fun l hl =>
      ⟨hwr.hps _ (hoc c hc' l hl).1, (hwr.hps _ (hoc c hc' l hl).2).1⟩)
    exact ⟨line, k1, tk, ⟨k5, k6⟩, k2, k3, k4⟩)
  obtain ⟨tks, ht1, ht2⟩ := forall₂_between hcl2
  -- the clauses
  obtain ⟨flines, hfl, hfl2⟩ := mapExcept_forall (f := pcsLines) (P := fun f ls => ∃ gss : List (List Forb),
      ((∀ gs ∈ gss, gs ≠ [] ∧ ∀ g ∈ gs, GoodEq T (s.com.map Node.hp) g) ∧
        (∀ a : Assign, Forbids a f ↔ ∃ gs ∈ gss, Forbids a (.and gs))) ∧ ls = gss.map pairsOf) (xs := s.forbs) (by
    intro f hf
    have hf' := (mem_forbs h f).1 hf
    obtain ⟨gss, k1, k2, k3⟩ := forb_lines (hw.2.2 f hf') (hwr.forbs f hf')
    refine ⟨_, k1, gss, ⟨fun gs hgs => ⟨(k2 gs hgs).1, fun g hg => ?_⟩, forbids_of_onVec k3⟩, rfl⟩
    obtain ⟨y, v, q, e, e1, e2, e3⟩ := (k2 gs hgs).2 g hg
    exact ⟨y, v, q, e, e1, e2, (hmem y).2 (hown f hf' y e3)⟩)
  obtain ⟨gsss, hg1, hg2⟩ := forall₂_between hfl2
  have hfl3 : flines.flatten = gsss.flatten.map pairsOf := by
    have : flines = gsss.map (fun gss => gss.map pairsOf) := by
      have := forall₂_map_eq (f := fun gss : List (List Forb) => gss.map pairsOf) (g := id)
        (List.Forall₂.imp (fun _ _ e => e.symm) hg2)
      simpa using this.symm
    rw [this, List.map_flatten]
  have hgood : ∀ gs ∈ gsss.flatten, gs ≠ [] ∧ ∀ g ∈ gs, GoodEq T (s.com.map Node.hp) g := by
    intro gs hgs
    obtain ⟨gss, hgss, hgs⟩ := List.mem_flatten.1 hgs
    exact forall₂_right (Q := fun gss : List (List Forb) => ∀ gs ∈ gss, gs ≠ [] ∧ ∀ g ∈ gs, GoodEq T (s.com.map Node.hp) g)
      (fun _ _ k => k.1) hg1 gss hgss gs hgs
  have hsem : ∀ a : Assign, (∃ f ∈ s.forbs, Forbids a f) ↔ ∃ gs ∈ gsss.flatten, Forbids a (.and gs) := by
    intro a
    clear hfl3 hgood hg2 hfl2 hfl
    generalize s.forbs = fs at hg1
    induction hg1 with
    | nil => simp
    | cons k _ ih =>
      rw [List.flatten_cons]
      simp only [List.exists_mem_cons_iff, List.mem_append, or_and_right, exists_or]
      rw [ih, k.2 a]
  obtain ⟨gs', hperm, hsort⟩ := perm_map (f := fun gs => forbText T (pairsOf gs)) (a := gsss.flatten)
    (l := sortBy charsLe (flines.flatten.map (forbText T))) (by
      rw [hfl3, List.map_map]
      exact sortBy_perm _ _)
  have hgood' : ∀ gs ∈ gs', gs ≠ [] ∧ ∀ g ∈ gs, GoodEq T (s.com.map Node.hp) g := fun gs hgs => hgood gs (hperm.mem_iff.1 hgs)
  have hwrs : ∀ x ∈ s.com.map Node.hp, WritableHP x := fun x hx => hwr.hps x ((hmem x).1 hx)
  have hforbline : ∀ l ∈ gs'.map (fun gs => forbText T (pairsOf gs)), ∃ cs, l = '{' :: (cs ++ ['}']) ∧ ∀ x ∈ cs, parChar x = true := by
    intro l hl
    obtain ⟨gs, hgs, rfl⟩ := List.mem_map.1 hl
    exact forbText_line (goodEq_pair hT hwrs (hgood' gs hgs).2)
  refine ⟨String.ofList (joinWith "\n".toList params
          ++ (if clines.isEmpty then [] else "\n\n".toList ++ joinWith "\n".toList clines)
          ++ (if (sortBy charsLe (flines.flatten.map (forbText T))).isEmpty then [] else "\n\n".toList ++
            ((sortBy charsLe (flines.flatten.map (forbText T))).map (· ++ "\n".toList)).flatten)),
    s1, gs'.map Forb.and, ?_, hreach1, ?_, ?_, ?_, ?_, ?_⟩
  · unfold pcsWrite
    rw [hpar]
    simp only
    rw [hcl]
    simp only
    rw [hfl]
  · intro f hf
    obtain ⟨gs, hgs, rfl⟩ := List.mem_map.1 hf
    exact (goodEq_hps (hgood' gs hgs).2).1
  · intro f hf
    obtain ⟨gs, hgs, rfl⟩ := List.mem_map.1 hf
    exact (goodEq_hps (hgood' gs hgs).2).2
  · intro hf
    obtain ⟨gs, hgs, e⟩ := List.mem_map.1 hf
    cases e
    exact (hgood' [] hgs).1 rfl
  · intro a
    simp only [← mem_forbs h]
    rw [hsem a]
    simp [hperm.mem_iff]
  have hlines : readLines T {} ((fileLines (String.ofList (joinWith "\n".toList params
        ++ (if clines.isEmpty then [] else "\n\n".toList ++ joinWith "\n".toList clines)
        ++ (if (sortBy charsLe (flines.flatten.map (forbText T))).isEmpty then [] else "\n\n".toList ++
          ((sortBy charsLe (flines.flatten.map (forbText T))).map (· ++ "\n".toList)).flatten)))).map String.toList) =
      .ok { space := s1, conds := tks, forbs := gs'.map (fun gs => forbText T (pairsOf gs)) } := by
    unfold fileLines
    rw [String.toList_ofList, List.map_map]
    have e : (String.toList ∘ String.ofList) = id := by funext x; simp
    rw [e, List.map_id, readLines_filter, hsort, file_lines]
    · rw [readLines_append, readLines_append, hr1]
      simp only
      rw [readLines_conds tks clines ht2]
      simp only
      rw [readLines_forbs _ hforbline]
      simp
    · refine forall₂_right ?_ hpar2
      rintro x l ⟨c, cs, rfl, q1, q2, -⟩
      refine ⟨?_, by simp⟩
      intro hb
      simp only [List.mem_cons, List.mem_append, List.not_mem_nil, or_false] at hb
      rcases hb with rfl | hb | hb
      · exact absurd q1 (by decide)
      · exact absurd (q2 _ hb) (by decide)
      · exact absurd hb (by decide)
    · refine forall₂_right ?_ ht2
      rintro tk l ⟨q1, q2, -⟩
      refine ⟨fun hb => absurd (q1.1 _ hb) (by decide), ?_⟩
      rintro rfl
      cases q2
    · intro l hl
      obtain ⟨cs, rfl, q⟩ := hforbline l hl
      refine ⟨?_, by simp⟩
      intro hb
      simp only [List.mem_cons, List.mem_append, List.not_mem_nil, or_false] at hb
      rcases hb with hb | hb | hb
      · exact absurd hb (by decide)
      · exact absurd (q _ hb) (by decide)
      · exact absurd hb (by decide)
  have hrf : mapExcept (readForbidden T s1) (gs'.map (fun gs => forbText T (pairsOf gs))) = .ok (gs'.map Forb.and) := by
    apply forall₂_mapExcept
    rw [List.forall₂_map_left_iff, List.forall₂_map_right_iff, List.forall₂_same]
    intro gs hgs
    exact readForbidden_ok hT hwrs (looked hreach1) (fun x hx => (hcom1 x).2 ((hmem x).1 hx)) (hgood' gs hgs).1 (hgood' gs hgs).2
  have hkeys : (tks.map (fun c => c.getD 0 [])).Nodup := by
    have := forall₂_map_eq (f := fun c : Cond => c.childStr.toList) (g := fun c : List Chars => c.getD 0 [])
      (List.Forall₂.imp (fun _ _ k => k.1.symm) ht1)
    rw [← this, conditions_eq h hpa]
    exact conds_nodup h
  constructor
  · intro s2 e ha2
    unfold pcsRead
    rw [hlines]
    simp only
    rw [hrf]
    simp only
    rw [ha2]
  · intro s2 s3 ha2 hr2 ha3
    have hcom2 : ∀ x, x ∈ s2.com.map Node.hp ↔ x ∈ allHps calls := fun x => by
      rw [(hps_perm hr2).mem_iff, allHps_snoc, allHps_singles, List.append_nil, hmem]
    have hrc : mapExcept (readCond T s2) (groupByChild tks) = .ok (s.com.filterMap Node.cond) := by
      rw [groupByChild_id hkeys]
      apply forall₂_mapExcept
      rw [← conditions_eq h hpa]
      have hin : ∀ c ∈ s.conditions, CondIn s2 c := by
        intro c hc l hl
        rw [conditions_eq h hpa] at hc
        obtain ⟨_, _, _, hc', _⟩ := mem_nodeConds h hc
        exact ⟨(hcom2 _).2 (hoc c hc' l hl).1, (hcom2 _).2 (hoc c hc' l hl).2⟩
      clear hcl hcl2 ht2 hkeys hlines ha3
      revert hin
      generalize s.conditions = cs at ht1
      induction ht1 with
      | nil => intro _; exact .nil
      | cons k _ ih =>
        intro hin
        exact .cons (k.2 s2 (looked hr2) (hin _ (by simp))) (ih (fun c hc => hin c (by simp [hc])))
    unfold pcsRead
    rw [hlines]
    simp only
    rw [hrf]
    simp only
    rw [ha2]
    simp only
    rw [hrc]
    simp only
    rw [ha3]

/-- **C67.** A space whose names and values are words of the format and whose conditions and clauses can be written, and in which no
clause forbids that all hyperparameters have their defaults, can be written, and reading the text gives a space with the same
hyperparameters in the same order and the same conditions, whose clauses forbid the same, which accepts and rejects the same vectors
and values with the same errors, and which has the same default configuration.  `Writable` says what is required; the theorems below
show what happens without. -/
theorem C67_round_trip_partial (h : Reach calls s) (hoc : OwnConds calls) (hown : OwnClauses calls) {T : PyText} (hT : NumberTexts T)
    {weighted : Name → Bool} (hwt : ∀ x ∈ allHps calls, weighted x.name = false) (hwr : Writable T calls)
    (hda : DefaultsAllowed calls) :
    ∃ text s' calls', pcsWrite T weighted s = .ok text ∧ pcsRead T (fileLines text) = .ok s' ∧ Reach calls' s' ∧
      s'.com.map Node.hp = s.com.map Node.hp ∧ s'.com.map Node.cond = s.com.map Node.cond ∧
      (∀ a, (∃ f ∈ allForbs calls', Forbids a f) ↔ ∃ f ∈ allForbs calls, Forbids a f) ∧
      (∀ v al, s'.check v al = s.check v al) ∧ (∀ d al, Config.ofValues s' d al = Config.ofValues s d al) ∧
      s'.defaultConfig = s.defaultConfig := by
  obtain ⟨text, s1, F, hwrite, h1, hwF, hoF, hne, hF, -, hread⟩ := pcs_text h hoc hown hT hwt hwr
  obtain ⟨s2, ha2, hr2⟩ := (add_clauses h h1 hwF hoF hne hF).1 hda
  obtain ⟨s3, ha3, hr3, hcore, k1, k2, k3⟩ := rebuild_parts h hown hr2 hoF hne hF
  refine ⟨text, s3, _, hwrite, hread s2 s3 ha2 hr2 ha3, hr3, ?_, ?_, ?_, k1, k2, k3⟩
  · have := congrArg (List.map (fun c : HP × Nat × Option Cond => c.1)) hcore
    simpa [Function.comp_def, Node.core] using this
  · have := congrArg (List.map (fun c : HP × Nat × Option Cond => c.2.2)) hcore
    simpa [Function.comp_def, Node.core] using this
  · intro a
    rw [allForbs_snoc, allForbs_snoc, allForbs_singles]
    simp only [List.nil_append, List.append_nil]
    exact (hF a).symm

/-- **C67**, violated: the clauses of the file are added before its conditions.  If a clause forbids that all hyperparameters have
their defaults — which is allowed in a space in which not all of them are active by default — then the space can be written, but
reading the text raises `ForbiddenValueError`. -/
theorem C67_clauses_before_conditions (h : Reach calls s) (hoc : OwnConds calls) (hown : OwnClauses calls) {T : PyText}
    (hT : NumberTexts T) {weighted : Name → Bool} (hwt : ∀ x ∈ allHps calls, weighted x.name = false) (hwr : Writable T calls)
    (hda : ¬ DefaultsAllowed calls) :
    ∃ text, pcsWrite T weighted s = .ok text ∧ pcsRead T (fileLines text) = .error .forbidden := by
  obtain ⟨text, s1, F, hwrite, h1, hwF, hoF, hne, hF, hread, -⟩ := pcs_text h hoc hown hT hwt hwr
  obtain ⟨s2, ha2⟩ := (add_clauses h h1 hwF hoF hne hF).2 hda
  exact ⟨text, hwrite, hread s2 _ ha2⟩

/-! ## Where the round trip fails -/

/-- The text of a value as a value. -/
def asText (T : PyText) (v : Val) : Val := .str (T.str v)

theorem asText_wf {T : PyText} {n : Name} {cs : List Val} {d : Val} (hd : d ∈ cs) (hap : (cs.map T.str).Nodup) :
    HP.wf ⟨n, .cat (cs.map (asText T)), asText T d⟩ = true := by
  have hx : cs.isEmpty = false := by
    cases cs with
    | nil => cases hd
    | cons _ _ => rfl
  have h1 : distinctVals (cs.map (asText T)) = true := by
    apply distinctVals_of_pairwise
    rw [List.pairwise_map]
    rw [List.Nodup, List.pairwise_map] at hap
    exact hap.imp (fun h => by simpa [asText, Val.pyEq] using h)
  have h2 : (asText T d).pyIn (cs.map (asText T)) = true := by
    simp only [Val.pyIn, List.any_eq_true]
    exact ⟨_, List.mem_map.2 ⟨d, hd, rfl⟩, by simp [asText, Val.pyEq]⟩
  simp [HP.wf, h1, hx, Kind.legalValue, h2]

theorem asText_chars (T : PyText) (cs : List Val) : (cs.map (asText T)).map T.chars = cs.map T.chars := by
  rw [List.map_map]; rfl

theorem asText_plain {T : PyText} {cs : List Val} (hv : ∀ v ∈ cs, Plain (T.str v).toList) :
    ∀ v ∈ cs.map (asText T), ∃ t, v = .str t ∧ Plain t.toList := by
  intro v h
  obtain ⟨w, hw, rfl⟩ := List.mem_map.1 h
  exact ⟨_, rfl, hv w hw⟩

/-- **C67**, violated: the choices of a categorical hyperparameter come back as strings. -/
theorem C67_choices_become_text {T : PyText} {weighted : Name → Bool} {h : HP} {cs : List Val} (hk : h.kind = .cat cs)
    (hd : h.default ∈ cs) (hn : Plain h.name.toList) (hv : ∀ v ∈ cs, Plain (T.str v).toList) (hap : (cs.map T.str).Nodup)
    (hwt : weighted h.name = false) :
    ∃ line, buildParam T weighted h = .ok line ∧
      readParam T line = .ok ⟨h.name, .cat (cs.map (asText T)), asText T h.default⟩ := by
  refine ⟨catText h.name.toList "categorical" (cs.map T.chars) (T.chars h.default), ?_, ?_⟩
  · unfold buildParam
    simp [hk, hwt, catText]
  · have := readParam_cat (T := T) (asText_wf (n := h.name) hd hap) hn rfl (asText_plain hv)
    rwa [asText_chars] at this

/-- **C67**, violated: a constant comes back as a categorical hyperparameter with one choice, which is a string. -/
theorem C67_constant_becomes_categorical {T : PyText} {weighted : Name → Bool} {h : HP} {v : Val} (hk : h.kind = .const v)
    (hd : h.default = v) (hn : Plain h.name.toList) (hv : Plain (T.str v).toList) :
    ∃ line, buildParam T weighted h = .ok line ∧ readParam T line = .ok ⟨h.name, .cat [asText T v], asText T v⟩ := by
  refine ⟨catText h.name.toList "categorical" ([v].map T.chars) (T.chars h.default), ?_, ?_⟩
  · unfold buildParam
    simp [hk, catText]
  · have := readParam_cat (T := T) (asText_wf (n := h.name) (cs := [v]) (d := v) (by simp) (by simp)) hn rfl
      (asText_plain (by simpa using hv))
    rw [asText_chars] at this
    rw [hd]
    exact this

/-- **C67**, violated: an ordinal hyperparameter with the word `categorical` in its name or in one of its values comes back as a
categorical one, without the order. -/
theorem C67_ordinal_becomes_categorical {T : PyText} {weighted : Name → Bool} {h : HP} {cs : List Val} (hk : h.kind = .ord cs)
    (hd : h.default ∈ cs) (hn : Plain h.name.toList) (hv : ∀ v ∈ cs, Plain (T.str v).toList) (hap : (cs.map T.str).Nodup)
    (hc : "categorical".toList <:+: h.name.toList ∨ ∃ v ∈ cs, "categorical".toList <:+: (T.str v).toList) :
    ∃ line, buildParam T weighted h = .ok line ∧
      readParam T line = .ok ⟨h.name, .cat (cs.map (asText T)), asText T h.default⟩ := by
  refine ⟨catText h.name.toList "ordinal" (cs.map T.chars) (T.chars h.default), ?_, ?_⟩
  · unfold buildParam
    simp [hk, catText]
  · have hs : hasSub "categorical".toList (catText h.name.toList "ordinal" (cs.map T.chars) (T.chars h.default)) = true := by
      rw [hasSub_iff]
      unfold catText
      rcases hc with hc | ⟨v, hv1, hc⟩
      · exact hc.trans (List.prefix_append _ _).isInfix
      · have h1 : T.chars v <:+: joinWith ", ".toList (cs.map T.chars) := by
          clear hk hd hv hap
          induction cs with
          | nil => cases hv1
          | cons w cs ih =>
            rw [List.map_cons, joinWith_cons]
            rcases List.mem_cons.1 hv1 with rfl | hv1
            · exact (List.prefix_append _ _).isInfix
            · obtain ⟨a, b, rfl⟩ := List.append_of_mem hv1
              refine ⟨T.chars w ++ ((a.map T.chars).flatMap (fun x => ", ".toList ++ x) ++ ", ".toList),
                (b.map T.chars).flatMap (fun x => ", ".toList ++ x), ?_⟩
              simp
        refine (List.IsInfix.trans hc h1).trans ?_
        exact ⟨h.name.toList ++ ' ' :: ("ordinal".toList ++ [' ', '{']), '}' :: ' ' :: '[' :: (T.chars h.default ++ [']']), by simp⟩
    have := readParam_words (T := T) (asText_wf (n := h.name) hd hap) hn rfl (asText_plain hv) type_ord
      (by rw [asText_chars]; exact hs)
    rwa [asText_chars] at this

/-- **C67.** A space with a categorical hyperparameter that has weights is not written, rather than written without them:
`ValueError`. -/
theorem C67_weights_rejected {T : PyText} {weighted : Name → Bool} {h : HP} {cs : List Val} (hm : h ∈ s.com.map Node.hp)
    (hk : h.kind = .cat cs) (hw : weighted h.name = true) : pcsWrite T weighted s = .error .valueError := by
  obtain ⟨x, hx, rfl⟩ := List.mem_map.1 hm
  unfold pcsWrite
  split
  · rename_i e he
    obtain ⟨y, _, hye⟩ := mapExcept_error he
    split at hye
    · cases hye; rfl
    · unfold buildParam at hye
      simp only at hye
      split at hye
      · split at hye
        · cases hye; rfl
        · cases hye
      all_goals cases hye
  · rename_i ps hps
    exfalso
    have := mapExcept_forall₂ hps
    clear hps hm
    generalize s.com = xs at hx this
    induction this with
    | nil => cases hx
    | cons h1 _ ih =>
      rcases List.mem_cons.1 hx with rfl | hx'
      · split at h1
        · cases h1
        · unfold buildParam at h1
          rw [hk] at h1
          simp only [hw, if_true] at h1
          cases h1
      · exact ih hx'

example : pcsWrite ExT.text (fun n => n == "p") (Ex.committed {} ⟨[Ex.ab "p", Ex.ab "y"], [], []⟩) = .error .valueError :=
  C67_weights_rejected (h := Ex.ab "p") (by decide +kernel) rfl rfl

/-- **C67**, violated: a conjunction inside of a condition is not written: `NotImplementedError`. -/
theorem C67_nested_condition_not_written {T : PyText} {c : Cond} {cs : List Cond} (hc : c = .and cs ∨ c = .or cs)
    (hn : ∃ d ∈ cs, ∀ l, d ≠ .lit l) : buildCond T c = .error .runtimeError := by
  have hm : mapExcept (buildPart T) cs = .error .runtimeError := by
    obtain ⟨d, hd, hl⟩ := hn
    clear hc
    induction cs with
    | nil => cases hd
    | cons x cs ih =>
      rw [mapExcept]
      rcases List.mem_cons.1 hd with rfl | hd'
      · cases d with
        | lit l => exact absurd rfl (hl l)
        | and _ => rfl
        | or _ => rfl
      · cases x with
        | lit l =>
          simp only [buildPart]
          rw [ih hd']
        | and _ => rfl
        | or _ => rfl
  rcases hc with rfl | rfl
  · simp [buildCond, hm]
  · simp [buildCond, hm]

namespace ExN
open Ex

theorem textN : NumberTexts ExT.text := by
  refine ⟨ExT.text_ok, fun q => ?_⟩
  exact numberText_int ((Encodable.encode q : Nat) : Int)

/-- not (alg == "a" and k in [5, 6]) -/
def forbN : Forb := .and [.eq hpAlg (.str "a") 0, .isIn hpK [.int 5, .int 6] [4/9, 5/9]]

/-- All types of hyperparameters but constants, with conditions and clauses. -/
def callN : Call := ⟨[hpX, hpK, hpO, hpAlg], [condX, condK, condO], [forb1, forbN]⟩
def spN : Space := committed {} callN

theorem reachN : Reach [callN] spN :=
  Reach.snoc (calls := []) .nil (by decide +kernel)
    (add_of_stages [("alg", some (.str "a")), ("k", some (.int 3)), ("o", some (.str "mid")), ("x", some (.flt 1))]
      [some 0, some (2/9), some 1, some (1/2)] [("alg", .str "a"), ("k", .int 3), ("o", .str "mid"), ("x", .flt 1)]
      (by decide +kernel) (by decide +kernel) (by decide +kernel) (by decide +kernel) (by decide +kernel) (by decide +kernel))

theorem ownN : OwnClauses [callN] := by
  have : ∀ f ∈ callN.forbs, ∀ h ∈ clauseHps f, h ∈ callN.hps := by decide +kernel
  simpa [OwnClauses, allForbs, allHps] using this

theorem ownCN : OwnConds [callN] := by
  have : ∀ c ∈ callN.conds, ∀ l ∈ c.dlcs, l.parent ∈ callN.hps ∧ l.child ∈ callN.hps := by decide +kernel
  simpa [OwnConds, allConds, allHps] using this

instance (c : Char) : Decidable (WordChar c) := inferInstanceAs (Decidable (_ ∨ _))
instance (t : List Char) : Decidable (Plain t) := inferInstanceAs (Decidable (_ ∧ _))

theorem writableN : Writable ExT.text [callN] := by
  refine ⟨?_, ?_, ?_⟩
  · intro h hh
    simp only [allHps, List.flatMap_cons, List.flatMap_nil, List.append_nil, callN, List.mem_cons, List.not_mem_nil, or_false] at hh
    rcases hh with rfl | rfl | rfl | rfl
    · exact ⟨by decide +kernel, trivial⟩
    · exact ⟨by decide +kernel, trivial⟩
    · refine ⟨by decide +kernel, ?_, by decide +kernel⟩
      intro v hv
      simp only [List.mem_cons, List.not_mem_nil, or_false] at hv
      rcases hv with rfl | rfl | rfl <;> exact ⟨_, rfl, by decide +kernel, by decide +kernel⟩
    · refine ⟨by decide +kernel, ?_⟩
      intro v hv
      simp only [hpAlg, List.mem_cons, List.not_mem_nil, or_false] at hv
      rcases hv with rfl | rfl <;> exact ⟨_, rfl, by decide +kernel⟩
  · intro c hc
    simp only [allConds, List.flatMap_cons, List.flatMap_nil, List.append_nil, callN, List.mem_cons, List.not_mem_nil, or_false] at hc
    rcases hc with rfl | rfl | rfl
    · refine .and ?_
      intro c hc
      simp only [List.mem_cons, List.not_mem_nil, or_false] at hc
      rcases hc with rfl | rfl
      · exact ⟨_, rfl, _, rfl⟩
      · exact ⟨_, rfl, (by decide : (Val.str "a") ∈ [Val.str "a", Val.str "b"])⟩
    · exact .lit (by decide : (Val.str "a") ∈ [Val.str "a", Val.str "b"])
    · exact .lit ⟨by decide, (by decide : ∀ v ∈ [Val.str "a", Val.str "b"], v ∈ [Val.str "a", Val.str "b"])⟩
  · have word : ∀ t : String, (∃ c r, t.toList = c :: r ∧ c.isDigit = false ∧ c ≠ '+' ∧ c ≠ '-' ∧ c ≠ '.') →
        ClauseWord (ExT.text.str (.str t)).toList := by
      rintro t ⟨c, r, e, h⟩
      refine .inr fun d hd => ?_
      rw [show (ExT.text.str (.str t)).toList = t.toList from rfl, e] at hd
      cases hd
      exact h
    have hb : WritableForb ExT.text (.eq hpAlg (.str "b") 1) :=
      .eq ⟨(by decide : (Val.str "b") ∈ [Val.str "a", Val.str "b"]), word "b" ⟨'b', [], by decide +kernel, by decide⟩⟩
    have ha : WritableForb ExT.text (.eq hpAlg (.str "a") 0) :=
      .eq ⟨(by decide : (Val.str "a") ∈ [Val.str "a", Val.str "b"]), word "a" ⟨'a', [], by decide +kernel, by decide⟩⟩
    have hh : WritableForb ExT.text (.eq hpO (.str "hi") 2) :=
      .eq ⟨(by decide : (Val.str "hi") ∈ [Val.str "lo", Val.str "mid", Val.str "hi"]),
        word "hi" ⟨'h', ['i'], by decide +kernel, by decide⟩⟩
    have hk : WritableForb ExT.text (.isIn hpK [.int 5, .int 6] [4/9, 5/9]) := by
      refine .isIn ?_
      intro v hv
      simp only [List.mem_cons, List.not_mem_nil, or_false] at hv
      rcases hv with rfl | rfl
      · exact ⟨⟨_, rfl⟩, .inl (numberText_int 5)⟩
      · exact ⟨⟨_, rfl⟩, .inl (numberText_int 6)⟩
    intro f hf
    simp only [allForbs, List.flatMap_cons, List.flatMap_nil, List.append_nil, callN, List.mem_cons, List.not_mem_nil, or_false] at hf
    rcases hf with rfl | rfl
    · refine .and ?_
      intro g hg
      simp only [List.mem_cons, List.not_mem_nil, or_false] at hg
      rcases hg with rfl | rfl
      · exact hb
      · exact hh
    · refine .and ?_
      intro g hg
      simp only [List.mem_cons, List.not_mem_nil, or_false] at hg
      rcases hg with rfl | rfl
      · exact ha
      · exact hk

theorem defaultsN : DefaultsAllowed [callN] := by
  intro a ha f hf hb
  have h1 : a "alg" = some 0 := by
    rw [show some (0 : Rat) = hpAlg.kind.toVec hpAlg.default by decide +kernel]
    exact ha hpAlg (by simp [allHps, callN])
  have h2 : a "k" = some (2/9) := by
    rw [show some (2/9 : Rat) = hpK.kind.toVec hpK.default by decide +kernel]
    exact ha hpK (by simp [allHps, callN])
  simp only [allForbs, List.flatMap_cons, List.flatMap_nil, List.append_nil, callN, List.mem_cons, List.not_mem_nil, or_false] at hf
  rcases hf with rfl | rfl
  · rw [forb1, forbids_and] at hb
    have := forbids_eq.1 (hb _ List.mem_cons_self)
    rw [show hpAlg.name = "alg" from rfl, h1] at this
    exact absurd this (by decide)
  · rw [forbN, forbids_and] at hb
    obtain ⟨q, hq, e⟩ := forbids_isIn.1 (hb _ (List.mem_cons_of_mem _ List.mem_cons_self))
    rw [show hpK.name = "k" from rfl, h2] at e
    cases e
    exact absurd hq (by decide +kernel)

/-- The hypotheses of `C67_round_trip_partial` are met. -/
example : ∃ text s', pcsWrite ExT.text (fun _ => false) spN = .ok text ∧ pcsRead ExT.text (fileLines text) = .ok s' ∧
    s'.defaultConfig = spN.defaultConfig := by
  obtain ⟨text, s', _, h1, h2, _, _, _, _, _, _, h3⟩ :=
    C67_round_trip_partial reachN ownCN ownN textN (weighted := fun _ => false) (fun _ _ => rfl) writableN defaultsN
  exact ⟨text, s', h1, h2, h3⟩

/-- `y | p == "b"` and not (y == "a"), where `"a"` is the default of both. -/
def callV : Call := ⟨[ab "p", ab "y"], [.lit ⟨ab "y", ab "p", .bin .eq (.str "b") 1⟩], [.eq (ab "y") (.str "a") 0]⟩
def spV : Space := committed {} callV

theorem reachV : Reach [callV] spV :=
  Reach.snoc (calls := []) .nil (by decide +kernel)
    (add_of_stages [("p", some (.str "a")), ("y", none)] [some 0, none] [("p", .str "a")]
      (by decide +kernel) (by decide +kernel) (by decide +kernel) (by decide +kernel) (by decide +kernel) (by decide +kernel))

/-- The hypotheses of `C67_clauses_before_conditions` are met: a valid space cannot be read back. -/
example : ∃ text, pcsWrite ExT.text (fun _ => false) spV = .ok text ∧
    pcsRead ExT.text (fileLines text) = .error .forbidden := by
  refine C67_clauses_before_conditions reachV ?_ ?_ textN (fun _ _ => rfl) ⟨?_, ?_, ?_⟩ ?_
  · have : ∀ c ∈ callV.conds, ∀ l ∈ c.dlcs, l.parent ∈ callV.hps ∧ l.child ∈ callV.hps := by decide +kernel
    simpa [OwnConds, allConds, allHps] using this
  · have : ∀ f ∈ callV.forbs, ∀ h ∈ clauseHps f, h ∈ callV.hps := by decide +kernel
    simpa [OwnClauses, allForbs, allHps] using this
  · intro h hh
    simp only [allHps, List.flatMap_cons, List.flatMap_nil, List.append_nil, callV, List.mem_cons, List.not_mem_nil, or_false] at hh
    rcases hh with rfl | rfl
    all_goals
      refine ⟨by decide +kernel, ?_⟩
      intro v hv
      simp only [ab, List.mem_cons, List.not_mem_nil, or_false] at hv
      rcases hv with rfl | rfl <;> exact ⟨_, rfl, by decide +kernel⟩
  · intro c hc
    simp only [allConds, List.flatMap_cons, List.flatMap_nil, List.append_nil, callV, List.mem_cons, List.not_mem_nil, or_false] at hc
    subst hc
    exact .lit (by decide : (Val.str "b") ∈ [Val.str "a", Val.str "b"])
  · intro f hf
    simp only [allForbs, List.flatMap_cons, List.flatMap_nil, List.append_nil, callV, List.mem_cons, List.not_mem_nil, or_false] at hf
    subst hf
    refine .eq ⟨(by decide : (Val.str "a") ∈ [Val.str "a", Val.str "b"]), .inr fun c hc => ?_⟩
    rw [show (ExT.text.str (.str "a")).toList = ['a'] by decide +kernel] at hc
    cases hc
    decide
  · intro hda
    refine hda (fun _ => some 0) ?_ (.eq (ab "y") (.str "a") 0) (by simp [allForbs, callV]) (.eq rfl)
    intro h hh
    simp only [allHps, List.flatMap_cons, List.flatMap_nil, List.append_nil, callV, List.mem_cons, List.not_mem_nil, or_false] at hh
    rcases hh with rfl | rfl <;> decide +kernel

/-- A name with a `#` in it. -/
def callL : Call := ⟨[⟨"a#b", .cat [.str "x"], .str "x"⟩], [], []⟩
def spL : Space := committed {} callL

theorem reachL : Reach [callL] spL :=
  Reach.snoc (calls := []) .nil (by decide +kernel)
    (add_of_stages [("a#b", some (.str "x"))] [some 0] [("a#b", .str "x")]
      (by decide +kernel) (by decide +kernel) (by decide +kernel) (by decide +kernel) (by decide +kernel) (by decide +kernel))

/-- A clause on a value that begins with a digit. -/
def hpS : HP := ⟨"size", .cat [.str "1x1", .str "3x3"], .str "1x1"⟩
def callS : Call := ⟨[hpS], [], [.eq hpS (.str "3x3") 1]⟩
def spS : Space := committed {} callS

theorem reachS : Reach [callS] spS :=
  Reach.snoc (calls := []) .nil (by decide +kernel)
    (add_of_stages [("size", some (.str "1x1"))] [some 0] [("size", .str "1x1")]
      (by decide +kernel) (by decide +kernel) (by decide +kernel) (by decide +kernel) (by decide +kernel) (by decide +kernel))

/-- Four hyperparameters without conditions. -/
def callM : Call := ⟨[ab "p", ab "q", ab "r", ab "y"], [], []⟩
def spM : Space := committed {} callM

theorem reachM : Reach [callM] spM :=
  Reach.snoc (calls := []) .nil (by decide +kernel)
    (add_of_stages [("p", some (.str "a")), ("q", some (.str "a")), ("r", some (.str "a")), ("y", some (.str "a"))]
      [some 0, some 0, some 0, some 0] [("p", .str "a"), ("q", .str "a"), ("r", .str "a"), ("y", .str "a")]
      (by decide +kernel) (by decide +kernel) (by decide +kernel) (by decide +kernel) (by decide +kernel) (by decide +kernel))

/-- `y | p in {a, b} && q == a || r == a` -/
def lineM : Chars := "y | p in {a, b} && q == a || r == a".toList
def toksM : List Chars := ["y", "|", "p", "in", "{", "a", ",", "b", "}", "&&", "q", "==", "a", "||", "r", "==", "a"].map String.toList

/-- The hypotheses of `C67_choices_become_text` are met: the integers 1 and 2 come back as strings. -/
example : ∃ line, buildParam ExT.text (fun _ => false) ⟨"n", .cat [.int 1, .int 2], .int 1⟩ = .ok line ∧
    readParam ExT.text line = .ok ⟨"n", .cat [.str "1", .str "2"], .str "1"⟩ := by
  have e1 : asText ExT.text (.int 1) = .str "1" := by decide +kernel
  have e2 : asText ExT.text (.int 2) = .str "2" := by decide +kernel
  have := C67_choices_become_text (T := ExT.text) (weighted := fun _ => false) (h := ⟨"n", .cat [.int 1, .int 2], .int 1⟩) rfl
    (by decide) (by decide +kernel) (by decide +kernel) (by decide +kernel) rfl
  simpa [e1, e2] using this

/-- The hypotheses of `C67_constant_becomes_categorical` are met. -/
example : ∃ line, buildParam ExT.text (fun _ => false) hpC = .ok line ∧ readParam ExT.text line = .ok ⟨"c", .cat [.str "7"], .str "7"⟩ := by
  have e1 : asText ExT.text (.int 7) = .str "7" := by decide +kernel
  have := C67_constant_becomes_categorical (T := ExT.text) (weighted := fun _ => false) (h := hpC) rfl rfl (by decide +kernel)
    (by decide +kernel)
  rwa [e1] at this

/-- The hypotheses of `C67_ordinal_becomes_categorical` are met. -/
example : ∃ line, buildParam ExT.text (fun _ => false) ⟨"categorical_o", .ord [.str "lo", .str "hi"], .str "hi"⟩ = .ok line ∧
    readParam ExT.text line = .ok ⟨"categorical_o", .cat [.str "lo", .str "hi"], .str "hi"⟩ :=
  C67_ordinal_becomes_categorical (T := ExT.text) (weighted := fun _ => false)
    (h := ⟨"categorical_o", .ord [.str "lo", .str "hi"], .str "hi"⟩) rfl (by decide) (by decide +kernel) (by decide +kernel)
    (by decide +kernel) (.inl (by decide +kernel))

/-- The hypotheses of `C67_nested_condition_not_written` are met by a condition of a reachable space. -/
example : Reach [Ex.callMix] Ex.spMix ∧ Ex.condMix ∈ allConds [Ex.callMix] ∧ buildCond ExT.text Ex.condMix = .error .runtimeError :=
  ⟨Ex.reachMix, by simp [allConds, Ex.callMix],
    C67_nested_condition_not_written (.inl rfl) ⟨_, List.mem_cons_of_mem _ List.mem_cons_self, by intro l h; cases h⟩⟩

end ExN

/-- The exception that was raised. -/
def raisedBy {α : Type} : Except Err α → Option Err
  | .error e => some e
  | .ok _ => none

theorem raisedBy_some {α : Type} {x : Except Err α} {e : Err} (h : raisedBy x = some e) : x = .error e := by
  cases x with
  | error e' => cases h; rfl
  | ok _ => cases h

/-- **C67**, violated: the name of a hyperparameter is checked before it is written, but only the beginning of it: the name `a#b`
passes, and on reading the line is cut off before the `#` and ignored. -/
theorem C67_name_lost : ∃ calls s text s', Reach calls s ∧ "a#b" ∈ s.names ∧
    pcsWrite ExT.text (fun _ => false) s = .ok text ∧ pcsRead ExT.text (fileLines text) = .ok s' ∧ s'.names = [] := by
  have h1 : (pcsWrite ExT.text (fun _ => false) ExN.spL).toOption = some "a#b categorical {x} [x]" := by decide +kernel
  have h2 : (pcsRead ExT.text (fileLines "a#b categorical {x} [x]")).toOption.map Space.names = some [] := by decide +kernel
  cases e1 : pcsWrite ExT.text (fun _ => false) ExN.spL with
  | error e => rw [e1] at h1; cases h1
  | ok text =>
    rw [e1] at h1
    obtain rfl : text = "a#b categorical {x} [x]" := by simpa [Except.toOption] using h1
    cases e2 : pcsRead ExT.text (fileLines "a#b categorical {x} [x]") with
    | error e => rw [e2] at h2; cases h2
    | ok s' =>
      rw [e2] at h2
      exact ⟨_, _, _, s', ExN.reachL, by decide +kernel, e1, e2, by simpa [Except.toOption] using h2⟩

/-- **C67**, violated: a clause on a choice that begins with a digit but is not a number, like `3x3`, is written, but reading it raises
an exception of the parser. -/
theorem C67_clause_with_digit : ∃ calls s text, Reach calls s ∧ pcsWrite ExT.text (fun _ => false) s = .ok text ∧
    pcsRead ExT.text (fileLines text) = .error .runtimeError := by
  have h1 : (pcsWrite ExT.text (fun _ => false) ExN.spS).toOption =
    some "size categorical {1x1, 3x3} [1x1]\n\n{size=3x3}\n" := by decide +kernel
  have h2 : raisedBy (pcsRead ExT.text (fileLines "size categorical {1x1, 3x3} [1x1]\n\n{size=3x3}\n")) = some .runtimeError := by
    decide +kernel
  cases e1 : pcsWrite ExT.text (fun _ => false) ExN.spS with
  | error e => rw [e1] at h1; cases h1
  | ok text =>
    rw [e1] at h1
    obtain rfl : text = "size categorical {1x1, 3x3} [1x1]\n\n{size=3x3}\n" := by simpa [Except.toOption] using h1
    exact ⟨_, _, _, ExN.reachS, e1, raisedBy_some h2⟩

/-- **C67**, violated: a condition with `in`, `&&` and `||` in a file is not read, although the grammar allows it. -/
theorem C67_mixed_connectives : ∃ calls s, Reach calls s ∧ ppCondition ExN.lineM = some (ExN.toksM, []) ∧
    readCond ExT.text s ExN.toksM = .error .valueError ∧
    (Cond.or [.and [.lit ⟨Ex.ab "y", Ex.ab "p", .isIn [.str "a", .str "b"] [0, 1]⟩, .lit ⟨Ex.ab "y", Ex.ab "q", .bin .eq (.str "a") 0⟩],
      .lit ⟨Ex.ab "y", Ex.ab "r", .bin .eq (.str "a") 0⟩]).wf = true ∧ ∀ n ∈ ["y", "p", "q", "r"], Ex.ab n ∈ s.com.map Node.hp :=
  ⟨_, _, ExN.reachM, by decide +kernel, raisedBy_some (by decide +kernel), by decide +kernel, by decide +kernel⟩

end Verif
