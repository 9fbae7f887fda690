import Verif.Lemmas.Codec
import Verif.Props.Serial

/-!
# C113: encoders and decoders of the user
-/

set_option autoImplicit false

namespace Verif
open Verif.Spec

variable {calls : List Call} {s : Space}

theorem condParts_rank (c : Cond) : ∀ d ∈ condParts c, sizeOf d < sizeOf c := by
  intro d hd
  cases c with
  | lit l => cases hd
  | and cs => have := List.sizeOf_lt_of_mem (show d ∈ cs from hd); simp only [Cond.and.sizeOf_spec]; omega
  | or cs => have := List.sizeOf_lt_of_mem (show d ∈ cs from hd); simp only [Cond.or.sizeOf_spec]; omega

theorem forbParts_rank (f : Forb) : ∀ d ∈ forbParts f, sizeOf d < sizeOf f := by
  intro d hd
  cases f with
  | and cs => have := List.sizeOf_lt_of_mem (show d ∈ cs from hd); simp only [Forb.and.sizeOf_spec]; omega
  | _ => cases hd

theorem legal_parts (c : Cond) (h : LegalCond s c) : ∀ d ∈ condParts c, LegalCond s d := by
  intro d hd
  cases c with
  | lit l => cases hd
  | and cs =>
    have h1 := h.1
    simp only [Cond.wf, Bool.and_eq_true] at h1
    obtain ⟨_, h4⟩ := wf0_and.1 h1.1
    have hs : sameChild (Cond.dlcsL cs) = true := by simpa [Cond.dlcs] using h1.2
    exact ⟨by simp [Cond.wf, h4 d hd, wf_comp h4 hs hd], fun l hl => h.2 l (by simp only [Cond.dlcs]; exact mem_dlcsL.2 ⟨d, hd, hl⟩)⟩
  | or cs =>
    have h1 := h.1
    simp only [Cond.wf, Bool.and_eq_true] at h1
    obtain ⟨_, h4⟩ := wf0_or.1 h1.1
    have hs : sameChild (Cond.dlcsL cs) = true := by simpa [Cond.dlcs] using h1.2
    exact ⟨by simp [Cond.wf, h4 d hd, wf_comp h4 hs hd], fun l hl => h.2 l (by simp only [Cond.dlcs]; exact mem_dlcsL.2 ⟨d, hd, hl⟩)⟩

theorem legal_forb_parts (f : Forb) (h : LegalForb s f) : ∀ d ∈ forbParts f, LegalForb s d := by
  intro d hd
  cases f with
  | and cs =>
    have hw := h.1
    simp only [Forb.wf] at hw
    rw [wfL_iff'] at hw
    exact ⟨hw d hd, fun x hx => h.2 x (by simp only [clauseHps]; exact mem_clauseHpsL.2 ⟨d, hd, hx⟩)⟩
  | _ => cases hd

/-! ## Single items -/

/-- **C113.** A condition of any nesting that is encoded with the default encoders, some of them overridden by the user, is decoded
correctly with the default decoders and those of the user, provided that the user's encoders and decoders belong together. -/
theorem C113_condition (h : Reach calls s) {u : Codecs} (hu : GoodCodecs u) {c : Cond} (hw : c.wf = true) (hm : CondIn s c) :
    ∃ N, ∀ n m, N ≤ n → N ≤ m → ∃ j, encWith condTy (dictMerge condEncoders u.condE) n c = .ok j ∧
      decWith (dictMerge condDecoders u.condD) s m j = .ok c :=
  ⟨sizeOf c + 1, fun n m hn hm' => roundTrip h (resolved_merge cond_resolved hu.conds) sizeOf condParts_rank legal_parts n m c
    ⟨hw, hm⟩ (by omega) (by omega)⟩

/-- **C113.** The same for clauses. -/
theorem C113_clause (h : Reach calls s) {u : Codecs} (hu : GoodCodecs u) {f : Forb} (hw : f.wf = true) (hm : ForbIn s f) :
    ∃ N, ∀ n m, N ≤ n → N ≤ m → ∃ j, encWith forbTy (dictMerge forbEncoders u.forbE) n f = .ok j ∧
      decWith (dictMerge forbDecoders u.forbD) s m j = .ok f :=
  ⟨sizeOf f + 1, fun n m hn hm' => roundTrip h (resolved_merge forb_resolved hu.forbs) sizeOf forbParts_rank legal_forb_parts n m f
    ⟨hw, hm⟩ (by omega) (by omega)⟩

/-- **C113.** The same for hyperparameters. -/
theorem C113_hyperparameter {u : Codecs} (hu : GoodCodecs u) {x : HP × Option (List Rat)} (hx : LegalHP x) {n m : Nat}
    (hn : 1 ≤ n) (hm : 1 ≤ m) : ∃ j, encWith hpTy (dictMerge hpEncoders u.hpE) n x = .ok j ∧
      decWith (dictMerge hpDecoders u.hpD) {} m j = .ok x :=
  roundTrip .nil (resolved_merge hp_resolved hu.hps) (fun _ => 0) (by simp) (by simp) n m x hx (by omega) (by omega)

/-! ## Spaces -/

theorem rank_bound {α : Type} (r : α → Nat) : ∀ xs : List α, ∃ N, ∀ x ∈ xs, r x < N
  | [] => ⟨0, by simp⟩
  | x :: xs => by
    obtain ⟨N, hN⟩ := rank_bound r xs
    refine ⟨max N (r x + 1), fun y hy => ?_⟩
    rcases List.mem_cons.1 hy with rfl | hy
    · omega
    · have := hN y hy; omega

/-- **C113.** With encoders and decoders that belong together, a space that is written with the user's encoders and read with the user's
decoders is the space that the defaults give (`C42_round_trip_partial`): it has the same hyperparameters in the same order, the same
weights, conditions and clauses, and accepts and rejects the same vectors and values with the same errors.  The numbers `n` and `m` of
nested calls that Python allows must be large enough for the nesting of the conditions and clauses. -/
theorem C113_space_partial (h : Reach calls s) (hoc : OwnConds calls) (hown : OwnClauses calls) (hp : PrintApart calls)
    (w : Name → Option (List Rat)) (ver : String)
    (hb : ∀ x ∈ allHps calls, ∀ cs, x.kind = .cat cs → badWeights cs (w x.name) = false)
    (hn : ∀ x ∈ allHps calls, (∀ cs, x.kind ≠ .cat cs) → w x.name = none) {u : Codecs} (hu : GoodCodecs u) :
    ∃ N, ∀ n m, N ≤ n → N ≤ m → ∃ d s', s.toDictWith u n w ver = .ok d ∧
      fromDictWith u m d = .ok (s', s.com.map (fun x => (x.name, w x.name))) ∧
      fromDict (s.toDict w ver) = .ok (s', s.com.map (fun x => (x.name, w x.name))) ∧
      s'.com.map Node.hp = s.com.map Node.hp ∧ s'.com.map Node.cond = s.com.map Node.cond ∧ s'.forbs = s.forbs ∧
      (∀ v al, s'.check v al = s.check v al) ∧ (∀ d al, Config.ofValues s' d al = Config.ofValues s d al) ∧
      s'.defaultConfig = s.defaultConfig := by
  obtain ⟨s', hf, hrest⟩ := C42_round_trip_partial h hoc hown hp w ver hb hn
  obtain ⟨s1, s2, ha, h1, hb', h2, -⟩ := rebuild h hown
  have hw := reach_wf h
  have hmem1 : ∀ x, x ∈ allHps calls → x ∈ s1.com.map Node.hp := by
    intro x hx
    apply (hps_perm h1).mem_iff.2
    simp only [allHps, List.flatMap_cons, List.flatMap_nil, List.append_nil, Space.hpCall]
    exact (hps_perm h).mem_iff.2 hx
  have lc : ∀ c ∈ s.conditions, LegalCond s1 c := by
    intro c hc
    rw [conditions_eq h hp] at hc
    obtain ⟨_, _, _, hc', _⟩ := mem_nodeConds h hc
    exact ⟨hw.2.1 c hc', fun l hl => ⟨hmem1 _ (hoc c hc' l hl).1, hmem1 _ (hoc c hc' l hl).2⟩⟩
  have lf : ∀ f ∈ s.forbs, LegalForb s1 f := by
    intro f hf'
    have hf' := (mem_forbs h f).1 hf'
    exact ⟨hw.2.2 f hf', fun x hx => hmem1 x (hown f hf' x hx)⟩
  obtain ⟨N1, hN1⟩ := rank_bound (sizeOf : Cond → Nat) s.conditions
  obtain ⟨N2, hN2⟩ := rank_bound (sizeOf : Forb → Nat) s.forbs
  refine ⟨max 1 (max N1 N2), fun n m hn' hm' => ?_⟩
  obtain ⟨hs, a1, a2⟩ := roundTrip_list (s := s) (E := encWith hpTy (dictMerge hpEncoders u.hpE) n)
    (D := decWith (dictMerge hpDecoders u.hpD) {} m) (xs := s.com.map (fun x => (x.hp, w x.name))) (by
      intro x hx
      obtain ⟨y, hy, rfl⟩ := List.mem_map.1 hx
      have hy' := node_hp h hy
      exact C113_hyperparameter hu ⟨hw.1 _ hy', hb _ hy', hn _ hy'⟩ (by omega) (by omega))
  obtain ⟨cs, b1, b2⟩ := roundTrip_list (s := s) (E := encWith condTy (dictMerge condEncoders u.condE) n)
    (D := decWith (dictMerge condDecoders u.condD) s1 m) (xs := s.conditions) (by
      intro c hc
      have := hN1 c hc
      exact roundTrip h1 (resolved_merge cond_resolved hu.conds) sizeOf condParts_rank legal_parts n m c (lc c hc) (by omega) (by omega))
  obtain ⟨gs, c1, c2⟩ := roundTrip_list (s := s) (E := encWith forbTy (dictMerge forbEncoders u.forbE) n)
    (D := decWith (dictMerge forbDecoders u.forbD) s1 m) (xs := s.forbs) (by
      intro f hf'
      have := hN2 f hf'
      exact roundTrip h1 (resolved_merge forb_resolved hu.forbs) sizeOf forbParts_rank legal_forb_parts n m f (lf f hf') (by omega) (by omega))
  have ha' : ({} : Space).add ((s.com.map (fun x => (x.hp, w x.name))).map Prod.fst) [] [] = (s1, none) := by
    rw [List.map_map]
    exact ha
  have hb2 : s1.add [] s.conditions s.forbs = (s2, none) := by rw [conditions_eq h hp]; exact hb'
  have e1 : s.toDictWith u n w ver = .ok (.obj [("name", .null), ("hyperparameters", .arr hs), ("conditions", .arr cs),
      ("forbiddens", .arr gs), ("python_module_version", .str ver), ("format_version", .val (.flt (2 / 5)))]) := by
    simp only [Space.toDictWith, a1, b1, c1]
  have e2 : fromDictWith u m (.obj [("name", .null), ("hyperparameters", .arr hs), ("conditions", .arr cs),
      ("forbiddens", .arr gs), ("python_module_version", .str ver), ("format_version", .val (.flt (2 / 5)))]) =
      .ok (s2, s.com.map (fun x => (x.name, w x.name))) := by
    have f1 : listField [("name", .null), ("hyperparameters", .arr hs), ("conditions", .arr cs),
      ("forbiddens", .arr gs), ("python_module_version", .str ver), ("format_version", .val (.flt (2 / 5)))] "hyperparameters" = .ok hs := rfl
    have f2 : listField [("name", .null), ("hyperparameters", .arr hs), ("conditions", .arr cs),
      ("forbiddens", .arr gs), ("python_module_version", .str ver), ("format_version", .val (.flt (2 / 5)))] "conditions" = .ok cs := rfl
    have f3 : listField [("name", .null), ("hyperparameters", .arr hs), ("conditions", .arr cs),
      ("forbiddens", .arr gs), ("python_module_version", .str ver), ("format_version", .val (.flt (2 / 5)))] "forbiddens" = .ok gs := rfl
    simp only [fromDictWith, f1, f2, f3, a2, ha', b2, c2, hb2]
    rw [List.map_map]
    rfl
  have e3 : s' = s2 := by
    have d2 : decConds s1 (encConds s.conditions) = .ok s.conditions :=
      decConds_encConds fun c hc => decCond_encCond (looked h1) (lc c hc).1 (lc c hc).2
    have d3 : decForbs s1 (encForbs s.forbs) = .ok s.forbs :=
      decForbs_encForbs fun f hf' => decForb_encForb (looked h1) (lf f hf').1 (lf f hf').2
    have d1 : mapExcept decHP (s.com.map (fun x => encHP x.hp (w x.name))) = .ok (s.com.map (fun x => (x.hp, w x.name))) := by
      have : ∀ ns : Nodes, (∀ x ∈ ns, x ∈ s.com) → mapExcept decHP (ns.map (fun x => encHP x.hp (w x.name))) =
          .ok (ns.map (fun x => (x.hp, w x.name))) := by
        intro ns
        induction ns with
        | nil => intro _; rfl
        | cons x ns ih =>
          intro hns
          have hx : x.hp ∈ allHps calls := node_hp h (hns x (by simp))
          simp only [List.map_cons, mapExcept]
          rw [show x.name = x.hp.name from rfl, C42_hyperparameter (hw.1 _ hx) (hb _ hx) (hn _ hx), ih (fun y hy => hns y (by simp [hy]))]
      exact this s.com (fun x hx => hx)
    have f1 : fromDict (s.toDict w ver) = match mapExcept decHP (s.com.map (fun x => encHP x.hp (w x.name))) with
        | .error e => .error e
        | .ok hps => match ({} : Space).add (hps.map Prod.fst) [] [] with
          | (_, some e) => .error e
          | (s1, none) => match decConds s1 (encConds s.conditions) with
            | .error e => .error e
            | .ok conds => match decForbs s1 (encForbs s.forbs) with
              | .error e => .error e
              | .ok forbs => match s1.add [] conds forbs with
                | (_, some e) => .error e
                | (s2, none) => .ok (s2, hps.map (fun p => (p.1.name, p.2))) := by
      rfl
    rw [f1, d1] at hf
    simp only [ha', d2, d3, hb2] at hf
    simp only [Except.ok.injEq, Prod.mk.injEq] at hf
    exact hf.1.symm
  subst e3
  exact ⟨_, s', e1, e2, hf, hrest⟩

/-! ## The defaults -/

theorem merge_nil {K V : Type} (d : List (K × V)) : dictMerge d [] = d := by simp [dictMerge]

theorem tagged_none {tag : String} {fs : Fields} (h : fs.lookup "type" = none) : tagged tag fs = ("type", .str tag) :: fs := by
  unfold tagged
  rw [h, pop_of_lookup_none h]
  rfl

theorem encWith_conds : ∀ (n : Nat) (c : Cond), sizeOf c < n → encWith condTy condEncoders n c = .ok (encCond c)
  | 0, _, h => absurd h (by omega)
  | n + 1, .lit ⟨c, p, .bin op v q⟩, _ => by cases op <;> rfl
  | n + 1, .lit ⟨c, p, .isIn vs q⟩, _ => rfl
  | n + 1, .and cs, h => by
    have hl : mapExcept (encWith condTy condEncoders n) cs = .ok (encConds cs) := by
      have : ∀ ds : List Cond, (∀ d ∈ ds, d ∈ cs) → mapExcept (encWith condTy condEncoders n) ds = .ok (encConds ds) := by
        intro ds
        induction ds with
        | nil => intro _; rfl
        | cons d ds ih =>
          intro hd
          have := condParts_rank (.and cs) d (hd d (by simp))
          simp only [mapExcept, encWith_conds n d (by omega), ih (fun y hy => hd y (by simp [hy])), encConds]
      exact this cs (fun _ hd => hd)
    have e : dictGet condEncoders (condTy (.and cs)) = some ("AND", conjEncoder) := rfl
    simp only [encWith, e, conjEncoder, hl, encCond]
    rfl
  | n + 1, .or cs, h => by
    have hl : mapExcept (encWith condTy condEncoders n) cs = .ok (encConds cs) := by
      have : ∀ ds : List Cond, (∀ d ∈ ds, d ∈ cs) → mapExcept (encWith condTy condEncoders n) ds = .ok (encConds ds) := by
        intro ds
        induction ds with
        | nil => intro _; rfl
        | cons d ds ih =>
          intro hd
          have := condParts_rank (.or cs) d (hd d (by simp))
          simp only [mapExcept, encWith_conds n d (by omega), ih (fun y hy => hd y (by simp [hy])), encConds]
      exact this cs (fun _ hd => hd)
    have e : dictGet condEncoders (condTy (.or cs)) = some ("OR", conjEncoder) := rfl
    simp only [encWith, e, conjEncoder, hl, encCond]
    rfl

theorem encWith_forbs : ∀ (n : Nat) (f : Forb), sizeOf f < n → encWith forbTy forbEncoders n f = .ok (encForb f)
  | 0, _, h => absurd h (by omega)
  | n + 1, .eq _ _ _, _ => rfl
  | n + 1, .isIn _ _ _, _ => rfl
  | n + 1, .rel op _ _, _ => by cases op <;> rfl
  | n + 1, .and cs, h => by
    have hl : mapExcept (encWith forbTy forbEncoders n) cs = .ok (encForbs cs) := by
      have : ∀ ds : List Forb, (∀ d ∈ ds, d ∈ cs) → mapExcept (encWith forbTy forbEncoders n) ds = .ok (encForbs ds) := by
        intro ds
        induction ds with
        | nil => intro _; rfl
        | cons d ds ih =>
          intro hd
          have := forbParts_rank (.and cs) d (hd d (by simp))
          simp only [mapExcept, encWith_forbs n d (by omega), ih (fun y hy => hd y (by simp [hy])), encForbs]
      exact this cs (fun _ hd => hd)
    have e : dictGet forbEncoders (forbTy (.and cs)) = some ("AND", forbEncoder) := rfl
    simp only [encWith, e, forbEncoder, hl, encForb]
    rfl

theorem encWith_hp (n : Nat) (x : HP × Option (List Rat)) : encWith hpTy hpEncoders (n + 1) x = .ok (encHP x.1 x.2) := by
  obtain ⟨⟨a, k, d⟩, w⟩ := x
  cases k <;> rfl

theorem mapExcept_all_ok {α β : Type} {f : α → Except Err β} {g : α → β} : ∀ {xs : List α}, (∀ x ∈ xs, f x = .ok (g x)) →
    mapExcept f xs = .ok (xs.map g)
  | [], _ => rfl
  | x :: xs, h => by simp [mapExcept, h x (by simp), mapExcept_all_ok (fun y hy => h y (List.mem_cons_of_mem _ hy))]

theorem encConds_map (cs : List Cond) : encConds cs = cs.map encCond := by
  induction cs with
  | nil => rfl
  | cons c cs ih => simp [encConds, ih]

theorem encForbs_map (cs : List Forb) : encForbs cs = cs.map encForb := by
  induction cs with
  | nil => rfl
  | cons c cs ih => simp [encForbs, ih]

/-- **C113.** Without encoders of the user, the dictionary is the one of `C42`. -/
theorem C113_default_encoders (s : Space) (w : Name → Option (List Rat)) (ver : String) :
    ∃ N, ∀ n, N ≤ n → s.toDictWith {} n w ver = .ok (s.toDict w ver) := by
  obtain ⟨N1, hN1⟩ := rank_bound (sizeOf : Cond → Nat) s.conditions
  obtain ⟨N2, hN2⟩ := rank_bound (sizeOf : Forb → Nat) s.forbs
  refine ⟨max 1 (max N1 N2), fun n hn => ?_⟩
  have h1 : mapExcept (encWith hpTy hpEncoders n) (s.com.map (fun x => (x.hp, w x.name))) =
      .ok ((s.com.map (fun x => (x.hp, w x.name))).map (fun x => encHP x.1 x.2)) := by
    obtain ⟨k, rfl⟩ : ∃ k, n = k + 1 := ⟨n - 1, by omega⟩
    exact mapExcept_all_ok fun x _ => encWith_hp k x
  have h2 : mapExcept (encWith condTy condEncoders n) s.conditions = .ok (s.conditions.map encCond) :=
    mapExcept_all_ok fun x hx => encWith_conds n x (by have := hN1 x hx; omega)
  have h3 : mapExcept (encWith forbTy forbEncoders n) s.forbs = .ok (s.forbs.map encForb) :=
    mapExcept_all_ok fun x hx => encWith_forbs n x (by have := hN2 x hx; omega)
  simp only [Space.toDictWith, merge_nil, h1, h2, h3, Space.toDict, encConds_map, encForbs_map, List.map_map]
  rfl

theorem decConds_map {s : Space} (js : List Json) : decConds s js = mapExcept (decCond s) js := by
  induction js with
  | nil => simp [decConds, mapExcept]
  | cons j js ih =>
    rw [decConds, mapExcept, ih]
    cases decCond s j with
    | error e => rfl
    | ok c => cases mapExcept (decCond s) js <;> rfl

theorem decForbs_map {s : Space} (js : List Json) : decForbs s js = mapExcept (decForb s) js := by
  induction js with
  | nil => simp [decForbs, mapExcept]
  | cons j js ih =>
    rw [decForbs, mapExcept, ih]
    cases decForb s j with
    | error e => rfl
    | ok c => cases mapExcept (decForb s) js <;> rfl

theorem decCondField_get {s : Space} (fs : Fields) : decCondField s fs = match fs.lookup "conditions" with
    | none => .error .keyError
    | some j => decCondArr s j := by
  induction fs with
  | nil => simp [decCondField]
  | cons kv fs ih =>
    obtain ⟨k, j⟩ := kv
    rw [decCondField, List.lookup_cons]
    by_cases hk : k = "conditions"
    · subst hk; rfl
    · have : ("conditions" == k) = false := by simpa using Ne.symm hk
      rw [if_neg hk, this, ih]

theorem decForbField_get {s : Space} (fs : Fields) : decForbField s fs = match fs.lookup "clauses" with
    | none => .error .keyError
    | some j => decForbArr s j := by
  induction fs with
  | nil => simp [decForbField]
  | cons kv fs ih =>
    obtain ⟨k, j⟩ := kv
    rw [decForbField, List.lookup_cons]
    by_cases hk : k = "clauses"
    · subst hk; rfl
    · have : ("clauses" == k) = false := by simpa using Ne.symm hk
      rw [if_neg hk, this, ih]

theorem mapExcept_congr' {α β : Type} {f g : α → Except Err β} : ∀ {xs : List α}, (∀ x ∈ xs, f x = g x) → mapExcept f xs = mapExcept g xs
  | [], _ => rfl
  | x :: xs, h => by simp only [mapExcept, h x (by simp), mapExcept_congr' (fun y hy => h y (List.mem_cons_of_mem _ hy))]

theorem size_of_lookup {fs : Fields} {k : String} {js : List Json} (h : fs.lookup k = some (.arr js)) {j : Json} (hj : j ∈ js) :
    sizeOf j < sizeOf (Json.obj fs) := by
  have hm : (k, Json.arr js) ∈ fs := by
    rw [List.lookup_eq_some_iff] at h
    obtain ⟨l1, l2, e, -⟩ := h
    rw [e]; simp
  have h1 := List.sizeOf_lt_of_mem hm
  have h2 := List.sizeOf_lt_of_mem hj
  simp only [Prod.mk.sizeOf_spec, Json.arr.sizeOf_spec] at h1
  simp only [Json.obj.sizeOf_spec]
  omega

theorem popType_item {fs : Fields} {t : String} {item : Fields} (h : popType fs = .ok (t, item)) : item = fs.pop "type" := by
  unfold popType at h
  split at h <;> first | cases h; rfl | cases h

theorem conjDecoder_eq {s : Space} {mk : List Cond → Except Err Cond} {fs : Fields} {decode : Json → Except Err Cond}
    (hd : ∀ js, fs.lookup "conditions" = some (.arr js) → ∀ j ∈ js, decode j = decCond s j) :
    conjDecoder mk s (fs.pop "type") decode = match decCondField s fs with
      | .error e => .error e
      | .ok cs => mk cs := by
  rw [decCondField_get]
  simp only [conjDecoder, Fields.get]
  rw [lookup_pop_ne (by decide)]
  cases hl : fs.lookup "conditions" with
  | none => rfl
  | some j =>
    cases j with
    | arr js =>
      simp only [decCondArr]
      rw [decConds_map, mapExcept_congr' (hd js hl)]
      cases mapExcept (decCond s) js <;> rfl
    | _ => rfl

theorem decWith_conds (s : Space) : ∀ (n : Nat) (j : Json), sizeOf j < n → decWith condDecoders s n j = decCond s j
  | 0, _, h => absurd h (by omega)
  | n + 1, .obj fs, h => by
    rw [decCond, decWith]
    cases hp : popType fs with
    | error e => rfl
    | ok x =>
      obtain ⟨t, item⟩ := x
      obtain rfl := popType_item hp
      have hd : ∀ js, fs.lookup "conditions" = some (.arr js) → ∀ j ∈ js, decWith condDecoders s n j = decCond s j := by
        intro js hjs j hj
        have := size_of_lookup hjs hj
        exact decWith_conds s n j (by omega)
      simp only
      by_cases h1 : t = "EQ"
      · subst h1; rfl
      by_cases h2 : t = "NEQ"
      · subst h2; rfl
      by_cases h3 : t = "LT"
      · subst h3; rfl
      by_cases h4 : t = "GT"
      · subst h4; rfl
      by_cases h5 : t = "IN"
      · subst h5; rfl
      by_cases h6 : t = "AND"
      · subst h6
        exact conjDecoder_eq hd
      by_cases h7 : t = "OR"
      · subst h7
        exact conjDecoder_eq hd
      rw [dictGet_none (by simp [condDecoders, h1, h2, h3, h4, h5, h6, h7])]
      simp [h1, h2, h3, h4, h5, h6, h7]
  | n + 1, .null, _ => by rw [decCond, decWith] <;> simp
  | n + 1, .bool _, _ => by rw [decCond, decWith] <;> simp
  | n + 1, .val _, _ => by rw [decCond, decWith] <;> simp
  | n + 1, .arr _, _ => by rw [decCond, decWith] <;> simp

theorem decWith_forbs (s : Space) : ∀ (n : Nat) (j : Json), sizeOf j < n → decWith forbDecoders s n j = decForb s j
  | 0, _, h => absurd h (by omega)
  | n + 1, .obj fs, h => by
    rw [decForb, decWith]
    cases hp : popType fs with
    | error e => rfl
    | ok x =>
      obtain ⟨t, item⟩ := x
      obtain rfl := popType_item hp
      have hd : ∀ js, fs.lookup "clauses" = some (.arr js) → ∀ j ∈ js, decWith forbDecoders s n j = decForb s j := by
        intro js hjs j hj
        have := size_of_lookup hjs hj
        exact decWith_forbs s n j (by omega)
      simp only
      by_cases h1 : t = "EQUALS"
      · subst h1; rfl
      by_cases h2 : t = "IN"
      · subst h2; rfl
      by_cases h3 : t = "AND"
      · subst h3
        change forbAndDecoder s (Fields.pop fs "type") _ = match decForbField s fs with
          | .error e => .error e
          | .ok gs => .ok (.and gs)
        rw [decForbField_get]
        simp only [forbAndDecoder, Fields.get]
        rw [lookup_pop_ne (by decide)]
        cases hl : fs.lookup "clauses" with
        | none => rfl
        | some j =>
          cases j with
          | arr js =>
            simp only [decForbArr]
            rw [decForbs_map, mapExcept_congr' (hd js hl)]
            cases mapExcept (decForb s) js <;> rfl
          | _ => rfl
      by_cases h4 : t = "RELATION_LT"
      · subst h4; rfl
      by_cases h5 : t = "RELATION_EQ"
      · subst h5; rfl
      by_cases h6 : t = "RELATION_GT"
      · subst h6; rfl
      by_cases h7 : t = "RELATION"
      · subst h7; rfl
      rw [dictGet_none (by simp [forbDecoders, h1, h2, h3, h4, h5, h6, h7])]
      simp [h1, h2, h3, h4, h5, h6, h7]
  | n + 1, .null, _ => by rw [decForb, decWith] <;> simp
  | n + 1, .bool _, _ => by rw [decForb, decWith] <;> simp
  | n + 1, .val _, _ => by rw [decForb, decWith] <;> simp
  | n + 1, .arr _, _ => by rw [decForb, decWith] <;> simp

theorem decWith_hps (s : Space) (n : Nat) (j : Json) : decWith hpDecoders s (n + 1) j = decHP j := by
  cases j with
  | obj fs =>
    rw [decHP, decWith]
    cases hp : popType fs with
    | error e => rfl
    | ok x =>
      obtain ⟨t, item⟩ := x
      simp only
      by_cases h1 : t = "uniform_float"
      · subst h1; rfl
      by_cases h2 : t = "uniform_int"
      · subst h2; rfl
      by_cases h3 : t = "categorical"
      · subst h3; rfl
      by_cases h4 : t = "ordinal"
      · subst h4; rfl
      by_cases h5 : t = "constant"
      · subst h5; rfl
      rw [dictGet_none (by simp [hpDecoders, h1, h2, h3, h4, h5])]
      simp [decHPFields, h1, h2, h3, h4, h5]
  | _ => rw [decHP, decWith] <;> simp

/-- **C113.** Without decoders of the user, every dictionary, valid or not, is read as in `C42`, with the same errors. -/
theorem C113_default_decoders (d : Json) : ∃ N, ∀ n, N ≤ n → fromDictWith {} n d = fromDict d := by
  refine ⟨sizeOf d + 1, fun n hn => ?_⟩
  obtain ⟨k, rfl⟩ : ∃ k, n = k + 1 := ⟨n - 1, by omega⟩
  cases d with
  | obj fs =>
    have hs : ∀ {key : String} {js : List Json}, listField fs key = .ok js → ∀ j ∈ js, sizeOf j < k + 1 := by
      intro key js hl j hj
      unfold listField at hl
      split at hl
      · cases hl; cases hj
      · rename_i js' hl'
        cases hl
        have := size_of_lookup hl' hj
        omega
      · cases hl
    simp only [fromDictWith, fromDict, merge_nil]
    cases h1 : listField fs "hyperparameters" with
    | error e => rfl
    | ok hps =>
      cases h2 : listField fs "conditions" with
      | error e => rfl
      | ok cs =>
        cases h3 : listField fs "forbiddens" with
        | error e => rfl
        | ok gs =>
          simp only
          rw [mapExcept_congr' (fun x _ => decWith_hps {} k x)]
          cases mapExcept decHP hps with
          | error e => rfl
          | ok hs' =>
            simp only
            obtain ⟨s1, oe⟩ := ({} : Space).add (hs'.map Prod.fst) [] []
            cases oe with
            | some e => rfl
            | none =>
              simp only
              rw [mapExcept_congr' (fun x hx => decWith_conds s1 (k + 1) x (hs h2 x hx)), decConds_map,
                mapExcept_congr' (fun x hx => decWith_forbs s1 (k + 1) x (hs h3 x hx)), decForbs_map]
              cases mapExcept (decCond s1) cs with
              | error e => rfl
              | ok conds => cases mapExcept (decForb s1) gs <;> rfl
  | _ => rfl

/-! ## What the tables do -/

/-- **C113.** An item whose class has no encoder raises `ValueError`. -/
theorem C113_no_encoder {Ty Item : Type} [DecidableEq Ty] {typeOf : Item → Ty} {base user : List (Ty × String × Encoder Item)} {x : Item}
    (h : typeOf x ∉ base.map Prod.fst) (h' : typeOf x ∉ user.map Prod.fst) (n : Nat) :
    encWith typeOf (dictMerge base user) (n + 1) x = .error .valueError := by
  rw [encWith, dictGet_merge_not h', dictGet_none h]

/-- **C113.** A name without decoder raises `ValueError`, an item without a name `KeyError`. -/
theorem C113_no_decoder {Item : Type} {base user : List (String × Decoder Item)} {fs : Fields} (s : Space) (n : Nat) :
    (∀ tag, fs.lookup "type" = some (.str tag) → tag ∉ base.map Prod.fst → tag ∉ user.map Prod.fst →
      decWith (dictMerge base user) s (n + 1) (.obj fs) = .error .valueError) ∧
    (fs.lookup "type" = none → decWith (dictMerge base user) s (n + 1) (.obj fs) = .error .keyError) := by
  constructor
  · intro tag ht h h'
    rw [decWith]
    simp only [popType, ht, Json.str]
    rw [dictGet_merge_not h', dictGet_none h]
  · intro ht
    rw [decWith]
    simp only [popType, ht]

/-- **C113, false of the code.** One expects that what the user's encoder writes is read by the decoder that the user gave for it.  If the
encoder writes a key `type` itself, this replaces the name of the encoder, and another decoder is used. -/
theorem C113_type_key_wins {Ty Item : Type} [DecidableEq Ty] {typeOf : Item → Ty} {E : List (Ty × String × Encoder Item)}
    {D : List (String × Decoder Item)} {x : Item} {tag other : String} {e : Encoder Item} {d : Decoder Item} {fs : Fields} {n m : Nat}
    {s : Space} (he : dictGet E (typeOf x) = some (tag, e)) (hx : e x (encWith typeOf E n) = .ok fs)
    (ht : fs.lookup "type" = some (.str other)) (hd : dictGet D other = some d) :
    ∃ j, encWith typeOf E (n + 1) x = .ok j ∧ decWith D s (m + 1) j = d s (fs.pop "type") (decWith D s m) := by
  refine ⟨.obj (tagged tag fs), by simp only [encWith, he, hx], ?_⟩
  have e1 : popType (tagged tag fs) = .ok (other, fs.pop "type") := by
    have e2 : tagged tag fs = ("type", .str other) :: fs.pop "type" := by unfold tagged; rw [ht]; rfl
    have e3 : Fields.pop (("type", Json.str other) :: fs.pop "type") "type" = fs.pop "type" := by
      unfold Fields.pop
      rw [List.filter_cons_of_neg (by simp), List.filter_filter]
      simp
    rw [e2]
    unfold popType
    have e4 : List.lookup "type" (("type", Json.str other) :: fs.pop "type") = some (.val (.str other)) := rfl
    rw [e4]
    exact congrArg (fun y => Except.ok (other, y)) e3
  simp only [decWith, e1, hd]

/-- The user's name for `==` is the default name for `!=`. -/
def takenName : Codecs :=
  { condE := [(.bin .eq, "NEQ", litEncoder)], condD := [("NEQ", fun s item _ => decBin s .eq item)] }

/-- **C113, false of the code.** Encoders are chosen by class, decoders by name, so that it is not enough that the user's decoder undoes
the user's encoder: under a name that a default encoder uses as well, it also gets what that one wrote.  Here the decoder undoes the
encoder of `==`, and every `!=` condition comes back as `==` condition. -/
theorem C113_name_taken (h : Reach calls s) {c p : HP} {v : Val} {x : Rat}
    (hw : (⟨c, p, .bin .eq v x⟩ : Lit).wf = true) (hm : CondIn s (.lit ⟨c, p, .bin .eq v x⟩)) (n m : Nat) :
    Inverse condTy condParts LegalCond (.bin .eq) litEncoder (fun s item _ => decBin s .eq item) ∧
    ∃ j, encWith condTy (dictMerge condEncoders takenName.condE) (n + 1) (.lit ⟨c, p, .bin .ne v x⟩) = .ok j ∧
      decWith (dictMerge condDecoders takenName.condD) s (m + 1) j = .ok (.lit ⟨c, p, .bin .eq v x⟩) := by
  refine ⟨bin_inverse, _, rfl, ?_⟩
  have h2 := hm ⟨c, p, .bin .eq v x⟩ (by simp [Cond.dlcs])
  rw [← decLit_encLit (looked h) hw h2.1 h2.2]
  rfl

namespace ExCd

/-- The user writes `==` conditions as a list. -/
def listEncoder : Encoder Cond := fun c _ =>
  match c with
  | .lit ⟨c, p, .bin _ v _⟩ => .ok [("eq", .arr [.str c.name, .str p.name, .val v])]
  | _ => .error .typeError

/-- And reads it. -/
def listDecoder : Decoder Cond := fun s item _ =>
  match item.lookup "eq" with
  | some (.arr [c, p, v]) => decBin s .eq [("child", c), ("parent", p), ("value", v)]
  | _ => .error .valueError

/-- The user's encoder and decoder. -/
def user : Codecs := { condE := [(.bin .eq, "same", listEncoder)], condD := [("same", listDecoder)] }

theorem list_inverse : Inverse condTy condParts LegalCond (.bin .eq) listEncoder listDecoder := by
  intro calls s x encode decode hr hk hx hp
  obtain ⟨fs, e1, -, e3⟩ := bin_inverse (op := .eq) calls s x encode decode hr hk hx hp
  match x, hk, hx, e1 with
  | .lit ⟨c, p, .bin op' v q⟩, hk, hx, e1 =>
    refine ⟨[("eq", .arr [.str c.name, .str p.name, .val v])], rfl, rfl, ?_⟩
    have : fs = [("child", .str c.name), ("parent", .str p.name), ("value", .val v)] := by
      have e : litEncoder (.lit ⟨c, p, .bin op' v q⟩) encode = .ok [("child", .str c.name), ("parent", .str p.name), ("value", .val v)] := rfl
      rw [e] at e1
      cases e1; rfl
    subst this
    exact e3

/-- The hypothesis of `C113_condition`, `C113_clause`, `C113_hyperparameter` and `C113_space_partial` is met by them. -/
theorem good_user : GoodCodecs user := by
  refine ⟨?_, ?_, ?_⟩
  · rintro k tag e - (h | h) <;> simp [user] at h
  · rintro k tag e he (h | h)
    · simp only [user, List.map_cons, List.map_nil, List.mem_singleton] at h
      subst h
      cases he
      exact ⟨listDecoder, rfl, list_inverse⟩
    · simp only [user, List.map_cons, List.map_nil, List.mem_singleton] at h
      subst h
      have : k = .bin .eq := by
        match k, he with
        | .bin .eq, _ => rfl
        | .bin .ne, he => exact absurd (congrArg (Option.map Prod.fst) he) (by change ¬ some "NEQ" = some "same"; decide)
        | .bin .lt, he => exact absurd (congrArg (Option.map Prod.fst) he) (by change ¬ some "LT" = some "same"; decide)
        | .bin .gt, he => exact absurd (congrArg (Option.map Prod.fst) he) (by change ¬ some "GT" = some "same"; decide)
        | .isIn, he => exact absurd (congrArg (Option.map Prod.fst) he) (by change ¬ some "IN" = some "same"; decide)
        | .and, he => exact absurd (congrArg (Option.map Prod.fst) he) (by change ¬ some "AND" = some "same"; decide)
        | .or, he => exact absurd (congrArg (Option.map Prod.fst) he) (by change ¬ some "OR" = some "same"; decide)
      subst this
      cases he
      exact ⟨listDecoder, rfl, list_inverse⟩
  · rintro k tag e - (h | h) <;> simp [user] at h

/-- A nested condition with `==` inside. -/
example : ∃ N, ∀ n m, N ≤ n → N ≤ m → ∃ j, encWith condTy (dictMerge condEncoders user.condE) n Ex.condMix = .ok j ∧
    decWith (dictMerge condDecoders user.condD) Ex.spMix m j = .ok Ex.condMix :=
  C113_condition Ex.reachMix good_user (by decide +kernel) Ex.condIn_mix

/-- The space of the examples of `C42`, with weights. -/
example : ∃ N, ∀ n m, N ≤ n → N ≤ m → ∃ d s', Ex.sp1.toDictWith user n Ex.w1 "1.2.0" = .ok d ∧
    fromDictWith user m d = .ok (s', Ex.sp1.com.map (fun x => (x.name, Ex.w1 x.name))) := by
  obtain ⟨N, hN⟩ := C113_space_partial Ex.reach1 Ex.ownC1 Ex.own1 Ex.apart1 Ex.w1 "1.2.0" (by
    intro x hx cs
    have : ∀ x ∈ Ex.call1.hps, ∀ cs, x.kind = .cat cs → badWeights cs (Ex.w1 x.name) = false := by
      intro x hx cs hk
      simp only [Ex.call1, List.mem_cons, List.not_mem_nil, or_false] at hx
      rcases hx with rfl | rfl | rfl | rfl | rfl <;> cases hk
      decide +kernel
    exact this x (by simpa [allHps] using hx) cs) (by
    intro x hx hk
    have hx : x ∈ Ex.call1.hps := by simpa [allHps] using hx
    simp only [Ex.call1, List.mem_cons, List.not_mem_nil, or_false] at hx
    rcases hx with rfl | rfl | rfl | rfl | rfl <;> first | rfl | exact absurd rfl (hk _)) good_user
  refine ⟨N, fun n m hn hm => ?_⟩
  obtain ⟨d, s', h1, h2, -⟩ := hN n m hn hm
  exact ⟨d, s', h1, h2⟩

/-- Without encoders and decoders of the user the hypothesis is met as well. -/
example : GoodCodecs {} := by
  refine ⟨?_, ?_, ?_⟩ <;> rintro k tag e - (h | h) <;> simp at h

end ExCd

/-! ## Further cases -/

namespace ExCd

example := C113_clause Ex.reach1 good_user (f := Ex.forb1) (by decide +kernel) (by
  intro h hh
  have : ∀ h ∈ clauseHps Ex.forb1, h ∈ Ex.call1.hps := by decide +kernel
  exact Ex.members1 (this h hh))

/-- A table without any encoder. -/
example := C113_no_encoder (typeOf := condTy) (base := []) (user := []) (x := Ex.condMix) (by simp) (by simp) 3

/-- An encoder that writes the key `type` itself. -/
example := C113_type_key_wins (typeOf := condTy) (E := [(.or, "OR", fun _ _ => .ok [("type", .str "EQ")])])
  (D := [("EQ", fun _ _ _ => .ok Ex.condMix)]) (x := .or []) (tag := "OR") (other := "EQ")
  (e := fun _ _ => .ok [("type", .str "EQ")]) (d := fun _ _ _ => .ok Ex.condMix) (fs := [("type", .str "EQ")]) (n := 0) (m := 0) (s := {})
  rfl rfl rfl rfl

end ExCd

end Verif
