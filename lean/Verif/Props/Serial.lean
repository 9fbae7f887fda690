import Verif.Lemmas.Serial
import Verif.Props.Subst

/-!
# C42, C60, C61: serialisation
-/

set_option autoImplicit false

namespace Verif
open Verif.Spec

variable {calls : List Call} {s : Space}

/-- **C42.** Decoding the encoding of a valid hyperparameter gives the hyperparameter with its name, range or choices,
default and weights. -/
theorem C42_hyperparameter {h : HP} (hw : h.wf = true) {w : Option (List Rat)}
    (hb : ∀ cs, h.kind = .cat cs → badWeights cs w = false) (hn : (∀ cs, h.kind ≠ .cat cs) → w = none) :
    decHP (encHP h w) = .ok (h, w) := by
  rw [decHP_encHP hw hb]
  cases hk : h.kind with
  | cat cs => rw [keptWeights, hk]
  | _ => rw [keptWeights, hk, hn (by simp [hk])]

/-- **C42.** Decoding the encoding of a condition, nested to any depth, in a space with its hyperparameters gives the
condition. -/
theorem C42_condition (h : Reach calls s) {c : Cond} (hw : c.wf = true) (hm : CondIn s c) :
    decCond s (encCond c) = .ok c := decCond_encCond (looked h) hw hm

/-- **C42.** Decoding the encoding of a clause, nested to any depth, in a space with its hyperparameters gives the
clause. -/
theorem C42_clause (h : Reach calls s) {f : Forb} (hw : f.wf = true) (hm : ForbIn s f) :
    decForb s (encForb f) = .ok f := decForb_encForb (looked h) hw hm

/-- **C42.** Decoding the dictionary of a space whose conditions print differently succeeds, and gives a space with the
same hyperparameters in the same order, the same weights, conditions and clauses, which accepts and rejects the same
vectors and values with the same errors.  The hypothesis is needed because `space.conditions` lists conditions that
print alike only once (`C59_conditions_that_print_alike`). -/
theorem C42_round_trip_partial (h : Reach calls s) (hoc : OwnConds calls) (hown : OwnClauses calls) (hp : PrintApart calls)
    (w : Name → Option (List Rat)) (ver : String)
    (hb : ∀ x ∈ allHps calls, ∀ cs, x.kind = .cat cs → badWeights cs (w x.name) = false)
    (hn : ∀ x ∈ allHps calls, (∀ cs, x.kind ≠ .cat cs) → w x.name = none) :
    ∃ s', fromDict (s.toDict w ver) = .ok (s', s.com.map (fun x => (x.name, w x.name))) ∧
      s'.com.map Node.hp = s.com.map Node.hp ∧ s'.com.map Node.cond = s.com.map Node.cond ∧ s'.forbs = s.forbs ∧
      (∀ v al, s'.check v al = s.check v al) ∧ (∀ d al, Config.ofValues s' d al = Config.ofValues s d al) ∧
      s'.defaultConfig = s.defaultConfig := by
  obtain ⟨s1, s2, ha, h1, hb', h2, hcore, hperm, k1, k2, k3⟩ := rebuild h hown
  have hw := reach_wf h
  have e1 : mapExcept decHP (s.com.map (fun x => encHP x.hp (w x.name))) =
      .ok (s.com.map (fun x => (x.hp, w x.name))) := by
    have : ∀ ns : Nodes, (∀ x ∈ ns, x ∈ s.com) → mapExcept decHP (ns.map (fun x => encHP x.hp (w x.name))) =
        .ok (ns.map (fun x => (x.hp, w x.name))) := by
      intro ns
      induction ns with
      | nil => intro _; rfl
      | cons x ns ih =>
        intro hns
        have hx : x.hp ∈ allHps calls := node_hp h (hns x (by simp))
        simp only [List.map_cons, mapExcept]
        rw [show x.name = x.hp.name from rfl, C42_hyperparameter (hw.1 _ hx) (hb _ hx) (hn _ hx), ih (fun y hy => hns y (by simp [hy]))]
    exact this s.com (fun x hx => hx)
  have hmem1 : ∀ x, x ∈ allHps calls → x ∈ s1.com.map Node.hp := by
    intro x hx
    apply (hps_perm h1).mem_iff.2
    simp only [allHps, List.flatMap_cons, List.flatMap_nil, List.append_nil, Space.hpCall]
    exact (hps_perm h).mem_iff.2 hx
  have e2 : decConds s1 (encConds s.conditions) = .ok s.ruleCall.conds := by
    rw [conditions_eq h hp]
    apply decConds_encConds
    intro c hc
    obtain ⟨_, _, _, hc', _⟩ := mem_nodeConds h hc
    refine decCond_encCond (looked h1) (hw.2.1 c hc') ?_
    intro l hl
    exact ⟨hmem1 _ (hoc c hc' l hl).1, hmem1 _ (hoc c hc' l hl).2⟩
  have e3 : decForbs s1 (encForbs s.forbs) = .ok s.ruleCall.forbs := by
    apply decForbs_encForbs
    intro f hf'
    have hf' := (mem_forbs h f).1 hf'
    exact decForb_encForb (looked h1) (hw.2.2 f hf') fun x hx => hmem1 x (hown f hf' x hx)
  have ha' : ({} : Space).add ((s.com.map (fun x => (x.hp, w x.name))).map Prod.fst) [] [] = (s1, none) := by
    rw [List.map_map]
    exact ha
  refine ⟨s2, ?_, ?_, ?_, hperm, k1, k2, k3⟩
  · have f1 : fromDict (s.toDict w ver) = match mapExcept decHP (s.com.map (fun x => encHP x.hp (w x.name))) with
        | .error e => .error e
        | .ok hps => match ({} : Space).add (hps.map Prod.fst) [] [] with
          | (_, some e) => .error e
          | (s1, none) => match decConds s1 (encConds s.conditions) with
            | .error e => .error e
            | .ok conds => match decForbs s1 (encForbs s.forbs) with
              | .error e => .error e
              | .ok forbs => match s1.add [] conds forbs with
                | (_, some e) => .error e
                | (s2, none) => .ok (s2, hps.map (fun p => (p.1.name, p.2))) := by
      rfl
    rw [f1, e1]
    simp only [ha', e2, e3, hb']
    rw [List.map_map]
    rfl
  · have := congrArg (List.map (fun c : HP × Nat × Option Cond => c.1)) hcore
    simpa [Function.comp_def, Node.core] using this
  · have := congrArg (List.map (fun c : HP × Nat × Option Cond => c.2.2)) hcore
    simpa [Function.comp_def, Node.core] using this

/-! ## Older files -/

theorem pop_append (fs gs : Fields) (k : String) : Fields.pop (fs ++ gs) k = fs.pop k ++ gs.pop k := by
  simp [Fields.pop]

theorem pop_absent {fs : Fields} {k : String} (h : ∀ kv ∈ fs, kv.1 ≠ k) : fs.pop k = fs := by
  unfold Fields.pop
  rw [List.filter_eq_self]
  intro kv hkv
  simpa using h kv hkv

theorem lookup_absent {fs : Fields} {k : String} (h : ∀ kv ∈ fs, kv.1 ≠ k) : fs.lookup k = none := by
  induction fs with
  | nil => rfl
  | cons kv fs ih =>
    obtain ⟨a, b⟩ := kv
    have hne : a ≠ k := h _ List.mem_cons_self
    rw [List.lookup_cons, beq_false_of_ne (Ne.symm hne)]
    exact ih fun x hx => h x (by simp [hx])

/-- **C60.** A hyperparameter of an older file, with the key `default` for the default value, is decoded like the
same item with the key `default_value`. -/
theorem C60_old_default (t : String) (fs : Fields) (d : Json) (hd : ∀ kv ∈ fs, kv.1 ≠ "default" ∧ kv.1 ≠ "default_value")
    (hnull : d ≠ .null) : decHPFields t (fs ++ [("default", d)]) = decHPFields t (fs ++ [("default_value", d)]) := by
  have key : compat (fs ++ [("default", d)]) = compat (fs ++ [("default_value", d)]) := by
    have a1 : ∀ kv ∈ fs.pop "q", kv.1 ≠ "default" := fun kv hkv => (hd kv (List.mem_filter.1 hkv).1).1
    have a2 : ∀ kv ∈ fs.pop "q", kv.1 ≠ "default_value" := fun kv hkv => (hd kv (List.mem_filter.1 hkv).1).2
    have p1 : Fields.pop [("default", d)] "q" = [("default", d)] := by simp [Fields.pop]
    have p2 : Fields.pop [("default_value", d)] "q" = [("default_value", d)] := by simp [Fields.pop]
    have p3 : Fields.pop [("default", d)] "default" = [] := by simp [Fields.pop]
    have p4 : Fields.pop [("default_value", d)] "default" = [("default_value", d)] := by simp [Fields.pop]
    unfold compat
    simp only [pop_append, p1, p2, p3, p4, pop_absent a1, pop_absent a2, List.append_nil, List.lookup_append,
      lookup_absent a1, Option.none_or]
    have l1 : List.lookup "default" [("default", d)] = some d := by simp [List.lookup]
    have l2 : List.lookup "default" [("default_value", d)] = none := rfl
    rw [l1, l2]
    cases d <;> first | exact absurd rfl hnull | rfl
  unfold decHPFields
  rw [key]

/-- **C60.** The removed key `q` is ignored. -/
theorem C60_old_quantisation (t : String) (fs : Fields) : decHPFields t fs = decHPFields t (fs.pop "q") := by
  have key : compat fs = compat (fs.pop "q") := by
    have : Fields.pop (fs.pop "q") "q" = fs.pop "q" := by simp [Fields.pop, List.filter_filter]
    unfold compat
    rw [this]
  unfold decHPFields
  rw [key]

/-- **C60.** A relation of an older file is decoded like the new form. -/
theorem C60_old_relation (l r : Json) :
    (∀ s, decForb s (.obj [("left", l), ("right", r), ("type", .str "RELATION"), ("lambda", .str "LT")]) =
      decForb s (.obj [("left", l), ("right", r), ("type", .str "RELATION_LT")])) ∧
    (∀ s, decForb s (.obj [("left", l), ("right", r), ("type", .str "RELATION"), ("lambda", .str "EQ")]) =
      decForb s (.obj [("left", l), ("right", r), ("type", .str "RELATION_EQ")])) ∧
    (∀ s, decForb s (.obj [("left", l), ("right", r), ("type", .str "RELATION"), ("lambda", .str "GT")]) =
      decForb s (.obj [("left", l), ("right", r), ("type", .str "RELATION_GT")])) :=
  ⟨fun _ => rfl, fun _ => rfl, fun _ => rfl⟩

/-! ## The argument is used up -/

theorem lookup_map_snd {f : String × Json → String × Json} (hf : ∀ kv, (f kv).1 = kv.1) (k : String) : ∀ fs : Fields,
    (fs.map f).lookup k = (fs.lookup k).map (fun j => (f (k, j)).2)
  | [] => rfl
  | (a, b) :: fs => by
    have e : f (a, b) = (a, (f (a, b)).2) := Prod.ext (hf (a, b)) rfl
    rw [List.map_cons, e, List.lookup_cons, List.lookup_cons, lookup_map_snd hf k fs]
    by_cases h : k = a
    · subst h
      simp
    · rw [beq_false_of_ne h]

theorem pop_no (fs : Fields) (k : String) : ∀ kv ∈ fs.pop k, kv.1 ≠ k := by
  intro kv h
  simpa using (List.mem_filter.1 h).2

theorem compat_no_type {fs : Fields} (h : ∀ kv ∈ fs, kv.1 ≠ "type") : ∀ kv ∈ compat fs, kv.1 ≠ "type" := by
  have sub : ∀ (gs : Fields) (k : String), (∀ kv ∈ gs, kv.1 ≠ "type") → ∀ kv ∈ gs.pop k, kv.1 ≠ "type" :=
    fun gs k h kv hkv => h kv (List.mem_filter.1 hkv).1
  unfold compat
  simp only
  split
  · exact sub _ _ (sub _ _ h)
  · exact sub _ _ (sub _ _ h)
  · intro kv hkv
    rcases List.mem_append.1 hkv with hkv | hkv
    · exact sub _ _ (sub _ _ (sub _ _ h)) kv hkv
    · simp only [List.mem_cons, List.not_mem_nil, or_false] at hkv
      subst hkv
      exact (by decide : "default_value" ≠ "type")

theorem decHP_used {j : Json} {r : HP × Option (List Rat)} (h : decHP j = .ok r) : decHP (usedHP j) = .error .keyError := by
  cases j with
  | obj fs =>
    unfold decHP at h
    simp only at h
    cases hp : popType fs with
    | error e => rw [hp] at h; cases h
    | ok ti =>
      obtain ⟨t, item⟩ := ti
      have hno : ∀ kv ∈ item, kv.1 ≠ "type" := by
        unfold popType at hp
        split at hp
        all_goals cases hp
        exact pop_no fs "type"
      have h2 : ∀ gs : Fields, (∀ kv ∈ gs, kv.1 ≠ "type") → decHP (.obj gs) = .error .keyError := by
        intro gs hgs
        simp only [decHP, popType, lookup_absent hgs]
      unfold usedHP
      simp only [hp]
      split
      · exact h2 _ fun kv hkv => compat_no_type hno kv (List.mem_filter.1 hkv).1
      · exact h2 _ (compat_no_type hno)
  | null => simp [decHP] at h
  | bool b => simp [decHP] at h
  | val v => simp [decHP] at h
  | arr l => simp [decHP] at h

/-- **C61** is false: decoding a dictionary takes the types out of it, so that decoding the same dictionary a second
time raises `KeyError`, whenever it has a hyperparameter. -/
theorem C61_second_decode_fails {fs : Fields} {r : Space × List (Name × Option (List Rat))} (h : fromDict (.obj fs) = .ok r)
    {j : Json} {js : List Json} (hj : listField fs "hyperparameters" = .ok (j :: js)) :
    fromDict (usedDict (.obj fs)) = .error .keyError := by
  unfold fromDict at h
  simp only [hj] at h
  cases hc : listField fs "conditions" with
  | error e => rw [hc] at h; cases h
  | ok cs =>
    rw [hc] at h
    simp only at h
    cases hg : listField fs "forbiddens" with
    | error e => rw [hg] at h; cases h
    | ok gs =>
      rw [hg] at h
      simp only at h
      cases hd : decHP j with
      | error e => simp only [mapExcept, hd] at h; cases h
      | ok x =>
        have hu : ∀ k l, listField fs k = .ok l → (k = "hyperparameters" →
            listField (fs.map usedField) k = .ok (l.map usedHP)) ∧ (k = "conditions" ∨ k = "forbiddens" →
            ∃ l', listField (fs.map usedField) k = .ok l') := by
          intro k l hl
          unfold listField at hl ⊢
          rw [lookup_map_snd]
          · split at hl
            · rename_i e
              cases hl
              rw [e]
              exact ⟨fun _ => rfl, fun _ => ⟨[], rfl⟩⟩
            · rename_i e
              cases hl
              rw [e]
              constructor
              · rintro rfl
                rfl
              · rintro (rfl | rfl)
                · exact ⟨_, rfl⟩
                · exact ⟨_, rfl⟩
            · cases hl
          · rintro ⟨k, b⟩
            cases b with
            | arr l =>
              unfold usedField
              simp only
              split
              · rfl
              · split <;> rfl
            | _ => rfl
        obtain ⟨c', hc'⟩ := (hu _ _ hc).2 (.inl rfl)
        obtain ⟨g', hg'⟩ := (hu _ _ hg).2 (.inr rfl)
        have hh' := (hu _ _ hj).1 rfl
        simp only [usedDict, fromDict]
        rw [hh', hc', hg']
        simp only [List.map_cons, mapExcept, decHP_used hd]

/-- **C61** is false of every dictionary that is the encoding of a space: it can be decoded once, and if the space has
a hyperparameter it cannot be decoded again. -/
theorem C61_encoding_decodes_once (h : Reach calls s) (hoc : OwnConds calls) (hown : OwnClauses calls)
    (hp : PrintApart calls) (hne : allHps calls ≠ []) (ver : String) :
    (∃ r, fromDict (s.toDict (fun _ => none) ver) = .ok r) ∧
      fromDict (usedDict (s.toDict (fun _ => none) ver)) = .error .keyError := by
  obtain ⟨s', h', _⟩ := C42_round_trip_partial h hoc hown hp (fun _ => none) ver (fun _ _ _ _ => rfl) (fun _ _ _ => rfl)
  refine ⟨⟨_, h'⟩, ?_⟩
  have hperm := hps_perm h
  cases hc : s.com with
  | nil =>
    rw [hc] at hperm
    exact absurd hperm.symm.eq_nil hne
  | cons x xs =>
    refine C61_second_decode_fails h' (j := encHP x.hp none) (js := xs.map (fun x => encHP x.hp none)) ?_
    rw [hc]
    rfl

namespace Ex

example : fromDict (usedDict (sp1.toDict (fun _ => none) "1.2.0")) = .error .keyError :=
  (C61_encoding_decodes_once reach1 ownC1 own1 apart1 (by simp [allHps, call1]) _).2

/-- The hypotheses of `C42_round_trip_partial` are met by the space of `Ex.reach1`, with weights. -/
def w1 (n : Name) : Option (List Rat) := if n = "alg" then some [1, 3] else none

example : ∃ s', fromDict (sp1.toDict w1 "1.2.0") = .ok (s', sp1.com.map (fun x => (x.name, w1 x.name))) := by
  obtain ⟨s', h, _⟩ := C42_round_trip_partial reach1 ownC1 own1 apart1 w1 "1.2.0" (by
    intro x hx cs
    have : ∀ x ∈ call1.hps, ∀ cs, x.kind = .cat cs → badWeights cs (w1 x.name) = false := by
      intro x hx cs hk
      simp only [call1, List.mem_cons, List.not_mem_nil, or_false] at hx
      rcases hx with rfl | rfl | rfl | rfl | rfl <;> cases hk
      decide +kernel
    exact this x (by simpa [allHps] using hx) cs) (by
    intro x hx hk
    have hx : x ∈ call1.hps := by simpa [allHps] using hx
    simp only [call1, List.mem_cons, List.not_mem_nil, or_false] at hx
    rcases hx with rfl | rfl | rfl | rfl | rfl <;> first | rfl | exact absurd rfl (hk _))
  exact ⟨s', h⟩

/-- A nested condition and a nested clause are decoded. -/
example : decCond spMix (encCond condMix) = .ok condMix :=
  C42_condition reachMix (by decide +kernel) condIn_mix

example : decForb sp1 (encForb forb1) = .ok forb1 := C42_clause reach1 (by decide +kernel) (by
  intro h hh
  have : ∀ h ∈ clauseHps forb1, h ∈ call1.hps := by decide +kernel
  exact members1 (this h hh))

/-- A file with one hyperparameter. -/
def file1 : Json := .obj [("hyperparameters", .arr [encHP hpAlg none])]

example : (decHP (encHP hpAlg none)) = .ok (hpAlg, none) := C42_hyperparameter (by decide +kernel) (by
  intro cs hk; cases hk; rfl) (fun h => absurd rfl (h _))

end Ex

/-- **C42** is false for two conditions that print alike: a space with two conditions is written with one. -/
theorem C42_conditions_that_print_alike : ∃ (calls : List Call) (s : Space), Reach calls s ∧
    (s.com.filterMap Node.cond).length = 2 ∧ (∀ w ver, ∃ fs c, s.toDict w ver = .obj fs ∧
      listField fs "conditions" = .ok [c]) :=
  ⟨_, _, Ex.reachP, by decide +kernel, fun w ver => by
    have h : ∃ c, Ex.spP.conditions = [c] := List.length_eq_one_iff.1 (by decide +kernel)
    obtain ⟨c, hc⟩ := h
    refine ⟨_, encCond c, rfl, ?_⟩
    rw [hc]
    rfl⟩

/-- The old key of the default, in the description of an integer range. -/
example := C60_old_default "uniform_int" [("name", .str "i"), ("lower", .val (.int 1)), ("upper", .val (.int 10)), ("log", .val (.int 0))]
  (.val (.int 4)) (by simp) (by simp)

end Verif
