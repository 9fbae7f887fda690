import Verif.Lemmas.Files
import Verif.Props.Serial
import Verif.Props.Forbid

/-!
# C101, C102: files
-/

set_option autoImplicit false

namespace Verif.Files
open Verif.Spec

variable {calls : List Call} {s : Space}

/-! ## C102: equal dictionaries -/

/-- The lists under a key of two dictionaries that agree: the same error, or lists that agree place by place. -/
theorem listField_same {fs gs : Fields} (h : SameData (.obj fs) (.obj gs)) (k : String) :
    (∃ e, listField fs k = .error e ∧ listField gs k = .error e) ∨
      ∃ xs ys, listField fs k = .ok xs ∧ listField gs k = .ok ys ∧ xs.length = ys.length ∧
        ∀ (i : Nat) a b, xs[i]? = some a → ys[i]? = some b → Alike a b := by
  cases h with
  | obj hk hf =>
    unfold listField
    cases e : fs.lookup k with
    | none =>
      cases e' : gs.lookup k with
      | none => exact .inr ⟨[], [], rfl, rfl, rfl, fun i a b h => by simp at h⟩
      | some b =>
        obtain ⟨a, ha⟩ := (hk k).2 ⟨b, e'⟩
        rw [e] at ha
        cases ha
    | some a =>
      obtain ⟨b, hb⟩ := (hk k).1 ⟨a, e⟩
      have hab := hf k a b e hb
      rw [hb]
      cases hab with
      | null => exact .inl ⟨_, rfl, rfl⟩
      | bool b => exact .inl ⟨_, rfl, rfl⟩
      | val v => exact .inl ⟨_, rfl, rfl⟩
      | obj _ _ => exact .inl ⟨_, rfl, rfl⟩
      | arr hl hi => exact .inr ⟨_, _, rfl, rfl, hl, fun i a b h1 h2 => alike_of_same (hi i a b h1 h2)⟩

/-- **C102.** Two dictionaries that Python calls equal - whatever the order of their keys, at any depth - are decoded to the
same space, or raise the same exception. -/
theorem C102_equal_dictionaries {a b : Json} (h : SameData a b) : fromDict a = fromDict b := by
  cases h with
  | null => rfl
  | bool b => rfl
  | val v => rfl
  | arr _ _ => rfl
  | @obj fs gs hk hf =>
    have h := SameData.obj hk hf
    unfold fromDict
    simp only
    rcases listField_same h "hyperparameters" with ⟨e, h1, h2⟩ | ⟨xs, ys, h1, h2, hl, hi⟩
    · rw [h1, h2]
    rw [h1, h2]
    simp only
    rcases listField_same h "conditions" with ⟨e, c1, c2⟩ | ⟨cs, ds, c1, c2, cl, ci⟩
    · rw [c1, c2]
    rw [c1, c2]
    simp only
    rcases listField_same h "forbiddens" with ⟨e, f1, f2⟩ | ⟨us, vs, f1, f2, fl, fi⟩
    · rw [f1, f2]
    rw [f1, f2]
    simp only
    have e1 : mapExcept decHP xs = mapExcept decHP ys := mapExcept_alike hl fun i a b ha hb => (hi i a b ha hb).hp
    have e2 : ∀ s, decConds s cs = decConds s ds := fun s => by
      rw [decConds_map, decConds_map]
      exact mapExcept_alike cl fun i a b ha hb => (ci i a b ha hb).cond s
    have e3 : ∀ s, decForbs s us = decForbs s vs := fun s => by
      rw [decForbs_map, decForbs_map]
      exact mapExcept_alike fl fun i a b ha hb => (fi i a b ha hb).forb s
    simp only [e1, e2, e3]

/-! ## C101: JSON files -/

/-- **C101.** Loading a JSON file gives exactly what decoding the dictionary itself gives: writing the file loses nothing that
the decoders look at. -/
theorem C101_json_is_the_dictionary (s : Space) (k : Lit → SeqKind) (w : Name → Option (List Rat)) (ver : String) :
    throughJson s k w ver = match fromDict (s.toDict w ver) with
      | .ok r => .ok r
      | .error e => .error (.decode e) := by
  unfold throughJson fromDoc
  rw [data_viaJson, data_toDoc]
  cases fromDict (s.toDict w ver) <;> rfl

/-- **C101.** A space whose conditions print differently can be saved as a JSON file and loaded again: the loaded space has the
same hyperparameters, conditions and clauses, and accepts and rejects the same vectors and values. -/
theorem C101_json_round_trip_partial (h : Reach calls s) (hoc : OwnConds calls) (hown : OwnClauses calls) (hp : PrintApart calls)
    (k : Lit → SeqKind) (w : Name → Option (List Rat)) (ver : String)
    (hb : ∀ x ∈ allHps calls, ∀ cs, x.kind = .cat cs → badWeights cs (w x.name) = false)
    (hn : ∀ x ∈ allHps calls, (∀ cs, x.kind ≠ .cat cs) → w x.name = none) :
    ∃ s', throughJson s k w ver = .ok (s', s.com.map (fun x => (x.name, w x.name))) ∧
      s'.com.map Node.hp = s.com.map Node.hp ∧ s'.com.map Node.cond = s.com.map Node.cond ∧ s'.forbs = s.forbs ∧
      (∀ v al, s'.check v al = s.check v al) ∧ (∀ d al, Config.ofValues s' d al = Config.ofValues s d al) ∧
      s'.defaultConfig = s.defaultConfig := by
  obtain ⟨s', h1, h2⟩ := C42_round_trip_partial h hoc hown hp w ver hb hn
  refine ⟨s', ?_, h2⟩
  rw [C101_json_is_the_dictionary, h1]

/-- An in-condition of a space is decoded to itself, with the collection that is in the dictionary. -/
theorem decInCond_docLit (h : Reach calls s) {l : Lit} (hw : l.wf = true) (hp : l.parent ∈ s.com.map Node.hp)
    (hc : l.child ∈ s.com.map Node.hp) {vs : List Val} {xs : List Rat} (ht : l.test = .isIn vs xs) (k : Lit → SeqKind) :
    decInCond s (docLit k l) = .ok ⟨l, k l⟩ ∧ decInCond s (docLit k l).viaJson = .ok ⟨l, .list⟩ := by
  have e := decLit_encLit (looked h) hw hp hc
  have d1 := data_docLit k l
  have d2 := data_viaJson (docLit k l)
  rw [d1] at d2
  constructor
  · unfold docLit at d1 ⊢
    rw [ht] at d1 ⊢
    simp only [decInCond] at d1 ⊢
    rw [d1, e]
    rfl
  · unfold docLit at d2 ⊢
    rw [ht] at d2 ⊢
    simp only [Doc.viaJson, Doc.viaJsonF, decInCond] at d2 ⊢
    rw [d2, e]
    rfl

/-- **C101** is false of the code for in-conditions that were made with a tuple: the condition in the loaded space has a list in
its place, and Python says that it is not equal to the condition that was saved.  Decoding the dictionary without a file gives
an equal condition in both cases. -/
theorem C101_tuple_conditions_change (h : Reach calls s) {l : Lit} (hw : l.wf = true) (hp : l.parent ∈ s.com.map Node.hp)
    (hc : l.child ∈ s.com.map Node.hp) {vs : List Val} {xs : List Rat} (ht : l.test = .isIn vs xs) (k : Lit → SeqKind) :
    (∃ c, decInCond s (docLit k l) = .ok c ∧ InCond.pyEq ⟨l, k l⟩ c = true) ∧
      ∃ c, decInCond s (docLit k l).viaJson = .ok c ∧ (InCond.pyEq ⟨l, k l⟩ c = true ↔ k l = .list) := by
  obtain ⟨h1, h2⟩ := decInCond_docLit h hw hp hc ht k
  refine ⟨⟨_, h1, by simp [InCond.pyEq, Lit.pyEq_refl]⟩, _, h2, ?_⟩
  simp [InCond.pyEq, Lit.pyEq_refl]

/-! ## C101: YAML files -/

/-- **C101** is false of the code for YAML files: loading the file fails with `ConstructorError` exactly if the space has an
in-clause, also inside of a conjunction, or an in-condition that was made with a tuple.  (`ForbiddenInClause` always keeps a
tuple.) -/
theorem C101_yaml_fails_iff (h : Reach calls s) (k : Lit → SeqKind) (w : Name → Option (List Rat)) (ver : String) :
    throughYaml s k w ver = .error .constructorError ↔ (∃ f ∈ allForbs calls, ContainsIn f) ∨
      ∃ c ∈ s.conditions, ∃ l ∈ c.dlcs, (∃ vs xs, l.test = .isIn vs xs) ∧ k l = .tuple := by
  have hperm := (C09_clauses_kept_and_classified h).1
  have ht := hasTuple_toDoc s k w ver
  have hm : (∃ f ∈ s.forbs, ContainsIn f) ↔ ∃ f ∈ allForbs calls, ContainsIn f := by
    simp only [hperm.mem_iff]
  rw [hm] at ht
  rw [← ht]
  unfold throughYaml Doc.viaYaml
  cases hb : (toDoc s k w ver).hasTuple with
  | true => simp
  | false =>
    simp only [Bool.false_eq_true, if_false, iff_false]
    cases fromDoc (toDoc s k w ver).sorted <;> simp

/-- **C101.** Without in-clauses and without in-conditions that were made with a tuple, loading a YAML file gives exactly what
decoding the dictionary itself gives. -/
theorem C101_yaml_is_the_dictionary_partial (h : Reach calls s) (k : Lit → SeqKind) (w : Name → Option (List Rat)) (ver : String)
    (hf : ∀ f ∈ allForbs calls, ¬ ContainsIn f)
    (hk : ∀ c ∈ s.conditions, ∀ l ∈ c.dlcs, (∃ vs xs, l.test = .isIn vs xs) → k l = .list) :
    throughYaml s k w ver = match fromDict (s.toDict w ver) with
      | .ok r => .ok r
      | .error e => .error (.decode e) := by
  have hperm := (C09_clauses_kept_and_classified h).1
  have ht : (toDoc s k w ver).hasTuple = false := by
    rw [Bool.eq_false_iff]
    intro ht
    rcases (hasTuple_toDoc s k w ver).1 ht with ⟨f, hf', h'⟩ | ⟨c, hc, l, hl, h', h''⟩
    · exact hf f (hperm.mem_iff.1 hf') h'
    · rw [hk c hc l hl h'] at h''
      cases h''
  unfold throughYaml Doc.viaYaml fromDoc
  simp only [ht, Bool.false_eq_true, if_false]
  rw [C102_equal_dictionaries (same_sorted (dicts_toDoc s k w ver)), data_toDoc]
  cases fromDict (s.toDict w ver) <;> rfl

/-- **C101.** Without in-clauses and without in-conditions that were made with a tuple, a space whose conditions print
differently can be saved as a YAML file and loaded again, with the same contents. -/
theorem C101_yaml_round_trip_partial (h : Reach calls s) (hoc : OwnConds calls) (hown : OwnClauses calls) (hp : PrintApart calls)
    (k : Lit → SeqKind) (w : Name → Option (List Rat)) (ver : String)
    (hb : ∀ x ∈ allHps calls, ∀ cs, x.kind = .cat cs → badWeights cs (w x.name) = false)
    (hn : ∀ x ∈ allHps calls, (∀ cs, x.kind ≠ .cat cs) → w x.name = none)
    (hf : ∀ f ∈ allForbs calls, ¬ ContainsIn f)
    (hk : ∀ c ∈ s.conditions, ∀ l ∈ c.dlcs, (∃ vs xs, l.test = .isIn vs xs) → k l = .list) :
    ∃ s', throughYaml s k w ver = .ok (s', s.com.map (fun x => (x.name, w x.name))) ∧
      s'.com.map Node.hp = s.com.map Node.hp ∧ s'.com.map Node.cond = s.com.map Node.cond ∧ s'.forbs = s.forbs ∧
      (∀ v al, s'.check v al = s.check v al) ∧ (∀ d al, Config.ofValues s' d al = Config.ofValues s d al) ∧
      s'.defaultConfig = s.defaultConfig := by
  obtain ⟨s', h1, h2⟩ := C42_round_trip_partial h hoc hown hp w ver hb hn
  refine ⟨s', ?_, h2⟩
  rw [C101_yaml_is_the_dictionary_partial h k w ver hf hk, h1]

namespace ExY
open Verif.Ex

/-- The space of `Ex.reach1`, with an in-condition on a list, goes through both kinds of files. -/
example : (∃ r, throughJson sp1 (fun _ => .list) (fun _ => none) "1.2.0" = .ok r) ∧
    ∃ r, throughYaml sp1 (fun _ => .list) (fun _ => none) "1.2.0" = .ok r := by
  obtain ⟨s', h, _⟩ := C101_json_round_trip_partial reach1 ownC1 own1 apart1 (fun _ => .list) (fun _ => none) "1.2.0"
    (fun _ _ _ _ => rfl) (fun _ _ _ => rfl)
  obtain ⟨t', h', _⟩ := C101_yaml_round_trip_partial reach1 ownC1 own1 apart1 (fun _ => .list) (fun _ => none) "1.2.0"
    (fun _ _ _ _ => rfl) (fun _ _ _ => rfl) (by
      intro f hf
      have : f = forb1 ∨ f = forb2 := by simpa [allForbs, call1] using hf
      rcases this with rfl | rfl <;>
      · intro hc
        cases hc with
        | inside hm hc =>
          simp only [List.mem_cons, List.not_mem_nil, or_false] at hm
          rcases hm with rfl | rfl <;> cases hc) (fun _ _ _ _ _ => rfl)
  exact ⟨⟨_, h⟩, ⟨_, h'⟩⟩

/-- With a tuple in its in-condition the same space cannot be loaded from a YAML file. -/
example : throughYaml sp1 (fun _ => .tuple) (fun _ => none) "1.2.0" = .error .constructorError :=
  (C101_yaml_fails_iff reach1 _ _ _).2 (.inr ⟨condO, by
    rw [conditions_eq reach1 apart1]
    exact List.mem_of_getElem? (i := 1) (by rfl), litO, by simp [condO, Cond.dlcs], ⟨_, _, rfl⟩, rfl⟩)

/-- not (o in ("hi", "lo") and alg == "b") -/
def forbY : Forb := .and [.isIn hpO [.str "hi", .str "lo"] [2, 0], .eq hpAlg (.str "b") 1]
def callY : Call := ⟨[hpO, hpAlg], [], [forbY]⟩
def spY : Space := committed {} callY

theorem reachY : Reach [callY] spY := Reach.snoc (calls := []) .nil (by decide +kernel)
  (add_of_stages [("alg", some (.str "a")), ("o", some (.str "mid"))] [some 0, some 1] [("alg", .str "a"), ("o", .str "mid")]
    (by decide +kernel) (by decide +kernel) (by decide +kernel) (by decide +kernel) (by decide +kernel) (by decide +kernel))

/-- A space with an in-clause inside of a conjunction, and no tuple given by the user, cannot be loaded from a YAML file. -/
example : throughYaml spY (fun _ => .list) (fun _ => none) "1.2.0" = .error .constructorError :=
  (C101_yaml_fails_iff reachY _ _ _).2 (.inl ⟨forbY, by simp [allForbs, callY], .inside (List.mem_cons_self ..) (.here _ _ _)⟩)

/-- The in-condition of `Ex.reach1`, once with a list and once with a tuple. -/
example (k : Lit → SeqKind) : ∃ c, decInCond sp1 (docLit k litO).viaJson = .ok c ∧ (InCond.pyEq ⟨litO, k litO⟩ c = true ↔ k litO = .list) :=
  (C101_tuple_conditions_change reach1 (l := litO) (by decide +kernel) (members1 (by decide +kernel)) (members1 (by decide +kernel)) rfl k).2

/-- Two dictionaries with their keys in different order, at two levels. -/
def one : Json := .obj [("hyperparameters", .arr [.obj [("type", .str "constant"), ("name", .str "c"), ("value", .val (.int 7))]]),
  ("conditions", .arr [])]
def other : Json := .obj [("conditions", .arr []),
  ("hyperparameters", .arr [.obj [("value", .val (.int 7)), ("type", .str "constant"), ("name", .str "c")]])]

theorem same_objects {fs gs : List (String × Json)} (hp : fs.Perm gs) (hn : (gs.map Prod.fst).Nodup) :
    SameData (.obj fs) (.obj gs) :=
  .obj (fun k => by rw [lookup_perm hp hn]) fun k a b ha hb => by
    rw [lookup_perm hp hn, hb] at ha
    cases ha
    exact SameData.refl _

example : fromDict one = fromDict other := C102_equal_dictionaries (by
  refine .obj ?_ ?_
  · intro k
    by_cases h1 : k = "hyperparameters"
    · subst h1; exact ⟨fun _ => ⟨_, rfl⟩, fun _ => ⟨_, rfl⟩⟩
    by_cases h2 : k = "conditions"
    · subst h2; exact ⟨fun _ => ⟨_, rfl⟩, fun _ => ⟨_, rfl⟩⟩
    · simp [List.lookup_cons, beq_false_of_ne h1, beq_false_of_ne h2]
  · intro k a b
    by_cases h1 : k = "hyperparameters"
    · subst h1
      intro ha hb
      cases ha
      cases hb
      refine .arr rfl fun i a b ha hb => ?_
      match i with
      | 0 =>
        cases ha
        cases hb
        exact same_objects (List.perm_append_comm (l₁ := [_, _]) (l₂ := [_])) (by simp)
      | i + 1 => simp at ha
    by_cases h2 : k = "conditions"
    · subst h2
      intro ha hb
      cases ha
      cases hb
      exact SameData.refl _
    · simp [List.lookup_cons, beq_false_of_ne h1, beq_false_of_ne h2])

end ExY

end Verif.Files
