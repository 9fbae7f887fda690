import Verif.Lemmas.JsonCut
import Verif.Lemmas.Files
import Verif.Props.Files
import Verif.Props.PcsNew

/-!
# C101, C123: the text of JSON files
-/

set_option autoImplicit false

namespace Verif.JText
open Verif Spec

variable {calls : List Call} {s : Space} {T : PyText}

/-! ## The dictionaries of spaces -/

theorem dk_str (t : String) : DistinctKeys (Json.str t) := .val _

theorem dk_vals {α : Type} (f : α → Val) (vs : List α) : DistinctKeys (.arr (vs.map (fun v => Json.val (f v)))) := by
  refine .arr fun j hj => ?_
  obtain ⟨v, _, rfl⟩ := List.mem_map.1 hj
  exact .val _

theorem dk_hp (h : HP) (w : Option (List Rat)) : DistinctKeys (encHP h w) := by
  unfold encHP
  split
  · refine .obj (by simp) ?_
    simp only [List.mem_cons, List.not_mem_nil, or_false, forall_eq_or_imp, forall_eq]
    exact ⟨dk_str _, dk_str _, .val _, .val _, .val _, .bool _, .null⟩
  · refine .obj (by simp) ?_
    simp only [List.mem_cons, List.not_mem_nil, or_false, forall_eq_or_imp, forall_eq]
    exact ⟨dk_str _, dk_str _, .val _, .val _, .val _, .bool _, .null⟩
  · refine .obj (by simp) ?_
    simp only [List.mem_cons, List.not_mem_nil, or_false, forall_eq_or_imp, forall_eq]
    refine ⟨dk_str _, dk_str _, dk_vals id _, ?_, .val _, .null⟩
    split
    · exact dk_vals Val.flt _
    · exact .null
  · refine .obj (by simp) ?_
    simp only [List.mem_cons, List.not_mem_nil, or_false, forall_eq_or_imp, forall_eq]
    exact ⟨dk_str _, dk_str _, dk_vals id _, .val _, .null⟩
  · refine .obj (by simp) ?_
    simp only [List.mem_cons, List.not_mem_nil, or_false, forall_eq_or_imp, forall_eq]
    exact ⟨dk_str _, dk_str _, .val _, .null⟩

theorem dk_lit (l : Lit) : DistinctKeys (encLit l) := by
  unfold encLit
  split
  · refine .obj (by simp) ?_
    simp only [List.mem_cons, List.not_mem_nil, or_false, forall_eq_or_imp, forall_eq]
    exact ⟨dk_str _, dk_str _, dk_str _, .val _⟩
  · refine .obj (by simp) ?_
    simp only [List.mem_cons, List.not_mem_nil, or_false, forall_eq_or_imp, forall_eq]
    exact ⟨dk_str _, dk_str _, dk_str _, dk_vals id _⟩

mutual
theorem dk_cond : ∀ c : Cond, DistinctKeys (encCond c)
  | .lit l => by rw [encCond]; exact dk_lit l
  | .and cs => by
    rw [encCond]
    refine .obj (by simp) ?_
    simp only [List.mem_cons, List.not_mem_nil, or_false, forall_eq_or_imp, forall_eq]
    exact ⟨dk_str _, dk_str _, .arr (dk_conds cs)⟩
  | .or cs => by
    rw [encCond]
    refine .obj (by simp) ?_
    simp only [List.mem_cons, List.not_mem_nil, or_false, forall_eq_or_imp, forall_eq]
    exact ⟨dk_str _, dk_str _, .arr (dk_conds cs)⟩
theorem dk_conds : ∀ cs : List Cond, ∀ j ∈ encConds cs, DistinctKeys j
  | [] => by rw [encConds]; simp
  | c :: cs => by
    rw [encConds]
    intro j hj
    rcases List.mem_cons.1 hj with rfl | hj
    · exact dk_cond c
    · exact dk_conds cs j hj
end

mutual
theorem dk_forb : ∀ f : Forb, DistinctKeys (encForb f)
  | .eq h v x => by
    rw [encForb]
    refine .obj (by simp) ?_
    simp only [List.mem_cons, List.not_mem_nil, or_false, forall_eq_or_imp, forall_eq]
    exact ⟨dk_str _, dk_str _, .val _⟩
  | .isIn h vs xs => by
    rw [encForb]
    refine .obj (by simp) ?_
    simp only [List.mem_cons, List.not_mem_nil, or_false, forall_eq_or_imp, forall_eq]
    exact ⟨dk_str _, dk_str _, dk_vals id _⟩
  | .rel op l r => by
    rw [encForb]
    refine .obj (by simp) ?_
    simp only [List.mem_cons, List.not_mem_nil, or_false, forall_eq_or_imp, forall_eq]
    exact ⟨dk_str _, dk_str _, dk_str _⟩
  | .and fs => by
    rw [encForb]
    refine .obj (by simp) ?_
    simp only [List.mem_cons, List.not_mem_nil, or_false, forall_eq_or_imp, forall_eq]
    exact ⟨dk_str _, .arr (dk_forbs fs)⟩
theorem dk_forbs : ∀ fs : List Forb, ∀ j ∈ encForbs fs, DistinctKeys j
  | [] => by rw [encForbs]; simp
  | f :: fs => by
    rw [encForbs]
    intro j hj
    rcases List.mem_cons.1 hj with rfl | hj
    · exact dk_forb f
    · exact dk_forbs fs j hj
end

theorem dk_toDict (s : Space) (w : Name → Option (List Rat)) (ver : String) : DistinctKeys (s.toDict w ver) := by
  unfold Space.toDict
  refine .obj (by simp) ?_
  simp only [List.mem_cons, List.not_mem_nil, or_false, forall_eq_or_imp, forall_eq]
  refine ⟨.null, .arr fun j hj => ?_, .arr (dk_conds _), .arr (dk_forbs _), dk_str _, .val _⟩
  obtain ⟨x, _, rfl⟩ := List.mem_map.1 hj
  exact dk_hp _ _

theorem toJson_eq (T : PyText) (s : Space) (k : Lit → Files.SeqKind) (w : Name → Option (List Rat)) (ver : String) :
    toJson T s k w ver = text T (s.toDict w ver) := by
  unfold toJson
  rw [Files.data_toDoc]

theorem closed_toDict (s : Space) (w : Name → Option (List Rat)) (ver : String) : Closed (s.toDict w ver) := trivial

/-! ## C101: round trip -/

/-- **C101.** The text that is written for a dictionary without repeated keys is read as the same dictionary: texts with any
characters, whole numbers of any size, floats, lists and dictionaries of any depth. -/
theorem C101_text_is_read_back (hT : FloatTexts T) {j : Json} (hj : DistinctKeys j) : load T (text T j) = some j := load_text hT hj

/-- **C101.** Two different dictionaries are never written as the same text. -/
theorem C101_texts_differ (hT : FloatTexts T) {i j : Json} (hi : DistinctKeys i) (hj : DistinctKeys j) (h : text T i = text T j) :
    i = j := by
  have h1 := load_text hT hi
  rw [h, load_text hT hj] at h1
  exact (Option.some.inj h1).symm

/-- **C101.** A space whose conditions print differently can be saved as a JSON file and loaded again, from the text of the file
on: the loaded space has the same hyperparameters, conditions and clauses, and accepts and rejects the same vectors and values. -/
theorem C101_json_text_round_trip_partial (hT : FloatTexts T) (h : Reach calls s) (hoc : OwnConds calls) (hown : OwnClauses calls)
    (hp : PrintApart calls) (k : Lit → Files.SeqKind) (w : Name → Option (List Rat)) (ver : String)
    (hb : ∀ x ∈ allHps calls, ∀ cs, x.kind = .cat cs → badWeights cs (w x.name) = false)
    (hn : ∀ x ∈ allHps calls, (∀ cs, x.kind ≠ .cat cs) → w x.name = none) :
    ∃ s', fromJson T (toJson T s k w ver) = .space s' (s.com.map (fun x => (x.name, w x.name))) ∧
      s'.com.map Node.hp = s.com.map Node.hp ∧ s'.com.map Node.cond = s.com.map Node.cond ∧ s'.forbs = s.forbs ∧
      (∀ v al, s'.check v al = s.check v al) ∧ (∀ d al, Config.ofValues s' d al = Config.ofValues s d al) ∧
      s'.defaultConfig = s.defaultConfig := by
  obtain ⟨s', h1, h2⟩ := C42_round_trip_partial h hoc hown hp w ver hb hn
  refine ⟨s', ?_, h2⟩
  rw [toJson_eq]
  unfold fromJson
  rw [load_text hT (dk_toDict s w ver)]
  dsimp only
  rw [h1]

/-! ## Only characters of ASCII -/

theorem ascii_num {c : Char} (h : NumChar c) : c.toNat < 128 := by
  rcases h with h | rfl | rfl | rfl | rfl
  · simp only [Char.isDigit, Bool.and_eq_true, decide_eq_true_eq] at h
    have := h.2
    have h2 : c.val.toNat ≤ 57 := this
    exact Nat.lt_of_le_of_lt h2 (by decide)
  all_goals decide

theorem ascii_hex : ∀ d, d < 16 → (hexChar d).toNat < 128 := by decide

theorem ascii_uText (n : Nat) : ∀ c ∈ uText n, c.toNat < 128 := by
  have h : ∀ d, (hexChar (d % 16)).toNat < 128 := fun d => ascii_hex _ (Nat.mod_lt _ (by decide))
  unfold uText
  simp only [List.mem_cons, List.not_mem_nil, or_false, forall_eq_or_imp, forall_eq]
  exact ⟨by decide, by decide, h _, h _, h _, h _⟩

theorem ascii_escape (c : Char) : ∀ x ∈ escape c, x.toNat < 128 := by
  unfold escape
  repeat' split
  all_goals first
    | exact ascii_uText _
    | (intro x hx; rcases List.mem_append.1 hx with hx | hx <;> exact ascii_uText _ x hx)
    | decide
    | (intro x hx; simp at hx; subst hx; omega)

theorem ascii_str (t : String) : ∀ x ∈ strText t, x.toNat < 128 := by
  rw [strText_eq]
  intro x hx
  rcases List.mem_cons.1 hx with rfl | hx
  · decide
  · rcases List.mem_append.1 hx with hx | hx
    · obtain ⟨c, _, hc⟩ := List.mem_flatMap.1 hx
      exact ascii_escape c x hc
    · simp at hx; subst hx; decide

theorem ascii_append {a b : Chars} (ha : ∀ c ∈ a, c.toNat < 128) (hb : ∀ c ∈ b, c.toNat < 128) : ∀ c ∈ a ++ b, c.toNat < 128 := by
  intro c hc
  rcases List.mem_append.1 hc with h | h
  · exact ha c h
  · exact hb c h

theorem ascii_cons {x : Char} {b : Chars} (ha : x.toNat < 128) (hb : ∀ c ∈ b, c.toNat < 128) : ∀ c ∈ x :: b, c.toNat < 128 := by
  intro c hc
  rcases List.mem_cons.1 hc with h | h
  · rw [h]; exact ha
  · exact hb c h

mutual
theorem ascii_text (hT : FloatTexts T) : ∀ j : Json, ∀ c ∈ text T j, c.toNat < 128
  | .null => by rw [text]; decide
  | .bool true => by rw [text]; decide
  | .bool false => by rw [text]; decide
  | .val (.int n) => by rw [text, valText]; exact fun c hc => ascii_num (int_num n c hc)
  | .val (.flt q) => by rw [text, valText]; exact fun c hc => ascii_num (float_num (hT.shape q) c hc)
  | .val (.str t) => by rw [text, valText]; exact ascii_str t
  | .arr [] => by rw [text]; decide
  | .arr (j :: js) => by rw [text]; exact ascii_cons (by decide) (ascii_append (ascii_text hT j) (ascii_textL hT js))
  | .obj [] => by rw [text]; decide
  | .obj ((k, j) :: fs) => by
    rw [text]
    exact ascii_cons (by decide) (ascii_append (ascii_str k) (ascii_cons (by decide) (ascii_cons (by decide)
      (ascii_append (ascii_text hT j) (ascii_textF hT fs)))))
theorem ascii_textL (hT : FloatTexts T) : ∀ js : List Json, ∀ c ∈ textL T js, c.toNat < 128
  | [] => by rw [textL]; decide
  | j :: js => by
    rw [textL]
    exact ascii_cons (by decide) (ascii_cons (by decide) (ascii_append (ascii_text hT j) (ascii_textL hT js)))
theorem ascii_textF (hT : FloatTexts T) : ∀ fs : List (String × Json), ∀ c ∈ textF T fs, c.toNat < 128
  | [] => by rw [textF]; decide
  | (k, j) :: fs => by
    rw [textF]
    exact ascii_cons (by decide) (ascii_cons (by decide) (ascii_append (ascii_str k) (ascii_cons (by decide) (ascii_cons (by decide)
      (ascii_append (ascii_text hT j) (ascii_textF hT fs))))))
end

/-- **C101.** Only characters of ASCII are written, whatever the names and values are: the file does not depend on the encoding
with which it is opened, and every byte is one character. -/
theorem C101_only_ascii (hT : FloatTexts T) (s : Space) (k : Lit → Files.SeqKind) (w : Name → Option (List Rat)) (ver : String) :
    ∀ c ∈ toJson T s k w ver, c.toNat < 128 := by
  rw [toJson_eq]; exact ascii_text hT _

/-! ## C123: interrupted writes -/

/-- **C123.** A file that was cut anywhere cannot be loaded: every proper beginning of what `to_json` writes makes `from_json` raise
`JSONDecodeError`. -/
theorem C123_cut_file_fails (hT : FloatTexts T) (s : Space) (k : Lit → Files.SeqKind) (w : Name → Option (List Rat)) (ver : String)
    {p : Chars} (h : p <+: toJson T s k w ver) (hne : p ≠ toJson T s k w ver) : fromJson T p = .jsonError := by
  rw [toJson_eq] at h hne
  unfold fromJson
  rw [load_cut hT (dk_toDict s w ver) (closed_toDict s w ver) h hne]

/-- **C123.** A file is written any number of times and each of the writes may be stopped anywhere.  Then `from_json` raises
`JSONDecodeError`, or ends as it would for the file before the first write, or as for one of the files that were to be written:
it never makes a space of a part of a file. -/
theorem C123_never_another_space (hT : FloatTexts T) {old c : Chars} {ws : List Chars} (h : Written old ws c)
    (hw : ∀ t ∈ ws, ∃ s k w ver, t = toJson T s k w ver) :
    fromJson T c = .jsonError ∨ c = old ∨ c ∈ ws := by
  induction h with
  | nothing => exact .inr (.inl rfl)
  | @write ws c new c' h1 h2 ih =>
    have ih := ih (fun t ht => hw t (by simp [ht]))
    cases h2 with
    | before =>
      rcases ih with h | h | h
      · exact .inl h
      · exact .inr (.inl h)
      · exact .inr (.inr (by simp [h]))
    | during _ hp =>
      by_cases he : c' = new
      · exact .inr (.inr (by simp [he]))
      · obtain ⟨s, k, w, ver, rfl⟩ := hw new (by simp)
        exact .inl (C123_cut_file_fails hT s k w ver hp he)

/-- **C123.** If the file can be loaded after a write that may have been stopped, then the old or the new file is there as a
whole. -/
theorem C123_old_or_new (hT : FloatTexts T) {old c : Chars} (s : Space) (k : Lit → Files.SeqKind) (w : Name → Option (List Rat))
    (ver : String) (h : OnDisk old (toJson T s k w ver) c) (hl : fromJson T c ≠ .jsonError) : c = old ∨ c = toJson T s k w ver := by
  have h1 : Written old ([] ++ [toJson T s k w ver]) c := .write .nothing h
  rcases C123_never_another_space hT h1 (fun t ht => ⟨s, k, w, ver, by simpa using ht⟩) with h | h | h
  · exact absurd h hl
  · exact .inl h
  · exact .inr (by simpa using h)

/-- **C123** is false of the code in one direction: the file that was there is lost before the new one is complete.  Whatever it was,
and whatever space is written, there is a moment at which stopping the program leaves a file that cannot be loaded. -/
theorem C123_old_file_is_lost (T : PyText) (old new : Chars) : ∃ c, OnDisk old new c ∧ fromJson T c = .jsonError :=
  ⟨[], .during [] List.nil_prefix, by
    unfold fromJson load
    rw [skip, value_nil]⟩

/-! ## C123: open files -/

theorem skip_nil_iff (r : Chars) : skip r = [] ↔ ∀ c ∈ r, IsSpace c := by
  induction r with
  | nil => simp [skip]
  | cons c r ih =>
    by_cases hc : IsSpace c
    · have : skip (c :: r) = skip r := by rw [skip]; exact if_pos hc
      rw [this, ih]
      simp [hc]
    · rw [skip_cons hc]
      simp [hc]

/-- A value that is not a number, and something after it. -/
theorem load_more (hT : FloatTexts T) {j : Json} (hj : DistinctKeys j) (hc : Closed j) (r : Chars) :
    load T (text T j ++ r) = if skip r = [] then some j else none := by
  unfold load
  rw [skip_text hT, value_text hT j hj _ r (.inl hc) (by omega)]

/-- **C123.** Behind a complete file only white space may follow. -/
theorem C123_what_may_follow (hT : FloatTexts T) (s : Space) (k : Lit → Files.SeqKind) (w : Name → Option (List Rat)) (ver : String)
    (r : Chars) : ((∀ c ∈ r, c = ' ' ∨ c = '\t' ∨ c = '\n' ∨ c = '\r') → fromJson T (toJson T s k w ver ++ r) = fromJson T (toJson T s k w ver)) ∧
      ((∃ c ∈ r, ¬ (c = ' ' ∨ c = '\t' ∨ c = '\n' ∨ c = '\r')) → fromJson T (toJson T s k w ver ++ r) = .jsonError) := by
  rw [toJson_eq]
  unfold fromJson
  rw [load_more hT (dk_toDict s w ver) (closed_toDict s w ver), load_text hT (dk_toDict s w ver)]
  refine ⟨fun h => ?_, fun h => ?_⟩
  · rw [if_pos ((skip_nil_iff r).2 h)]
  · rw [if_neg]
    intro e
    obtain ⟨c, hc, hn⟩ := h
    exact hn ((skip_nil_iff r).1 e c hc)

theorem textF_last (T : PyText) : ∀ fs : List (String × Json), ∃ t, textF T fs = t ++ ['}']
  | [] => ⟨[], by rw [textF]; rfl⟩
  | (k, j) :: fs => by
    obtain ⟨t, ht⟩ := textF_last T fs
    rw [textF, ht]
    exact ⟨',' :: ' ' :: (strText k ++ ':' :: ' ' :: (text T j ++ t)), by simp⟩

theorem obj_last (T : PyText) (fs : List (String × Json)) : ∃ t, text T (.obj fs) = t ++ ['}'] := by
  cases fs with
  | nil => exact ⟨['{'], by rw [text]; rfl⟩
  | cons f fs =>
    obtain ⟨k, j⟩ := f
    obtain ⟨t, ht⟩ := textF_last T fs
    rw [text, ht]
    exact ⟨'{' :: (strText k ++ ':' :: ' ' :: (text T j ++ t)), by simp⟩

/-- **C123** is false of the code for open files: if a space is written into an open file over a space that took more room, the
rest of the old text stays behind the new one and the file cannot be loaded any more.  If the old one did not take more room, the
new one is loaded. -/
theorem C123_open_file_partial (hT : FloatTexts T) (s s0 : Space) (k k0 : Lit → Files.SeqKind) (w w0 : Name → Option (List Rat))
    (ver ver0 : String) : fromJson T (overwrite (toJson T s0 k0 w0 ver0) (toJson T s k w ver)) =
      if (toJson T s0 k0 w0 ver0).length ≤ (toJson T s k w ver).length then fromJson T (toJson T s k w ver) else .jsonError := by
  unfold overwrite
  by_cases h : (toJson T s0 k0 w0 ver0).length ≤ (toJson T s k w ver).length
  · rw [if_pos h, List.drop_eq_nil_of_le h, List.append_nil]
  · rw [if_neg h]
    refine (C123_what_may_follow hT s k w ver _).2 ⟨'}', ?_, by decide⟩
    obtain ⟨t, ht⟩ := obj_last T [("name", .null),
      ("hyperparameters", .arr (s0.com.map (fun x => encHP x.hp (w0 x.name)))),
      ("conditions", .arr (encConds s0.conditions)),
      ("forbiddens", .arr (encForbs s0.forbs)),
      ("python_module_version", .str ver0), ("format_version", .val (.flt (2 / 5)))]
    have e : toJson T s0 k0 w0 ver0 = t ++ ['}'] := by rw [toJson_eq]; exact ht
    rw [e] at h ⊢
    rw [List.drop_append_of_le_length (by simp at h; omega)]
    simp

/-- **C123.** Two spaces that were written into one open file, one after the other, cannot be loaded. -/
theorem C123_two_in_one_file (hT : FloatTexts T) (s s0 : Space) (k k0 : Lit → Files.SeqKind) (w w0 : Name → Option (List Rat))
    (ver ver0 : String) : fromJson T (toJson T s0 k0 w0 ver0 ++ toJson T s k w ver) = .jsonError := by
  obtain ⟨t, ht⟩ : ∃ t, toJson T s k w ver = '{' :: t := ⟨_, by rw [toJson_eq, Space.toDict, text]⟩
  exact (C123_what_may_follow hT s0 k0 w0 ver0 _).2 ⟨'{', by rw [ht]; simp, by decide⟩

/-! ## C123: YAML files -/

/-- A call with hyperparameters only succeeds if the names are new. -/
theorem add_plain {calls : List Call} {s : Space} (h : Reach calls s) (hc : allConds calls = []) (hf : allForbs calls = []) {hs : List HP}
    (hw : ∀ x ∈ hs, x.wf = true) (hd : ((allHps calls ++ hs).map HP.name).Nodup) :
    ∃ s1, s.add hs [] [] = (s1, none) ∧ Reach (calls ++ [⟨hs, [], []⟩]) s1 := by
  have hk : (Call.mk hs [] []).wf := ⟨hw, by simp, by simp⟩
  have e1 : allHps (calls ++ [⟨hs, [], []⟩]) = allHps calls ++ hs := by simp [allHps]
  have e2 : allConds (calls ++ [⟨hs, [], []⟩]) = [] := by
    have : allConds (calls ++ [⟨hs, [], []⟩]) = allConds calls ++ [] := by simp [allConds]
    rw [this, hc]; rfl
  have e3 : allForbs (calls ++ [⟨hs, [], []⟩]) = [] := by
    have : allForbs (calls ++ [⟨hs, [], []⟩]) = allForbs calls ++ [] := by simp [allForbs]
    rw [this, hf]; rfl
  have hfit : Fits calls ⟨hs, [], []⟩ := by
    refine ⟨by rw [e1]; exact hd, by simp, by simp, by simp, ?_, by simp⟩
    intro n hn
    have : ∀ a b, ¬ ParentOf (calls ++ [⟨hs, [], []⟩]) a b := by
      rintro a b ⟨c, hc', _⟩
      rw [e2] at hc'
      cases hc'
    cases hn with
    | edge hb => exact this _ _ hb
    | cons hb _ => exact this _ _ hb
  obtain ⟨s1, p1, ha⟩ := add_candidate h hk hfit (by intro f hf'; rw [e3] at hf'; cases hf') (by intro hf'; rw [e3] at hf'; cases hf')
  rw [e1, e2, e3] at p1
  obtain ⟨c, hc'⟩ := plain_default p1 (by
    intro x hx
    rcases List.mem_append.1 hx with hx | hx
    · exact (reach_wf h).1 x hx
    · exact hw x hx)
  rw [hc'] at ha
  exact ⟨s1, ha, Reach.snoc h hk ha⟩

/-- **C123** is false of the code for YAML files: of a space without conditions and clauses, every beginning of the file that ends
after the lines of a hyperparameter is loaded without an error, as a space in which the other hyperparameters are missing. -/
theorem C123_cut_yaml_is_loaded (h : Reach calls s) (hc : allConds calls = []) (hf : allForbs calls = []) (k : Lit → Files.SeqKind)
    (w : Name → Option (List Rat))
    (hb : ∀ x ∈ allHps calls, ∀ cs, x.kind = .cat cs → badWeights cs (w x.name) = false)
    (hn : ∀ x ∈ allHps calls, (∀ cs, x.kind ≠ .cat cs) → w x.name = none) {n : Nat} (_h0 : 0 < n) :
    ∃ s' ws, Files.fromDoc (yamlCut s k w n) = .ok (s', ws) ∧ (s'.com.map Node.hp).Perm ((s.com.map Node.hp).take n) ∧
      (n < s.com.length → ∃ x ∈ allHps calls, x.name ∉ s'.names) := by
  have hw := reach_wf h
  have hperm := hps_perm h
  have hnd := hps_nodup h
  have hcs : s.conditions = [] := by
    rw [conditions_eq h (by intro c hc'; rw [hc] at hc'; cases hc'), List.eq_nil_iff_forall_not_mem]
    intro c hc'
    obtain ⟨_, _, _, h1, _⟩ := mem_nodeConds h hc'
    rw [hc] at h1
    cases h1
  have hfs : s.forbs = [] := by
    cases e : s.forbs with
    | nil => rfl
    | cons f fs =>
      have := (mem_forbs h f).1 (by rw [e]; simp)
      rw [hf] at this
      cases this
  have hsub : ((s.com.map Node.hp).take n).Sublist (s.com.map Node.hp) := List.take_sublist _ _
  have hw' : ∀ x ∈ (s.com.map Node.hp).take n, x.wf = true := fun x hx => hw.1 x (hperm.mem_iff.1 (hsub.subset hx))
  obtain ⟨s1, a1, r1⟩ := add_plain (calls := []) Reach.nil rfl rfl hw' (by
    simpa [allHps] using hnd.sublist (hsub.map HP.name))
  obtain ⟨s2, a2, r2⟩ := add_plain r1 (by simp [allConds]) (by simp [allForbs]) (hs := []) (by simp) (by
    simpa [allHps] using hnd.sublist (hsub.map HP.name))
  have e1 : mapExcept decHP ((s.com.take n).map (fun x => encHP x.hp (w x.name))) =
      .ok ((s.com.take n).map (fun x => (x.hp, w x.name))) := by
    have : ∀ ns : Nodes, (∀ x ∈ ns, x ∈ s.com) → mapExcept decHP (ns.map (fun x => encHP x.hp (w x.name))) =
        .ok (ns.map (fun x => (x.hp, w x.name))) := by
      intro ns
      induction ns with
      | nil => intro _; rfl
      | cons x ns ih =>
        intro hns
        have hx : x.hp ∈ allHps calls := node_hp h (hns x (by simp))
        simp only [List.map_cons, mapExcept]
        rw [show x.name = x.hp.name from rfl, C42_hyperparameter (hw.1 _ hx) (hb _ hx) (hn _ hx), ih (fun y hy => hns y (by simp [hy]))]
    exact this _ (fun x hx => List.mem_of_mem_take hx)
  have hdata : (yamlCut s k w n).data = .obj [("conditions", .arr []), ("forbiddens", .arr []), ("format_version", .val (.flt (2 / 5))),
      ("hyperparameters", .arr ((s.com.take n).map (fun x => encHP x.hp (w x.name))))] := by
    unfold yamlCut
    rw [hcs, hfs]
    simp only [Files.docConds, Files.docForbs, Files.Doc.data, Files.Doc.dataF, Files.dataL_map, List.map_nil, List.map_take, List.map_map]
    congr
    funext x
    exact Files.data_ofJson _
  have hperm2 : (s2.com.map Node.hp).Perm ((s.com.map Node.hp).take n) := by
    have := hps_perm r2
    simpa [allHps] using this
  refine ⟨s2, (s.com.take n).map (fun x => (x.name, w x.name)), ?_, hperm2, ?_⟩
  · unfold Files.fromDoc
    rw [hdata]
    have f1 : ∀ hs : List Json, fromDict (.obj [("conditions", .arr []), ("forbiddens", .arr []), ("format_version", .val (.flt (2 / 5))),
        ("hyperparameters", .arr hs)]) = match mapExcept decHP hs with
        | .error e => .error e
        | .ok hps => match ({} : Space).add (hps.map Prod.fst) [] [] with
          | (_, some e) => .error e
          | (s1, none) => match s1.add [] [] [] with
            | (_, some e) => .error e
            | (s2, none) => .ok (s2, hps.map (fun p => (p.1.name, p.2))) := fun _ => rfl
    rw [f1, e1]
    have a1' : ({} : Space).add (((s.com.take n).map (fun x => (x.hp, w x.name))).map Prod.fst) [] [] = (s1, none) := by
      rw [List.map_map, List.map_take]
      exact a1
    simp only [a1', a2]
    rw [List.map_map]
    rfl
  · intro hlt
    refine ⟨(s.com[n]'hlt).hp, node_hp h (List.getElem_mem hlt), ?_⟩
    intro hm
    have hm1 : (s.com[n]'hlt).hp.name ∈ (s2.com.map Node.hp).map HP.name := by
      rw [List.map_map]; exact hm
    have hm2 := (hperm2.map HP.name).mem_iff.1 hm1
    rw [← List.map_take, List.map_map] at hm2
    obtain ⟨x, hx, e⟩ := List.mem_map.1 hm2
    obtain ⟨i, hi, rfl⟩ := List.mem_iff_getElem.1 hx
    rw [List.getElem_take] at e
    rw [List.map_map] at hnd
    have hin : i < n := by rw [List.length_take] at hi; omega
    have := (List.nodup_iff_injective_getElem.1 hnd) (a₁ := ⟨i, by simp; omega⟩) (a₂ := ⟨n, by simpa using hlt⟩) (by simpa using e)
    simp only [Fin.mk.injEq] at this
    omega

/-! ## Examples -/

namespace ExJt

/-- Numbers written as their code with the exponent 0. -/
def textJ : PyText where
  strFloat q := String.ofList (natText (Encodable.encode q) ++ ['e', '0'])
  parseFloat t := Encodable.decode (natOf t.toList.dropLast.dropLast)
  parseInt _ := none

theorem floats : FloatTexts textJ := by
  refine ⟨fun q => ?_, fun q => ?_⟩
  · have := FloatText.mk [] (natText (Encodable.encode q)) [] ['e', '0'] (.inl rfl) (natText_whole _) (.inl rfl)
      (.inr ⟨[], ['0'], .inl rfl, ⟨by simp, by simp⟩, rfl⟩) (.inr (by simp))
    simpa [textJ] using this
  · have : (natText (Encodable.encode q) ++ ['e', '0']).dropLast.dropLast = natText (Encodable.encode q) := by
      rw [show natText (Encodable.encode q) ++ ['e', '0'] = (natText (Encodable.encode q) ++ ['e']) ++ ['0'] by simp,
        List.dropLast_concat, List.dropLast_concat]
    simp only [textJ, String.toList_ofList, this, natOf_natText, Encodable.encodek]

/-- A space with conditions and clauses is written and loaded. -/
example : ∃ s', fromJson textJ (toJson textJ Ex.sp1 (fun _ => .list) (fun _ => none) "1.2.0") = .space s' (Ex.sp1.com.map (fun x => (x.name, none))) ∧
    s'.com.map Node.hp = Ex.sp1.com.map Node.hp := by
  obtain ⟨s', h, h2, _⟩ := C101_json_text_round_trip_partial floats Ex.reach1 Ex.ownC1 Ex.own1 Ex.apart1 (fun _ => .list) (fun _ => none) "1.2.0"
    (fun _ _ _ _ => rfl) (fun _ _ _ => rfl)
  exact ⟨s', h, h2⟩

/-- What a dictionary looks like. -/
example : text textJ (.obj [("a", .arr [.val (.int (-12)), .null]), ("ä\n", .val (.str "𝄞\""))])
    = "{\"a\": [-12, null], \"\\u00e4\\n\": \"\\ud834\\udd1e\\\"\"}".toList := by decide +kernel

/-- White space and escapes that the dumper does not write are read too. -/
example : (load textJ " {\"x\\/\" :[1 ,true]}\n".toList).map (text textJ) = some "{\"x/\": [1, true]}".toList := by decide +kernel

/-- The file is cut after 20 characters, and then only half of a second write arrives. -/
example : fromJson textJ ((toJson textJ Ex.sp1 (fun _ => .list) (fun _ => none) "1.2.0").take 20) = .jsonError :=
  C123_cut_file_fails floats _ _ _ _ (List.take_prefix _ _) (by
    intro h
    have h2 := congrArg List.length h
    rw [List.length_take, toJson_eq, Space.toDict, text, text] at h2
    simp only [strText_eq, List.length_cons, List.length_append, String.length_toList] at h2
    simp only [textF, text, strText_eq, List.length_cons, List.length_append] at h2
    have : 20 < (List.flatMap escape "name".toList).length + (List.flatMap escape "hyperparameters".toList).length + 2 := by decide +kernel
    omega)

example (a b : Chars) : Written [] [a, b] (b.take 3) :=
  .write (ws := [a]) (.write (ws := []) .nothing (.during (a.take 2) (List.take_prefix _ _))) (.during _ (List.take_prefix _ _))

/-- Two hyperparameters, and the file ends after the first one. -/
def callY : Call := ⟨[Ex.ab "p", Ex.ab "y"], [], []⟩

theorem spaceY : ∃ s, Reach [callY] s := by
  obtain ⟨s, _, h⟩ := add_plain (calls := []) Reach.nil rfl rfl (hs := [Ex.ab "p", Ex.ab "y"]) (by decide +kernel) (by decide +kernel)
  exact ⟨s, h⟩

example : ∃ s s' ws, Reach [callY] s ∧ Files.fromDoc (yamlCut s (fun _ => .list) (fun _ => none) 1) = .ok (s', ws) ∧
    ∃ x ∈ callY.hps, x.name ∉ s'.names := by
  obtain ⟨s, h⟩ := spaceY
  obtain ⟨s', ws, h1, _, h2⟩ := C123_cut_yaml_is_loaded h rfl rfl (fun _ => .list) (fun _ => none) (fun _ _ _ _ => rfl) (fun _ _ _ => rfl)
    (n := 1) (by decide)
  have hl : s.com.length = 2 := by
    have := (hps_perm h).length_eq
    simpa [allHps, callY] using this
  obtain ⟨x, hx, hn⟩ := h2 (by omega)
  exact ⟨s, s', ws, h, h1, x, by simpa [allHps] using hx, hn⟩

end ExJt

end Verif.JText
