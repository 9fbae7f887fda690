import Verif.Lemmas.PcsScale

/-!
# C106: numerical hyperparameters in the pcs formats keep their bounds, default and scale, and lose their distribution
-/

set_option autoImplicit false

namespace Verif
open Verif.Spec

/-! ## What is written -/

theorem newLine_ok {n l u d : String} {ty : String} {log : Bool} (hn : Plain n.toList) (hl : Plain l.toList) (hu : Plain u.toList)
    (hd : Plain d.toList) (hty : ∀ c ∈ ty.toList, parChar c = true) :
    Line parChar (newLine n ty l u d (if log then "log" else "")) ∧ ']' ∈ newLine n ty l u d (if log then "log" else "") := by
  obtain ⟨c, cs, e, h1, h2⟩ := contText_shape (ty := ty) hn hl hu hd hty
  rw [contText_rest, e]
  refine ⟨⟨?_, ⟨c, _, rfl, h1⟩, ?_⟩, by simp⟩
  · intro x hx
    rw [List.mem_append, List.mem_cons, List.mem_append, List.mem_singleton] at hx
    rcases hx with (rfl | hx | rfl) | hx
    · exact nameChar_par h1
    · exact h2 x hx
    · decide
    · cases log
      · cases hx
      · exact (by decide : ∀ x ∈ "log".toList, parChar x = true) x hx
  · cases log
    · exact ⟨c :: cs, ']', by simp, by decide⟩
    · exact ⟨c :: (cs ++ [']']) ++ ['l', 'o'], 'g', by simp, by decide⟩

theorem oldLine_ok {n l u d : String} {int log : Bool} (hn : Plain n.toList) (hl : Plain l.toList) (hu : Plain u.toList)
    (hd : Plain d.toList) :
    Line parChar (oldLine n l u d ((if int then "i" else "") ++ (if log then "l" else ""))) ∧
      ']' ∈ oldLine n l u d ((if int then "i" else "") ++ (if log then "l" else "")) := by
  obtain ⟨h1, h2⟩ := oldContText_shape (il := []) hn hl hu hd (.inl rfl)
  obtain ⟨h3, ⟨a, r, e, ha⟩, r', b, e', hb⟩ := h1
  have hs : ∀ x : Chars, oldContText n.toList l.toList u.toList d.toList x = oldContText n.toList l.toList u.toList d.toList [] ++ x := by
    intro x
    simp [oldContText]
  rw [oldContText_rest, hs]
  refine ⟨⟨?_, ⟨a, _, by rw [e]; rfl, ha⟩, ?_⟩, by simp [h2]⟩
  · intro x hx
    rcases List.mem_append.1 hx with hx | hx
    · exact h3 x hx
    · cases int <;> cases log
      · cases hx
      · exact (by decide : ∀ x ∈ "l".toList, parChar x = true) x hx
      · exact (by decide : ∀ x ∈ "i".toList, parChar x = true) x hx
      · exact (by decide : ∀ x ∈ "il".toList, parChar x = true) x hx
  · cases int <;> cases log
    · refine ⟨r', b, ?_, hb⟩
      rw [← e']; simp
    · exact ⟨_, 'l', rfl, by decide⟩
    · exact ⟨_, 'i', rfl, by decide⟩
    · exact ⟨oldContText n.toList l.toList u.toList d.toList [] ++ ['i'], 'l', by simp, by decide⟩

/-- The numbers of the hyperparameter as they are written: lower and upper bound, and default. -/
theorem buildNum_made {r : NumHP} (h : Made r) (T : PyText) :
    (∃ l u d : Int, r.hp.kind = .int l u ∧ r.hp.default = .int d ∧
      mkUniformInt r.hp.name l u (some (d : Rat)) r.log = .ok (Uniform r) ∧
      buildNum T r = .ok (newLine r.hp.name "integer" (toString l) (toString u) (toString d) (if r.log then "log" else "")) ∧
      buildOldNum T r = .ok (oldLine r.hp.name (toString l) (toString u) (toString d) ("i" ++ (if r.log then "l" else "")))) ∨
    (∃ l u d : Rat, r.hp.kind = .flt l u ∧ r.hp.default = .flt d ∧
      mkUniformFlt r.hp.name l u (some d) r.log = .ok (Uniform r) ∧
      buildNum T r = .ok (newLine r.hp.name "real" (T.strFloat l) (T.strFloat u) (T.strFloat d) (if r.log then "log" else "")) ∧
      buildOldNum T r = .ok (oldLine r.hp.name (T.strFloat l) (T.strFloat u) (T.strFloat d) (if r.log then "l" else ""))) := by
  have ht := C77_to_uniform h
  rcases made_cases h with ⟨l, u, d, _, hk, hd, -⟩ | ⟨l, u, d, _, hk, hd, -⟩
  · left
    refine ⟨l, u, d, hk, hd, ?_, ?_, ?_⟩
    · unfold toUniform at ht
      rw [hk, hd] at ht
      simpa [Uniform] using ht
    · unfold buildNum
      rw [ht]
      simp only [hk, hd, Val.num?, Option.getD_some, trunc_int, PyText.chars, PyText.str]
      cases r.log <;> simp [newLine, String.toList_append]
    · unfold buildOldNum
      rw [ht]
      simp only [hk, hd, Val.num?, Option.getD_some, trunc_int, PyText.chars, PyText.str]
      cases r.log <;> simp [oldLine, String.toList_append]
  · right
    refine ⟨l, u, d, hk, hd, ?_, ?_, ?_⟩
    · unfold toUniform at ht
      rw [hk, hd] at ht
      simpa [Uniform] using ht
    · unfold buildNum
      rw [ht]
      simp only [hk, hd, PyText.chars, PyText.str]
      cases r.log <;> simp [newLine, String.toList_append]
    · unfold buildOldNum
      rw [ht]
      simp only [hk, hd, PyText.chars, PyText.str]
      cases r.log <;> simp [oldLine, String.toList_append]

theorem saysLog_flag (log : Bool) : SaysLog (if log then "log" else "").toList ↔ log = true := by
  cases log
  · simp only [Bool.false_eq_true, if_false, iff_false]
    rintro ⟨ws, t, e, -⟩
    have := congrArg List.length e
    simp at this
  · simp only [if_true, iff_true]
    exact ⟨[], [], rfl, by simp⟩

open Classical in
theorem decide_saysLog (log : Bool) : decide (SaysLog (if log then "log" else "").toList) = log := by
  cases log
  · exact decide_eq_false (fun h => by cases (saysLog_flag false).1 h)
  · exact decide_eq_true ((saysLog_flag true).2 rfl)

/-! ## The round trip -/

/-- **C106.** In the new pcs format, numerical hyperparameters of any distribution and on either scale are written, and reading the
text gives, in the same order, hyperparameters with the same names, types, bounds and defaults, on the same scale. -/
theorem C106_new_round_trip_partial {T : PyText} (hT : NumberTexts T) {rs : List NumHP}
    (hm : ∀ r ∈ rs, Made r ∧ Plain r.hp.name.toList) :
    ∃ text, writeParams (buildNum T) rs = .ok text ∧
      readParams (readAny T) ((fileLines text).map String.toList) = .ok (rs.map (fun r => .num (Uniform r))) := by
  refine params_file (fun r hr => (hm r hr).2) (fun r hr => ?_)
  obtain ⟨h, hn⟩ := hm r hr
  rcases buildNum_made h T with ⟨l, u, d, -, -, h1, h2, -⟩ | ⟨l, u, d, -, -, h1, h2, -⟩
  · obtain ⟨k1, k2⟩ := newLine_ok (log := r.log) (ty := "integer") hn (numberText_int l).plain (numberText_int u).plain
      (numberText_int d).plain (by decide)
    refine ⟨_, h2, k1, k2, ?_⟩
    rw [readAny_int hT hn, decide_saysLog, h1]
    rfl
  · obtain ⟨k1, k2⟩ := newLine_ok (log := r.log) (ty := "real") hn (hT.shape l).plain (hT.shape u).plain (hT.shape d).plain (by decide)
    refine ⟨_, h2, k1, k2, ?_⟩
    rw [readAny_flt hT hn, decide_saysLog, h1]
    rfl

/-- **C106.** The same holds in the old pcs format, if the integers have at most 53 bits. -/
theorem C106_old_round_trip_partial {T : PyText} (hT : NumberTexts T) {rs : List NumHP}
    (hm : ∀ r ∈ rs, Made r ∧ Plain r.hp.name.toList ∧ FloatInts T r.hp) :
    ∃ text, writeParams (buildOldNum T) rs = .ok text ∧
      readParams (readOldAny T) ((fileLines text).map String.toList) = .ok (rs.map (fun r => .num (Uniform r))) := by
  refine params_file (fun r hr => (hm r hr).2.1) (fun r hr => ?_)
  obtain ⟨h, hn, hs⟩ := hm r hr
  rcases buildNum_made h T with ⟨l, u, d, hk, hd, h1, -, h2⟩ | ⟨l, u, d, hk, hd, h1, -, h2⟩
  · obtain ⟨k1, k2⟩ := oldLine_ok (log := r.log) (int := true) hn (numberText_int l).plain (numberText_int u).plain
      (numberText_int d).plain
    refine ⟨_, h2, k1, k2, ?_⟩
    have := readOldAny_line (T := T) hn (numberText_int l) (numberText_int u) (numberText_int d) (hs.1 l u hk).1 (hs.1 l u hk).2
      (hs.2 d hd) (ws := []) (w := "i".toList ++ (if r.log then "l" else "").toList) (rest := []) (by simp)
      (by cases r.log <;> simp [IsIL]) (by simp) (by simp)
    rw [List.nil_append, List.append_nil, ← String.toList_append, String.ofList_toList] at this
    rw [this, if_pos (by simp [String.toList_append])]
    have e : decide ('l' ∈ ("i" ++ (if r.log then "l" else "")).toList) = r.log := by cases r.log <;> decide
    rw [e, h1]
    rfl
  · obtain ⟨k1, k2⟩ := oldLine_ok (log := r.log) (int := false) hn (hT.shape l).plain (hT.shape u).plain (hT.shape d).plain
    rw [show (if false = true then "i" else "") ++ (if r.log then "l" else "") = (if r.log then "l" else "") from by
      cases r.log <;> rfl] at k1 k2
    refine ⟨_, h2, k1, k2, ?_⟩
    have := readOldAny_line (T := T) hn (hT.shape l) (hT.shape u) (hT.shape d) (hT.float l) (hT.float u)
      (hT.float d) (ws := []) (w := (if r.log then "l" else "").toList) (rest := []) (by simp)
      (by cases r.log <;> simp [IsIL]) (by simp) (by simp)
    rw [List.nil_append, List.append_nil, String.ofList_toList] at this
    rw [this, if_neg (by cases r.log <;> decide)]
    have e : decide ('l' ∈ (if r.log then "l" else "").toList) = r.log := by cases r.log <;> decide
    rw [e, h1]
    rfl

/-- **C106**, violated: a normal or beta distribution is neither kept nor refused.  The hyperparameter comes back as a uniform one, in
both formats.  (Weights of categorical hyperparameters are refused, see `C67_weights_rejected`.)  That the distribution survives is false
of the code. -/
theorem C106_distribution_lost {T : PyText} (hT : NumberTexts T) {r : NumHP} (h : Made r) (hn : Plain r.hp.name.toList)
    (hp : r.prior ≠ .uniform) :
    (∃ text r', writeParams (buildNum T) [r] = .ok text ∧ readParams (readAny T) ((fileLines text).map String.toList) = .ok [.num r'] ∧
      r'.hp = r.hp ∧ r'.log = r.log ∧ r'.prior = .uniform ∧ r' ≠ r) ∧
    (FloatInts T r.hp → ∃ text r', writeParams (buildOldNum T) [r] = .ok text ∧
      readParams (readOldAny T) ((fileLines text).map String.toList) = .ok [.num r'] ∧
      r'.hp = r.hp ∧ r'.log = r.log ∧ r'.prior = .uniform ∧ r' ≠ r) := by
  have hne : Uniform r ≠ r := fun e => hp (congrArg NumHP.prior e).symm
  constructor
  · obtain ⟨text, h1, h2⟩ := C106_new_round_trip_partial hT (rs := [r]) (by simpa using ⟨h, hn⟩)
    exact ⟨text, Uniform r, h1, h2, rfl, rfl, rfl, hne⟩
  · intro hs
    obtain ⟨text, h1, h2⟩ := C106_old_round_trip_partial hT (rs := [r]) (by simpa using ⟨h, hn, hs⟩)
    exact ⟨text, Uniform r, h1, h2, rfl, rfl, rfl, hne⟩

/-! ## Reading lines that somebody else wrote -/

open Classical in
/-- **C106.** In the new format, a line `name integer [l, u] [d]...` or `name real [l, u] [d]...` is read as the call of the constructor
with these arguments; the scale is logarithmic exactly if the word `log` follows (possibly behind whitespace).  In particular
a constructor that raises makes reading raise with the same exception. -/
theorem C106_new_line_is_constructor {T : PyText} (hT : NumberTexts T) {n : Name} (hn : Plain n.toList) (rest : String) :
    (∀ l u d : Int, readAny T (newLine n "integer" (toString l) (toString u) (toString d) rest) =
      (mkUniformInt n l u (some (d : Rat)) (decide (SaysLog rest.toList))).map .num) ∧
    (∀ l u d : Rat, readAny T (newLine n "real" (T.strFloat l) (T.strFloat u) (T.strFloat d) rest) =
      (mkUniformFlt n l u (some d) (decide (SaysLog rest.toList))).map .num) :=
  ⟨fun _ _ _ => readAny_int hT hn rest, fun _ _ _ => readAny_flt hT hn rest⟩

theorem mkUniformInt_log {n : Name} {l u : Rat} {d : Option Rat} {log : Bool} {r : NumHP} (h : mkUniformInt n l u d log = .ok r) :
    r.log = log ∧ r.prior = .uniform := by
  unfold mkUniformInt at h
  simp only at h
  split at h
  · cases h
  split at h
  · cases h
  · unfold finishNum at h
    cases hf : finishHP _ with
    | error e => rw [hf] at h; cases h
    | ok x => rw [hf] at h; cases h; exact ⟨rfl, rfl⟩

theorem mkUniformFlt_log {n : Name} {l u : Rat} {d : Option Rat} {log : Bool} {r : NumHP} (h : mkUniformFlt n l u d log = .ok r) :
    r.log = log ∧ r.prior = .uniform := by
  unfold mkUniformFlt at h
  simp only at h
  split at h
  · cases h
  · unfold finishNum at h
    cases hf : finishHP _ with
    | error e => rw [hf] at h; cases h
    | ok x => rw [hf] at h; cases h; exact ⟨rfl, rfl⟩

theorem map_num {x : Except Err NumHP} {r : NumHP} (h : x.map ReadHP.num = .ok (.num r)) : x = .ok r := by
  cases x with
  | error e => cases h
  | ok y => cases h; rfl

/-- **C106.** A line that says `log` with a lower bound that is not positive is refused with `ValueError`, not read on the linear
scale. -/
theorem C106_log_needs_positive {T : PyText} (hT : NumberTexts T) {n : Name} (hn : Plain n.toList) {rest : String}
    (hr : SaysLog rest.toList) :
    (∀ l u d : Int, l ≤ 0 → readAny T (newLine n "integer" (toString l) (toString u) (toString d) rest) = .error .valueError) ∧
    (∀ l u d : Rat, l ≤ 0 → readAny T (newLine n "real" (T.strFloat l) (T.strFloat u) (T.strFloat d) rest) = .error .valueError) := by
  classical
  constructor
  · intro l u d hl
    rw [readAny_int hT hn, decide_eq_true hr]
    unfold mkUniformInt
    have hb : badIntDefault (some (d : Rat)) = false := by
      unfold badIntDefault
      simp [closeToInt_int]
    simp only [hb, Bool.false_eq_true, if_false]
    rw [if_pos]
    · rfl
    · unfold badBounds
      have : ((rint (l : Rat) : Int) : Rat) ≤ 0 := by rw [rint_int]; exact_mod_cast hl
      simp [this]
  · intro l u d hl
    rw [readAny_flt hT hn, decide_eq_true hr]
    unfold mkUniformFlt
    simp only
    rw [if_pos]
    · rfl
    · unfold badBounds
      have : roundPlaces l ≤ 0 := by
        have := roundPlaces_mono hl
        rwa [show roundPlaces 0 = 0 from by decide +kernel] at this
      simp [this]

/-- **C106**, violated: what follows the default and does not begin with `log` is ignored.  A line that ends in `LOG`, `Log` or
`lg` is read without an exception, as one on the linear scale.  That a scale that is not understood is refused is false of the code. -/
theorem C106_unknown_scale_ignored {T : PyText} (hT : NumberTexts T) {n : Name} (hn : Plain n.toList) {rest : String}
    (hr : ¬ SaysLog rest.toList) :
    (∀ l u d : Int, readAny T (newLine n "integer" (toString l) (toString u) (toString d) rest) =
        readAny T (newLine n "integer" (toString l) (toString u) (toString d) "") ∧
      ∀ r, readAny T (newLine n "integer" (toString l) (toString u) (toString d) rest) = .ok (.num r) → r.log = false) ∧
    (∀ l u d : Rat, readAny T (newLine n "real" (T.strFloat l) (T.strFloat u) (T.strFloat d) rest) =
        readAny T (newLine n "real" (T.strFloat l) (T.strFloat u) (T.strFloat d) "") ∧
      ∀ r, readAny T (newLine n "real" (T.strFloat l) (T.strFloat u) (T.strFloat d) rest) = .ok (.num r) → r.log = false) := by
  classical
  have e : ¬ SaysLog "".toList := fun h => by cases (saysLog_flag false).1 h
  constructor
  · intro l u d
    rw [readAny_int hT hn, readAny_int hT hn, decide_eq_false hr, decide_eq_false e]
    exact ⟨rfl, fun r h => (mkUniformInt_log (map_num h)).1⟩
  · intro l u d
    rw [readAny_flt hT hn, readAny_flt hT hn, decide_eq_false hr, decide_eq_false e]
    exact ⟨rfl, fun r h => (mkUniformFlt_log (map_num h)).1⟩

/-- **C106.** In the old format, the run of letters `i` and `l` behind the default (and behind whitespace) tells type and scale: an
integer exactly if there is an `i`, logarithmic exactly if there is an `l`, in any order and any number.  The line is read as the call
of the constructor with the numbers as floats. -/
theorem C106_old_line_is_constructor {T : PyText} {n : Name} {l u d : String} {l' u' d' : Rat} (hn : Plain n.toList)
    (hl : NumberText l.toList) (hu : NumberText u.toList) (hd : NumberText d.toList) (h1 : T.parseFloat l = some l')
    (h2 : T.parseFloat u = some u') (h3 : T.parseFloat d = some d') {ws w rest : List Char} (hws : ∀ c ∈ ws, c ∈ " \n\t\r".toList)
    (hw : ∀ c ∈ w, IsIL c) (hr : ∀ c, rest.head? = some c → ¬ IsIL c)
    (hne : w = [] → ∀ c, rest.head? = some c → c ∉ " \n\t\r".toList) :
    readOldAny T (oldLine n l u d (String.ofList (ws ++ w ++ rest))) =
      (if 'i' ∈ w then mkUniformInt n l' u' (some d') (decide ('l' ∈ w))
        else mkUniformFlt n l' u' (some d') (decide ('l' ∈ w))).map .num :=
  readOldAny_line hn hl hu hd h1 h2 h3 hws hw hr hne

/-- **C106**, violated: in the old format, a `l` that does not follow the other letter directly is ignored: the line `k [1, 10] [3]i l`
gives a hyperparameter on the linear scale.  That all the letters of a line count is false of the code. -/
theorem C106_old_second_letter_ignored {T : PyText} {n : Name} {l u d : Int} (hn : Plain n.toList) (h1 : FloatReadable T l)
    (h2 : FloatReadable T u) (h3 : FloatReadable T d) :
    readOldAny T (oldLine n (toString l) (toString u) (toString d) "i l") =
        readOldAny T (oldLine n (toString l) (toString u) (toString d) "i") ∧
      ∀ r, readOldAny T (oldLine n (toString l) (toString u) (toString d) "i l") = .ok (.num r) → r.log = false := by
  have k1 := readOldAny_line (T := T) hn (numberText_int l) (numberText_int u) (numberText_int d) h1 h2 h3
    (ws := []) (w := ['i']) (rest := [' ', 'l']) (by simp) (by simp [IsIL]) (by simp [IsIL]) (by simp)
  have k2 := readOldAny_line (T := T) hn (numberText_int l) (numberText_int u) (numberText_int d) h1 h2 h3
    (ws := []) (w := ['i']) (rest := []) (by simp) (by simp [IsIL]) (by simp) (by simp)
  refine ⟨k1.trans k2.symm, fun r h => ?_⟩
  have h' := k1.symm.trans h
  rw [if_pos (by decide)] at h'
  exact (mkUniformInt_log (map_num h')).1

/-! ## The linear scale -/

/-- What a parameter line gives, without scale and distribution. -/
def ReadHP.plain : ReadHP → HP
  | .num r => r.hp
  | .other h => h

theorem mkInt_uniform (n : Name) (l u d : Rat) : mkInt n l u (some d) = (mkUniformInt n l u (some d) false).map NumHP.hp := by
  unfold mkInt mkUniformInt badBounds
  simp only [Bool.false_and, Bool.or_false, decide_eq_true_eq]
  split
  · rfl
  by_cases h : rint u ≤ rint l
  · rw [if_pos h, if_pos (by exact_mod_cast h)]; rfl
  · rw [if_neg h, if_neg (by exact_mod_cast h)]
    unfold finishNum
    simp only
    cases finishHP _ <;> rfl

theorem mkFlt_uniform (n : Name) (l u d : Rat) : mkFlt n l u (some d) = (mkUniformFlt n l u (some d) false).map NumHP.hp := by
  unfold mkFlt mkUniformFlt badBounds
  simp only [Bool.false_and, Bool.or_false, decide_eq_true_eq]
  split
  · rfl
  · unfold finishNum
    simp only
    cases finishHP _ <;> rfl

/-- **C106.** On the linear scale the lines are those of the files of C67 and C73, written and read in the same way. -/
theorem C106_linear_as_in_files {T : PyText} :
    (∀ r, Made r → r.prior = .uniform → r.log = false → ∀ weighted,
      buildNum T r = buildParam T weighted r.hp ∧ buildOldNum T r = buildOldParam T weighted r.hp) ∧
    (∀ line, (∀ toks rest, ppContParam line = some (toks, rest) → toks.length ≤ 10) →
      readParam T line = (readAny T line).map ReadHP.plain) ∧
    (∀ line, (∀ toks rest, ppOldCont line = some (toks, rest) → 'l' ∉ toks.getD 9 []) →
      readOldParam T line = (readOldAny T line).map ReadHP.plain) := by
  refine ⟨?_, ?_, ?_⟩
  · intro r h hp hl weighted
    rcases buildNum_made h T with ⟨l, u, d, hk, hd, -, h1, h2⟩ | ⟨l, u, d, hk, hd, -, h1, h2⟩
    · rw [h1, h2, hl]
      unfold buildParam buildOldParam
      simp [hk, hd, newLine, oldLine, String.toList_append, Val.num?, trunc_int, PyText.chars, PyText.str]
    · rw [h1, h2, hl]
      unfold buildParam buildOldParam
      simp [hk, hd, newLine, oldLine, String.toList_append, PyText.chars, PyText.str]
  · intro line hlen
    have hd : ∀ p, readDiscrete line p = match readDiscrete line none with
        | .error e => .error e
        | .ok (some h) => .ok (some h)
        | .ok none => .ok p := by
      intro p
      unfold readDiscrete
      simp only
      cases ppCatParam line with
      | none =>
        split
        · rfl
        · split <;> rfl
      | some x =>
        simp only
        split
        · cases mkCat _ _ _ _ <;> rfl
        · split
          · cases mkOrd _ _ _ <;> rfl
          · rfl
    have hc : readContinuous T line = (readNum T line).map (Option.map NumHP.hp) := by
      unfold readContinuous readNum
      cases hp : ppContParam line with
      | none => rfl
      | some x =>
        obtain ⟨toks, rest⟩ := x
        have hl := hlen toks rest hp
        have e10 : hasSub "log".toList (toks.getD 10 []) = false := by
          rw [List.getD_eq_getElem?_getD, List.getElem?_eq_none (by omega)]; rfl
        have hlt : ¬ toks.length > 10 := by omega
        simp only [e10, if_neg hlt]
        split
        · cases T.readInt (toks.getD 3 []) <;> try rfl
          cases T.readInt (toks.getD 5 []) <;> try rfl
          cases T.readInt (toks.getD 8 []) <;> try rfl
          simp only
          rw [mkInt_uniform]
          cases mkUniformInt _ _ _ _ _ <;> rfl
        · split
          · cases T.readFloat (toks.getD 3 []) <;> try rfl
            cases T.readFloat (toks.getD 5 []) <;> try rfl
            cases T.readFloat (toks.getD 8 []) <;> try rfl
            simp only
            rw [mkFlt_uniform]
            cases mkUniformFlt _ _ _ _ _ <;> rfl
          · rfl
    unfold readParam readAny
    rw [hc]
    cases readNum T line with
    | error e => rfl
    | ok prev =>
      show (match readDiscrete line (prev.map NumHP.hp) with
        | .error e => (.error e : Except Err HP)
        | .ok none => .error .runtimeError
        | .ok (some h) => .ok h) = _
      rw [hd]
      cases readDiscrete line none with
      | error e => rfl
      | ok o => cases o with
        | some h => rfl
        | none => cases prev <;> rfl
  · intro line hlen
    have hd : ∀ p, readOldCat line p = match readOldCat line none with
        | .error e => .error e
        | .ok (some h) => .ok (some h)
        | .ok none => .ok p := by
      intro p
      unfold readOldCat
      cases ppOldCat line with
      | none => rfl
      | some x =>
        simp only
        cases mkCat _ _ _ _ <;> rfl
    have hc : readOldCont T line = (readOldNum T line).map (Option.map NumHP.hp) := by
      unfold readOldCont readOldNum
      cases hp : ppOldCont line with
      | none => rfl
      | some x =>
        obtain ⟨toks, rest⟩ := x
        have hl := hlen toks rest hp
        simp only [decide_eq_false hl]
        cases T.readFloat (toks.getD 2 []) <;> try rfl
        cases T.readFloat (toks.getD 4 []) <;> try rfl
        cases T.readFloat (toks.getD 7 []) <;> try rfl
        simp only
        rw [if_neg hl]
        split
        · rw [mkInt_uniform]
          cases mkUniformInt _ _ _ _ _ <;> rfl
        · rw [mkFlt_uniform]
          cases mkUniformFlt _ _ _ _ _ <;> rfl
    unfold readOldParam readOldAny
    rw [hc]
    cases readOldNum T line with
    | error e => rfl
    | ok prev =>
      show (match readOldCat line (prev.map NumHP.hp) with
        | .error e => (.error e : Except Err HP)
        | .ok none => .error .runtimeError
        | .ok (some h) => .ok h) = _
      rw [hd]
      cases readOldCat line none with
      | error e => rfl
      | ok o => cases o with
        | some h => rfl
        | none => cases prev <;> rfl

/-! ## Examples -/

namespace ExPs

/-- `Integer("batch", (1, 1024), default=32, log=True)` -/
def batch : NumHP := { hp := { name := "batch", kind := .int 1 1024, default := .int 32 }, prior := .uniform, log := true }

/-- `Float("lr", (1/1024, 1), distribution=Normal(1/2, 1/4), default=1/8, log=True)` -/
def lr : NumHP := { hp := { name := "lr", kind := .flt (1 / 1024) 1, default := .flt (1 / 8) }, prior := .normal (1 / 2) (1 / 4), log := true }

/-- `Integer("depth", (1, 9), distribution=Beta(2, 3), default=4)` -/
def depth : NumHP := { hp := { name := "depth", kind := .int 1 9, default := .int 4 }, prior := .beta 2 3, log := false }

theorem madeBatch : Made batch := .inl ⟨"batch", some (1, 1024), .uniform, some 32, true, by decide +kernel⟩
theorem madeLr : Made lr := .inr ⟨"lr", (1 / 1024, 1), .normal (1 / 2) (1 / 4), some (1 / 8), true, by decide +kernel⟩
theorem madeDepth : Made depth := .inl ⟨"depth", some (1, 9), .beta 2 3, some 4, false, by decide +kernel⟩

theorem plain (t : String) (h : t.toList ≠ [] ∧ t.toList.all Char.isAlphanum = true) : Plain t.toList :=
  ⟨h.1, fun c hc => .inl (List.all_eq_true.1 h.2 c hc)⟩

theorem small (n : Int) (h : '.' ∉ (toString n).toList) : FloatReadable ExQ.text n := ExQ.float_text n h

/-- The hypotheses of the round trips are met by hyperparameters on both scales and with three distributions. -/
example : (∀ r ∈ [batch, lr, depth], Made r ∧ Plain r.hp.name.toList ∧ FloatInts ExQ.text r.hp) := by
  intro r hr
  simp only [List.mem_cons, List.not_mem_nil, or_false] at hr
  rcases hr with rfl | rfl | rfl
  · refine ⟨madeBatch, plain "batch" (by decide), ?_, ?_⟩
    · intro l u e; cases e
      exact ⟨small 1 (by decide), small 1024 (by decide)⟩
    · intro m e; cases e
      exact small 32 (by decide)
  · refine ⟨madeLr, plain "lr" (by decide), ?_, ?_⟩
    · intro l u e; cases e
    · intro m e; cases e
  · refine ⟨madeDepth, plain "depth" (by decide), ?_, ?_⟩
    · intro l u e; cases e
      exact ⟨small 1 (by decide), small 9 (by decide)⟩
    · intro m e; cases e
      exact small 4 (by decide)

/-- The line of `batch`, and those that are read differently. -/
example : buildNum ExQ.text batch = .ok "batch integer [1, 1024] [32]log".toList ∧
    readAny ExQ.text "batch integer [1, 1024] [32]log".toList = .ok (.num batch) ∧
    readAny ExQ.text "batch integer [1, 1024] [32] LOG".toList = .ok (.num { batch with log := false }) := by
  have hn : Plain "batch".toList := plain "batch" (by decide)
  have h1 : mkUniformInt "batch" ((1 : Int) : Rat) ((1024 : Int) : Rat) (some ((32 : Int) : Rat)) true = .ok batch := by decide +kernel
  have h2 : mkUniformInt "batch" ((1 : Int) : Rat) ((1024 : Int) : Rat) (some ((32 : Int) : Rat)) false =
      .ok { batch with log := false } := by decide +kernel
  classical
  refine ⟨?_, ?_, ?_⟩
  · rcases buildNum_made madeBatch ExQ.text with ⟨l, u, d, hk, hd, -, h, -⟩ | ⟨l, u, d, hk, _⟩
    · cases hk
      cases hd
      exact h
    · cases hk
  · have := readAny_int ExQ.textQ (n := "batch") (l := 1) (u := 1024) (d := 32) hn "log"
    rw [decide_eq_true (by exact ⟨[], [], rfl, by simp⟩), h1] at this
    exact this
  · have := readAny_int ExQ.textQ (n := "batch") (l := 1) (u := 1024) (d := 32) hn " LOG"
    rw [decide_eq_false (by
      rintro ⟨ws, t, e, hw⟩
      have hm : 'l' ∈ " LOG".toList := by rw [e]; simp
      exact absurd hm (by decide)), h2] at this
    exact this

/-- The hypotheses of `C106_distribution_lost` are met. -/
example : Made lr ∧ Plain lr.hp.name.toList ∧ lr.prior ≠ .uniform := ⟨madeLr, plain "lr" (by decide), by decide⟩

end ExPs

/-! ## The theorems applied to a file with three hyperparameters -/

namespace ExPs

theorem floatInts : ∀ r ∈ [batch, lr, depth], Made r ∧ Plain r.hp.name.toList ∧ FloatInts ExQ.text r.hp := by
  intro r hr
  simp only [List.mem_cons, List.not_mem_nil, or_false] at hr
  rcases hr with rfl | rfl | rfl
  · refine ⟨madeBatch, plain "batch" (by decide), ?_, ?_⟩
    · intro l u e; cases e
      exact ⟨small 1 (by decide), small 1024 (by decide)⟩
    · intro m e; cases e
      exact small 32 (by decide)
  · refine ⟨madeLr, plain "lr" (by decide), ?_, ?_⟩
    · intro l u e; cases e
    · intro m e; cases e
  · refine ⟨madeDepth, plain "depth" (by decide), ?_, ?_⟩
    · intro l u e; cases e
      exact ⟨small 1 (by decide), small 9 (by decide)⟩
    · intro m e; cases e
      exact small 4 (by decide)

example := C106_new_round_trip_partial ExQ.textQ (rs := [batch, lr, depth]) (fun r hr => ⟨(floatInts r hr).1, (floatInts r hr).2.1⟩)
example := C106_old_round_trip_partial ExQ.textQ (rs := [batch, lr, depth]) floatInts
example := C106_distribution_lost ExQ.textQ madeLr (plain "lr" (by decide)) (by decide)
example := C106_new_line_is_constructor ExQ.textQ (plain "batch" (by decide)) "log"
example := C106_log_needs_positive ExQ.textQ (plain "batch" (by decide)) (rest := " log") ⟨[' '], [], by decide, by decide⟩

/-- The word `LOG` in capitals is no scale. -/
example := C106_unknown_scale_ignored ExQ.textQ (plain "batch" (by decide)) (rest := "LOG") (by
  rintro ⟨ws, t, e, h⟩
  cases ws with
  | nil => simp at e
  | cons c cs =>
    have : c = 'L' := by
      simp at e
      exact e.1.symm
    subst this
    exact absurd (h 'L' (by simp)) (by decide))

/-- The line `batch [1, 1024] [32]il` of the old format. -/
example := C106_old_line_is_constructor (T := ExQ.text) (n := "batch") (l := toString (1 : Int)) (u := toString (1024 : Int))
  (d := toString (32 : Int)) (plain "batch" (by decide)) (numberText_int 1) (numberText_int 1024) (numberText_int 32)
  (small 1 (by decide)) (small 1024 (by decide)) (small 32 (by decide)) (ws := []) (w := ['i', 'l']) (rest := [])
  (by decide) (by simp [IsIL]) (by simp) (by simp)

example := C106_old_second_letter_ignored (T := ExQ.text) (n := "batch") (l := 1) (u := 1024) (d := 32) (plain "batch" (by decide))
  (small 1 (by decide)) (small 1024 (by decide)) (small 32 (by decide))

end ExPs

end Verif
