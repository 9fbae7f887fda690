import Verif.Model.Unchecked
import Verif.Lemmas.Serial

/-!
# C118: conditions that are made without checking the value

With `check_condition_legality=False` a condition can be about a value that the parent never takes.
-/

set_option autoImplicit false

namespace Verif.Unchecked

/-- What the operators say about numbers. -/
def Says : BOp → Rat → Rat → Prop
  | .eq, a, b => a = b
  | .ne, a, b => a ≠ b
  | .lt, a, b => a < b
  | .gt, a, b => b < a

variable {parse : String → Option Rat} {op : BOp} {child parent : HP} {value : Val}

/-- The parent is an integer or a float range. -/
def Numeric : Kind → Prop
  | .int _ _ => True
  | .flt _ _ => True
  | _ => False

/-- The parent is a list of choices. -/
def Listed : Kind → Prop
  | .cat _ => True
  | .ord _ => True
  | _ => False

theorem toVecAny_of_some {k : Kind} {x : Rat} (h : k.toVec value = some x) (hv : k.legalValue value = true) :
    toVecAny parse k value = .ok x := by
  cases k with
  | cat cs =>
    simp only [Kind.toVec, Option.map_eq_some_iff] at h
    obtain ⟨i, hi, rfl⟩ := h
    simp [toVecAny, seqVec, hi]
  | ord cs =>
    simp only [Kind.toVec, Option.map_eq_some_iff] at h
    obtain ⟨i, hi, rfl⟩ := h
    simp [toVecAny, seqVec, hi]
  | const c => simpa [toVecAny, Kind.toVec] using h
  | int l u => cases value <;> simp_all [toVecAny, numVec, Kind.toVec, Val.num?]
  | flt l u => cases value <;> simp_all [toVecAny, numVec, Kind.toVec, Val.num?]

theorem toVec_of_legal {k : Kind} (hv : k.legalValue value = true) : ∃ x, k.toVec value = some x := by
  cases k with
  | cat cs => obtain ⟨i, hi⟩ := seqIndex_isSome hv; exact ⟨i, by simp [Kind.toVec, hi]⟩
  | ord cs => obtain ⟨i, hi⟩ := seqIndex_isSome hv; exact ⟨i, by simp [Kind.toVec, hi]⟩
  | const c => exact ⟨_, rfl⟩
  | int l u => cases value <;> simp_all [Kind.legalValue, Kind.toVec, Val.num?]
  | flt l u => cases value <;> simp_all [Kind.legalValue, Kind.toVec, Val.num?]

/-- With the check the constructor is the one of the other properties. -/
theorem C118_default : make parse true op child parent value = mkBin op child parent value := by
  unfold make mkBin
  by_cases hv : parent.kind.legalValue value = true
  · obtain ⟨x, hx⟩ := toVec_of_legal hv
    rw [toVecAny_of_some hx hv, hx]
    simp [hv]
  · simp [hv]

/-- For a legal value the check makes no difference. -/
theorem C118_legal_value (hv : parent.kind.legalValue value = true) :
    make parse false op child parent value = mkBin op child parent value := by
  rw [← C118_default (parse := parse)]
  simp [make, hv]

/-- About a list of choices no condition can be made for a value that is not in the list, with or without the check. -/
theorem C118_choice_refused (hk : Listed parent.kind) (hv : parent.kind.legalValue value = false) {check : Bool} :
    ∃ e, make parse check op child parent value = .error e := by
  have : toVecAny parse parent.kind value = .error .keyError := by
    have hn : ∀ cs : List Val, value.pyIn cs = false → seqVec cs value = .error .keyError := by
      intro cs h
      unfold seqVec
      cases hs : seqIndex cs value with
      | none => rfl
      | some i =>
        have := seqIndex_some hs
        obtain ⟨w, hw, he⟩ := this
        have : value.pyIn cs = true := List.any_eq_true.2 ⟨w, List.mem_of_getElem? hw, he⟩
        rw [h] at this
        cases this
    cases h : parent.kind with
    | cat cs => rw [h] at hv; exact hn cs hv
    | ord cs => rw [h] at hv; exact hn cs hv
    | const c => rw [h] at hk; exact hk.elim
    | int l u => rw [h] at hk; exact hk.elim
    | flt l u => rw [h] at hk; exact hk.elim
  unfold make
  rw [this]
  split
  · exact ⟨_, rfl⟩
  · split
    · exact ⟨_, rfl⟩
    · split <;> exact ⟨_, rfl⟩

theorem make_ok {check : Bool} {l : Lit} (h : make parse check op child parent value = .ok l) :
    ∃ x, toVecAny parse parent.kind value = .ok x ∧ l = ⟨child, parent, .bin op value x⟩ := by
  unfold make at h
  split at h
  · cases h
  · split at h
    · cases h
    · split at h
      · cases h
      · split at h
        · cases h
        · rename_i x hx
          cases h
          exact ⟨x, hx, rfl⟩

theorem numeric_bounds (hw : parent.wf = true) (hk : Numeric parent.kind) : ∃ lo hi : Rat, lo < hi ∧
    (∀ v : Val, parent.kind.toVec v = v.num?.map (fun q => normalizeQ q lo hi)) ∧ (∀ v : Val, toVecAny parse parent.kind v = numVec parse lo hi v) := by
  cases h : parent.kind with
  | int l u => exact ⟨l, u, by exact_mod_cast HP.wf_int hw h, fun v => rfl, fun v => rfl⟩
  | flt l u => exact ⟨l, u, HP.wf_flt hw h, fun v => rfl, fun v => rfl⟩
  | cat cs => rw [h] at hk; exact hk.elim
  | ord cs => rw [h] at hk; exact hk.elim
  | const c => rw [h] at hk; exact hk.elim

theorem not_ordinal (hk : Numeric parent.kind) : parent.kind.isOrdinal = false := by
  cases h : parent.kind <;> rw [h] at hk <;> first | rfl | exact hk.elim

theorem onVal_iff {v w : Val} {p q : Rat} (hv : v.num? = some p) (hw : w.num? = some q) :
    ∃ b, op.onVal v w = .ok b ∧ (b = true ↔ Says op p q) := by
  cases op with
  | eq => exact ⟨_, rfl, num_pyEq hv hw⟩
  | ne =>
    refine ⟨_, rfl, ?_⟩
    have := num_pyEq hv hw
    simp only [Says, Bool.not_eq_true', ne_eq, ← this, Bool.not_eq_true]
  | lt => exact ⟨decide (p < q), by simp [BOp.onVal, num_lt hv hw], by simp [Says]⟩
  | gt => exact ⟨decide (q < p), by simp [BOp.onVal, num_lt hw hv], by simp [Says]⟩

/-- **C118.** A condition about a number, legal or not, on a range of integers or floats: for every value of the parent, on vectors and on
values, it holds exactly if the two numbers compare as the operator says. -/
theorem C118_meaning {check : Bool} (hw : parent.wf = true) (hk : Numeric parent.kind) {q : Rat} (hq : value.num? = some q) {l : Lit}
    (hl : make parse check op child parent value = .ok l) {v : Val} {p : Rat} (hp : v.num? = some p) :
    (∃ x, parent.kind.toVec v = some x ∧ (l.test.onEntry (some x) = true ↔ Says op p q)) ∧
    ∀ d : Dict, d.get parent.name = .ok (some v) → ∃ b, l.satVal d = .ok b ∧ (b = true ↔ Says op p q) := by
  obtain ⟨x, hx, rfl⟩ := make_ok hl
  obtain ⟨lo, hi, hlt, e1, e2⟩ := numeric_bounds (parse := parse) hw hk
  rw [e2] at hx
  have hx : x = normalizeQ q lo hi := by
    cases value with
    | str t => simp [Val.num?] at hq
    | int n => simp only [Val.num?, Option.some.injEq] at hq; subst hq; cases hx; rfl
    | flt r => simp only [Val.num?, Option.some.injEq] at hq; subst hq; cases hx; rfl
  subst hx
  refine ⟨⟨normalizeQ p lo hi, by rw [e1, hp]; rfl, ?_⟩, fun d hd => ?_⟩
  · cases op with
    | eq => simp [Test.onEntry, Says, normalize_inj hlt]
    | ne => simp [Test.onEntry, Says, normalize_inj hlt]
    | lt => simp [Test.onEntry, Says, normalize_lt hlt]
    | gt => simp [Test.onEntry, Says, normalize_lt hlt]
  · obtain ⟨b, hb, hi⟩ := onVal_iff (op := op) hp hq
    refine ⟨b, ?_, hi⟩
    simp [Lit.satVal, hd, bind, Except.bind, not_ordinal hk, hb]

theorem legal_num {k : Kind} (hk : Numeric k) {v : Val} (hv : k.legalValue v = true) : ∃ p, v.num? = some p := by
  cases k with
  | cat cs => exact hk.elim
  | ord cs => exact hk.elim
  | const c => exact hk.elim
  | int l u =>
    cases v with
    | str t => simp [Kind.legalValue, Val.num?] at hv
    | int n => exact ⟨_, rfl⟩
    | flt r => exact ⟨_, rfl⟩
  | flt l u =>
    cases v with
    | str t => simp [Kind.legalValue, Val.num?] at hv
    | int n => exact ⟨_, rfl⟩
    | flt r => exact ⟨_, rfl⟩

theorem legal_of_num {k : Kind} (hk : Numeric k) {v w : Val} (h : v.num? = w.num?) : k.legalValue v = k.legalValue w := by
  cases k with
  | cat cs => exact hk.elim
  | ord cs => exact hk.elim
  | const c => exact hk.elim
  | int l u => simp only [Kind.legalValue, h]
  | flt l u => simp only [Kind.legalValue, h]

/-- Equality with an illegal number never holds, and being different from it always does, whatever legal value the parent has. -/
theorem C118_illegal_number {check : Bool} (hw : parent.wf = true) (hk : Numeric parent.kind) {q : Rat} (hq : value.num? = some q)
    (hv : parent.kind.legalValue value = false) {l : Lit} (hl : make parse check op child parent value = .ok l) {v : Val}
    (hlv : parent.kind.legalValue v = true) :
    (op = .eq → (∃ x, parent.kind.toVec v = some x ∧ l.test.onEntry (some x) = false) ∧
      ∀ d : Dict, d.get parent.name = .ok (some v) → l.satVal d = .ok false) ∧
    (op = .ne → (∃ x, parent.kind.toVec v = some x ∧ l.test.onEntry (some x) = true) ∧
      ∀ d : Dict, d.get parent.name = .ok (some v) → l.satVal d = .ok true) := by
  obtain ⟨p, hp⟩ := legal_num hk hlv
  have hne : p ≠ q := by
    rintro rfl
    rw [legal_of_num hk (hp.trans hq.symm), hv] at hlv
    cases hlv
  obtain ⟨⟨x, hx, h1⟩, h2⟩ := C118_meaning hw hk hq hl hp
  refine ⟨?_, ?_⟩
  · rintro rfl
    refine ⟨⟨x, hx, Bool.eq_false_iff.2 fun h => hne (h1.1 h)⟩, fun d hd => ?_⟩
    obtain ⟨b, hb, hi⟩ := h2 d hd
    rw [hb, Bool.eq_false_iff.2 fun h => hne (hi.1 h)]
  · rintro rfl
    refine ⟨⟨x, hx, h1.2 hne⟩, fun d hd => ?_⟩
    obtain ⟨b, hb, hi⟩ := h2 d hd
    rw [hb, hi.2 hne]

theorem rabs_pos {x : Rat} (h : 0 ≤ x) : rabs x = x := by simp [rabs, not_lt.2 h]

/-- A number above the range that is not legal is above all legal values.  (A legal value may be above the range by the tolerance.) -/
theorem legal_lt_of_above {k : Kind} {lo hi p q : Rat} {v w : Val} (hk : k = .flt lo hi ∨ ∃ l u : Int, k = .int l u ∧ l ≤ u ∧ (hi = u)) (hp : v.num? = some p)
    (hq : w.num? = some q) (hlv : k.legalValue v = true) (hlw : k.legalValue w = false) (h : hi < q) : p < q := by
  by_contra hn
  have hn := not_lt.1 hn
  rcases hk with rfl | ⟨l, u, rfl, hlu, rfl⟩
  · simp only [Kind.legalValue, hp, Bool.and_eq_true, decide_eq_true_eq] at hlv
    linarith [hlv.2]
  · simp only [Kind.legalValue, hp, hq, Bool.and_eq_true, decide_eq_true_eq] at hlv hlw
    have r1 : rint q ≤ rint p := rint_mono hn
    have r2 : u ≤ rint q := by
      have := rint_mono h.le
      rwa [rint_int] at this
    have e1 : rint q = u := by omega
    have e2 : rint p = u := by omega
    have hc := hlv.2
    have : closeToInt q = true := by
      simp only [closeToInt, e1, e2, decide_eq_true_eq] at hc ⊢
      rw [rabs_pos (by linarith)] at hc ⊢
      linarith
    simp [e1, this, hlu] at hlw

/-- A number above the range: "less than" always holds, "greater than" never. -/
theorem C118_above {check : Bool} (hw : parent.wf = true) {hi q : Rat} (hk : (∃ lo, parent.kind = .flt lo hi) ∨ ∃ l u : Int, parent.kind = .int l u ∧ hi = u)
    (hq : value.num? = some q) (hv : parent.kind.legalValue value = false) (ha : hi < q) {l : Lit}
    (hl : make parse check op child parent value = .ok l) {v : Val} (hlv : parent.kind.legalValue v = true) :
    ∃ x, parent.kind.toVec v = some x ∧ (op = .lt → l.test.onEntry (some x) = true) ∧ (op = .gt → l.test.onEntry (some x) = false) := by
  have hn : Numeric parent.kind := by
    rcases hk with ⟨lo, e⟩ | ⟨l, u, e, _⟩ <;> rw [e] <;> trivial
  obtain ⟨p, hp⟩ := legal_num hn hlv
  have hlt : p < q := by
    rcases hk with ⟨lo, e⟩ | ⟨l, u, e, rfl⟩
    · exact legal_lt_of_above (.inl e) hp hq hlv hv ha
    · exact legal_lt_of_above (lo := 0) (.inr ⟨l, u, e, by exact_mod_cast (HP.wf_int hw e).le, rfl⟩) hp hq hlv hv ha
  obtain ⟨⟨x, hx, h1⟩, _⟩ := C118_meaning hw hn hq hl hp
  refine ⟨x, hx, ?_, ?_⟩
  · rintro rfl
    exact h1.2 hlt
  · rintro rfl
    exact Bool.eq_false_iff.2 fun h => absurd (h1.1 h) (not_lt.2 hlt.le)

/-- On a constant, equality with any other value never holds, and being different from it always does. -/
theorem C118_constant {c : Val} {check : Bool} (hk : parent.kind = .const c) (hv : value.pyEq c = false) {l : Lit}
    (hl : make parse check op child parent value = .ok l) :
    (op = .eq → l.test.onEntry (some 1) = false ∧ ∀ d : Dict, d.get parent.name = .ok (some c) → l.satVal d = .ok false) ∧
    (op = .ne → l.test.onEntry (some 1) = true ∧ ∀ d : Dict, d.get parent.name = .ok (some c) → l.satVal d = .ok true) := by
  obtain ⟨x, hx, rfl⟩ := make_ok hl
  rw [hk] at hx
  simp only [toVecAny, hv, Bool.false_eq_true, if_false, Except.ok.injEq] at hx
  subst hx
  have hc : c.pyEq value = false := by
    cases h : c.pyEq value with
    | false => rfl
    | true => rw [Val.pyEq_symm h] at hv; cases hv
  refine ⟨?_, ?_⟩
  · rintro rfl
    refine ⟨by simp [Test.onEntry], fun d hd => ?_⟩
    simp [Lit.satVal, hd, bind, Except.bind, hk, Kind.isOrdinal, BOp.onVal, hc]
  · rintro rfl
    refine ⟨by simp [Test.onEntry], fun d hd => ?_⟩
    simp [Lit.satVal, hd, bind, Except.bind, hk, Kind.isOrdinal, BOp.onVal, hc]

/-- **C118 is false of the code** for texts: on the float range from 0 to 1 a text that reads as a number `q` is accepted without the check.
On vectors the condition is then about `q`, on values it never holds. -/
theorem C118_text {t : String} {q : Rat} (hk : parent.kind = .flt 0 1) (hne : child.pyEq parent = false) (ht : parse t = some q) :
    ∃ l, make parse false .eq child parent (.str t) = .ok l ∧ l.test.onEntry (some q) = true ∧
      ∀ (d : Dict) (r : Rat), d.get parent.name = .ok (some (.flt r)) → l.satVal d = .ok false := by
  refine ⟨⟨child, parent, .bin .eq (.str t) q⟩, ?_, by simp [Test.onEntry], fun d r hd => ?_⟩
  · simp [make, hne, hk, toVecAny, numVec, ht]
  · simp [Lit.satVal, hd, bind, Except.bind, hk, Kind.isOrdinal, BOp.onVal, Val.pyEq]

/-- On every other range a text is refused, also without the check. -/
theorem C118_text_refused {t : String} {check : Bool} (hk : (∃ l u : Rat, parent.kind = .flt l u ∧ ¬ (l = 0 ∧ u = 1)) ∨
    ∃ l u : Int, parent.kind = .int l u ∧ ¬ (l = 0 ∧ u = 1)) : ∃ e, make parse check op child parent (.str t) = .error e := by
  have : toVecAny parse parent.kind (.str t) = .error .typeError := by
    rcases hk with ⟨l, u, e, hn⟩ | ⟨l, u, e, hn⟩
    · rw [e]; simp only [toVecAny, numVec, if_neg hn]
    · rw [e]
      have : ¬ ((l : Rat) = 0 ∧ (u : Rat) = 1) := by rintro ⟨h1, h2⟩; exact hn ⟨by exact_mod_cast h1, by exact_mod_cast h2⟩
      simp only [toVecAny, numVec, if_neg this]
  unfold make
  rw [this]
  split
  · exact ⟨_, rfl⟩
  · split
    · exact ⟨_, rfl⟩
    · split <;> exact ⟨_, rfl⟩

/-- **C118 is false of the code** for copies: a condition about an illegal value cannot be copied, so a space that has it cannot be added to
another one. -/
theorem C118_copy_raises (hv : parent.kind.legalValue value = false) {l : Lit}
    (hl : make parse false op child parent value = .ok l) : copyLit parse l = .error .valueError := by
  obtain ⟨x, _, rfl⟩ := make_ok hl
  show make parse true op child parent value = _
  unfold make
  split
  · rfl
  · split
    · rfl
    · simp [hv]

/-- All other conditions are copied as they are. -/
theorem C118_copy_legal (hv : parent.kind.legalValue value = true) {check : Bool} {l : Lit}
    (hl : make parse check op child parent value = .ok l) : copyLit parse l = .ok l := by
  have e : make parse check op child parent value = make parse true op child parent value := by simp [make, hv]
  rw [e] at hl
  obtain ⟨x, _, rfl⟩ := make_ok hl
  exact hl

/-- **C118 is false of the code** for files: the dictionary of a condition about an illegal value is refused by every space that has the same
hyperparameters. -/
theorem C118_not_read_back (hv : parent.kind.legalValue value = false) {l : Lit}
    (hl : make parse false op child parent value = .ok l) {s : Space} (hc : s.getHP child.name = .ok child)
    (hp : s.getHP parent.name = .ok parent) : decCond s (encCond (.lit l)) = .error .valueError := by
  have h0 : mkBin op child parent value = .error .valueError := by
    unfold mkBin
    split
    · rfl
    · split
      · rfl
      · simp [hv]
  obtain ⟨x, _, rfl⟩ := make_ok hl
  have hb : decBin s op [("child", .str child.name), ("parent", .str parent.name), ("value", .val value)] = .error .valueError := by
    simp [decBin, Space.getField, Fields.get, Json.str, List.lookup, hc, hp, asVal, h0, bind, Except.bind]
  cases op <;> simpa [encCond, encLit, BOp.tag, decCond, popType, Fields.get, Fields.pop, Json.str, List.lookup] using hb

namespace ExUn

/-- An integer `x` from 0 to 9, and a child. -/
def x : HP := ⟨"x", .int 0 9, .int 0⟩
def y : HP := ⟨"y", .int 0 9, .int 0⟩
def u : HP := ⟨"u", .flt 0 1, .flt 0⟩
def k : HP := ⟨"k", .cat [.str "a", .str "b"], .str "a"⟩
/-- `y | x < 20`. -/
def big : Lit := ⟨y, x, .bin .lt (.int 20) (20 / 9)⟩
def noText : String → Option Rat := fun _ => none
def half : String → Option Rat := fun t => if t = "0.5" then some (1 / 2) else none

theorem made : make noText false .lt y x (.int 20) = .ok big := by decide +kernel
theorem madeEq : make noText false .eq y x (.int 20) = .ok ⟨y, x, .bin .eq (.int 20) (20 / 9)⟩ := by decide +kernel
theorem refused : mkBin .lt y x (.int 20) = .error .valueError := by decide +kernel
theorem illegal : x.kind.legalValue (.int 20) = false := by decide +kernel

def sp : Space := (({} : Space).add [x, y] [.lit big] []).1

/-- The space takes the condition; the child is always active; but it cannot be copied, and the space cannot be read from what it writes. -/
example : (({} : Space).add [x, y] [.lit big] []).2 = none ∧
    (match fromDict (sp.toDict (fun _ => none) "1") with
      | .error e => decide (e = .valueError)
      | .ok _ => false) = true := ⟨by decide +kernel, by decide +kernel⟩

example : ∃ e, x.kind.toVec (.int 3) = some e ∧ (BOp.lt = .lt → big.test.onEntry (some e) = true) ∧ (BOp.lt = .gt → big.test.onEntry (some e) = false) :=
  C118_above (hi := ((9 : Int) : Rat)) (by decide +kernel) (.inr ⟨0, 9, rfl, rfl⟩) (q := 20) rfl illegal (by norm_num) made (by decide +kernel)

example := C118_meaning (parent := x) (value := .int 20) (q := 20) (p := 3) (v := .int 3) (by decide +kernel) trivial rfl made rfl
example := (C118_illegal_number (parent := x) (value := .int 20) (q := 20) (v := .int 3) (by decide +kernel) trivial rfl illegal madeEq (by decide +kernel)).1 rfl
example : copyLit noText big = .error .valueError := C118_copy_raises illegal made
example : decCond sp (encCond (.lit big)) = .error .valueError :=
  C118_not_read_back illegal made (by decide +kernel) (by decide +kernel)
example : ∃ e, make noText false .eq y k (.str "c") = .error e := C118_choice_refused (parent := k) trivial (by decide +kernel)
example : ∃ l, make half false .eq y u (.str "0.5") = .ok l ∧ l.test.onEntry (some (1 / 2)) = true ∧
    ∀ (d : Dict) (r : Rat), d.get "u" = .ok (some (.flt r)) → l.satVal d = .ok false :=
  C118_text rfl (by decide +kernel) (by decide +kernel)
example : ∃ e, make half false .eq y x (.str "0.5") = .error e := C118_text_refused (.inr ⟨0, 9, rfl, by decide⟩)
example := (C118_constant (parse := noText) (parent := ⟨"c", .const (.int 1), .int 1⟩) (child := y) (value := .int 2) (check := false)
  rfl (by decide +kernel) (l := ⟨y, ⟨"c", .const (.int 1), .int 1⟩, .bin .ne (.int 2) 0⟩) (op := .ne) (by decide +kernel)).2 rfl

end ExUn

end Verif.Unchecked
