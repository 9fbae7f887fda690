import Verif.Model.Ordinal
import Verif.Model.Forb
import Verif.Spec.Ordinal
import Verif.Props.Neighbors
import Verif.Props.Construct

/-!
# C92: the order of ordinal hyperparameters
-/

set_option autoImplicit false

namespace Verif

theorem tupleIndex_eq {seq : List Val} {v : Val} {i : Nat} (h : seqIndex seq v = some i) : tupleIndex seq v = .ok i := by
  unfold tupleIndex
  rw [show seq.findIdx? (fun x => x.pyEq v) = some i from h]

theorem tupleIndex_none {seq : List Val} {v : Val} (h : v.pyIn seq = false) : tupleIndex seq v = .error .valueError := by
  have : seqIndex seq v = none := by
    cases hs : seqIndex seq v with
    | none => rfl
    | some i =>
      obtain ⟨c, h1, h2⟩ := seqIndex_some hs
      rw [pyIn_iff.2 ⟨c, List.mem_of_getElem? h1, h2⟩] at h
      cases h
  unfold tupleIndex
  rw [show seq.findIdx? (fun x => x.pyEq v) = none from this]

theorem seqIndex_of_eq {seq : List Val} (hd : distinctVals seq = true) {i : Nat} {c v : Val} (h : seq[i]? = some c)
    (e : c.pyEq v = true) : seqIndex seq v = some i := by
  have := seqIndex_getElem hd h
  unfold seqIndex at this ⊢
  simpa only [Val.pyEq_congr_right e] using this

theorem before_iff {seq : List Val} (hd : distinctVals seq = true) {a b : Val} {i j : Nat} (ha : seqIndex seq a = some i)
    (hb : seqIndex seq b = some j) : Before seq a b ↔ i < j := by
  constructor
  · rintro ⟨l, m, r, x, y, rfl, ex, ey⟩
    have h1 : (l ++ x :: m ++ y :: r)[l.length]? = some x := by
      rw [List.append_assoc, List.getElem?_append_right (le_refl _)]; simp
    have h2 : (l ++ x :: m ++ y :: r)[(l ++ x :: m).length]? = some y := by
      rw [List.getElem?_append_right (le_refl _)]; simp
    rw [seqIndex_of_eq hd h1 ex] at ha
    rw [seqIndex_of_eq hd h2 ey] at hb
    cases ha
    cases hb
    simp
  · intro hij
    obtain ⟨x, h1, h2⟩ := seqIndex_some ha
    obtain ⟨y, h3, h4⟩ := seqIndex_some hb
    obtain ⟨hi, rfl⟩ := List.getElem?_eq_some_iff.1 h1
    obtain ⟨hj, rfl⟩ := List.getElem?_eq_some_iff.1 h3
    refine ⟨seq.take i, (seq.take j).drop (i + 1), seq.drop (j + 1), seq[i], seq[j], ?_, h2, h4⟩
    have e1 : seq.take i ++ seq[i] :: (seq.take j).drop (i + 1) = seq.take j := by
      have hlt : i < (seq.take j).length := by rw [List.length_take]; omega
      have h5 : (seq.take j)[i] = seq[i] := List.getElem_take ..
      rw [← h5, ← List.drop_eq_getElem_cons hlt]
      have h6 : seq.take i = (seq.take j).take i := by rw [List.take_take, min_eq_left hij.le]
      rw [h6, List.take_append_drop]
    rw [e1, ← List.drop_eq_getElem_cons hj, List.take_append_drop]

/-- **C92**: `check_order` says whether the first value is written before the second one in the sequence, for all values of the
sequence; for other values it raises `ValueError`. -/
theorem C92_check_order {n : Name} {seq : List Val} {d : Option Val} {h : HP} (hb : mkOrd n seq d = .ok h) (a b : Val) :
    (a.pyIn seq = true → b.pyIn seq = true → ∃ r, checkOrder seq a b = .ok r ∧ (r = true ↔ Before seq a b)) ∧
    (a.pyIn seq = false ∨ b.pyIn seq = false → checkOrder seq a b = .error .valueError) := by
  have hd := (C48_ordinal.2.1 ⟨h, hb⟩).1
  constructor
  · intro ha hb'
    obtain ⟨i, hi⟩ := seqIndex_isSome ha
    obtain ⟨j, hj⟩ := seqIndex_isSome hb'
    refine ⟨decide (i < j), ?_, ?_⟩
    · unfold checkOrder
      rw [tupleIndex_eq hi, tupleIndex_eq hj]
    · rw [before_iff hd hi hj, decide_eq_true_iff]
  · intro hn
    unfold checkOrder
    cases ha : a.pyIn seq with
    | false => rw [tupleIndex_none ha]
    | true =>
      obtain ⟨i, hi⟩ := seqIndex_isSome ha
      rw [tupleIndex_eq hi]
      rcases hn with hn | hn
      · rw [ha] at hn; cases hn
      · rw [tupleIndex_none hn]

/-- **C92**: this is a strict total order on the values: nothing is before itself, it is transitive, and of two different values one
is before the other. -/
theorem C92_strict_total_order {n : Name} {seq : List Val} {d : Option Val} {h : HP} (hb : mkOrd n seq d = .ok h) {a b c : Val}
    (ha : a.pyIn seq = true) (hb' : b.pyIn seq = true) (hc : c.pyIn seq = true) :
    checkOrder seq a a = .ok false ∧
    (checkOrder seq a b = .ok true → checkOrder seq b c = .ok true → checkOrder seq a c = .ok true) ∧
    (a.pyEq b = false → (checkOrder seq a b = .ok true ∧ checkOrder seq b a = .ok false) ∨
      (checkOrder seq a b = .ok false ∧ checkOrder seq b a = .ok true)) := by
  obtain ⟨i, hi⟩ := seqIndex_isSome ha
  obtain ⟨j, hj⟩ := seqIndex_isSome hb'
  obtain ⟨k, hk⟩ := seqIndex_isSome hc
  simp only [checkOrder, tupleIndex_eq hi, tupleIndex_eq hj, tupleIndex_eq hk, Except.ok.injEq, decide_eq_true_eq,
    decide_eq_false_iff_not]
  refine ⟨lt_irrefl _, fun h1 h2 => h1.trans h2, fun hne => ?_⟩
  have : i ≠ j := fun e => by
    rw [(seqIndex_eq_iff hi hj).2 e] at hne
    cases hne
  omega

/-- **C92**: the entries that stand for the values are ordered like the values. -/
theorem C92_entries {n : Name} {seq : List Val} {d : Option Val} {h : HP} (hb : mkOrd n seq d = .ok h) {a b : Val} {x y : Rat}
    (ha : h.kind.toVec a = some x) (hb' : h.kind.toVec b = some y) : checkOrder seq a b = .ok (decide (x < y)) := by
  obtain ⟨_, _, hk, _⟩ := C48_ordinal.1 h hb
  rw [hk] at ha hb'
  obtain ⟨i, hi, rfl⟩ := Option.map_eq_some_iff.1 (show (seqIndex seq a).map _ = some x from ha)
  obtain ⟨j, hj, rfl⟩ := Option.map_eq_some_iff.1 (show (seqIndex seq b).map _ = some y from hb')
  simp [checkOrder, tupleIndex_eq hi, tupleIndex_eq hj]

/-- **C92**, conditions: `LessThanCondition` and `GreaterThanCondition` with an ordinal parent hold exactly as `check_order` says,
for values and for vectors. -/
theorem C92_conditions {n : Name} {seq : List Val} {d : Option Val} {p child : HP} (hb : mkOrd n seq d = .ok p) {w v : Val}
    (hv : v.pyIn seq = true) {dict : Dict} (hd : dict.lookup p.name = some (some v)) {idx : Name → Nat} {vec : Vec}
    (hx : vec.at (idx p.name) = p.kind.toVec v) :
    (∀ l, mkBin .lt child p w = .ok l → ∃ r, checkOrder seq v w = .ok r ∧ (Cond.lit l).satVal dict = .ok r ∧
      (Cond.lit l).satVec idx vec = r) ∧
    (∀ l, mkBin .gt child p w = .ok l → ∃ r, checkOrder seq w v = .ok r ∧ (Cond.lit l).satVal dict = .ok r ∧
      (Cond.lit l).satVec idx vec = r) := by
  obtain ⟨_, _, hk, _⟩ := C48_ordinal.1 p hb
  obtain ⟨i, hi⟩ := seqIndex_isSome hv
  have hvx : p.kind.toVec v = some (i : Rat) := by
    rw [hk]
    show (seqIndex seq v).map _ = _
    rw [hi]; rfl
  have built : ∀ op l, mkBin op child p w = .ok l → ∃ y, p.kind.toVec w = some y ∧ l = ⟨child, p, .bin op w y⟩ := by
    intro op l hl
    unfold mkBin at hl
    split at hl
    · cases hl
    · split at hl
      · cases hl
      · split at hl
        · cases hl
        · cases hy : p.kind.toVec w with
          | none => rw [hy] at hl; cases hl
          | some y =>
            rw [hy] at hl
            cases hl
            exact ⟨y, rfl, rfl⟩
  have hord : p.kind.isOrdinal = true := by rw [hk]; rfl
  constructor
  · intro l hl
    obtain ⟨y, hy, rfl⟩ := built _ l hl
    refine ⟨decide ((i : Rat) < y), C92_entries hb hvx hy, ?_, ?_⟩
    · simp only [Cond.satVal, Lit.satVal, Dict.get, hd, bind, Except.bind, hord, hvx, if_true]
      rfl
    · simp only [Cond.satVec, hx, hvx, Test.onEntry]
  · intro l hl
    obtain ⟨y, hy, rfl⟩ := built _ l hl
    refine ⟨decide (y < (i : Rat)), C92_entries hb hy hvx, ?_, ?_⟩
    · simp only [Cond.satVal, Lit.satVal, Dict.get, hd, bind, Except.bind, hord, hvx, if_true]
      rfl
    · simp only [Cond.satVec, hx, hvx, Test.onEntry]

/-- **C92**: `get_order` and `get_value` are inverse to each other, and `get_seq_order` lists the positions of all values. -/
theorem C92_positions {n : Name} {seq : List Val} {d : Option Val} {h : HP} (hb : mkOrd n seq d = .ok h) :
    (∀ v, v.pyIn seq = true → ∃ i w, getOrder seq v = .ok i ∧ getValue seq i = .ok w ∧ w.pyEq v = true) ∧
    (∀ i : Nat, i < seq.length → ∃ w, getValue seq i = .ok w ∧ w ∈ seq ∧ getOrder seq w = .ok i) ∧
    (∀ i : Nat, seq.length ≤ i → getValue seq i = .error .indexError) ∧
    (∀ i : Nat, i ∈ getSeqOrder seq ↔ ∃ v, v.pyIn seq = true ∧ getOrder seq v = .ok i) := by
  have hd := (C48_ordinal.2.1 ⟨h, hb⟩).1
  have hval : ∀ (i : Nat) w, seq[i]? = some w → getValue seq i = .ok w := by
    intro i w hw
    unfold getValue
    rw [pyIndex_nat, hw]
  have h2 : ∀ i : Nat, i < seq.length → ∃ w, getValue seq i = .ok w ∧ w ∈ seq ∧ getOrder seq w = .ok i := by
    intro i hi
    exact ⟨seq[i], hval i _ (List.getElem?_eq_getElem hi), List.getElem_mem _,
      tupleIndex_eq (seqIndex_getElem hd (List.getElem?_eq_getElem hi))⟩
  refine ⟨?_, h2, ?_, ?_⟩
  · intro v hv
    obtain ⟨i, hi⟩ := seqIndex_isSome hv
    obtain ⟨w, h1, h2⟩ := seqIndex_some hi
    exact ⟨i, w, tupleIndex_eq hi, hval i w h1, h2⟩
  · intro i hi
    unfold getValue
    rw [pyIndex_nat, List.getElem?_eq_none hi]
  · intro i
    unfold getSeqOrder
    rw [List.mem_range]
    constructor
    · intro hi
      obtain ⟨w, _, h4, h5⟩ := h2 i hi
      exact ⟨w, pyIn_iff.2 ⟨w, h4, Val.pyEq_refl w⟩, h5⟩
    · rintro ⟨v, hv, he⟩
      obtain ⟨j, hj⟩ := seqIndex_isSome hv
      rw [getOrder, tupleIndex_eq hj] at he
      cases he
      obtain ⟨w, h1, _⟩ := seqIndex_some hj
      exact (List.getElem?_eq_some_iff.1 h1).1

/-- **C92**, neighbours: no value of the sequence lies strictly between a value and one of its neighbours. -/
theorem C92_neighbors {n : Name} {seq : List Val} {d : Option Val} {h : HP} (hb : mkOrd n seq d = .ok h) {v : Val} {x : Rat}
    (hx : h.kind.toVec v = some x) {k : Nat} {pick : Bool} {r : List Rat} (hr : Num.ordNeighbors seq.length x k pick = some r)
    {y : Rat} (hy : y ∈ r) :
    ∃ w, h.kind.toVal y = some w ∧ w ∈ seq ∧ w.pyEq v = false ∧ ∀ u, u.pyIn seq = true →
      ¬ (checkOrder seq v u = .ok true ∧ checkOrder seq u w = .ok true) ∧
      ¬ (checkOrder seq w u = .ok true ∧ checkOrder seq u v = .ok true) := by
  have hd := (C48_ordinal.2.1 ⟨h, hb⟩).1
  obtain ⟨_, _, hk, _⟩ := C48_ordinal.1 h hb
  rw [hk] at hx
  obtain ⟨i, hi, rfl⟩ := Option.map_eq_some_iff.1 (show (seqIndex seq v).map _ = some x from hx)
  obtain ⟨c, hc, hcv⟩ := seqIndex_some hi
  have hil : i < seq.length := (List.getElem?_eq_some_iff.1 hc).1
  obtain ⟨r', h1, _, h3, _⟩ := Num.C35_ordinal_partial (n := k) hil pick
  rw [h1] at hr
  cases hr
  obtain ⟨j, rfl, hj, hadj⟩ := h3 y hy
  have hw := List.getElem?_eq_getElem hj
  have hjw := seqIndex_getElem hd hw
  refine ⟨seq[j], ?_, List.getElem_mem _, ?_, fun u hu => ?_⟩
  · rw [hk]
    show (if closeToInt (j : Rat) then Kind.pyIndex seq (rint (j : Rat)) else none) = _
    have hrj : rint (j : Rat) = (j : Int) := by exact_mod_cast rint_int (j : Int)
    rw [closeToInt_nat, if_pos rfl, hrj, pyIndex_nat, hw]
  · cases he : (seq[j]).pyEq v with
    | false => rfl
    | true => have := (seqIndex_eq_iff hjw hi).1 he; omega
  · obtain ⟨m, hm⟩ := seqIndex_isSome hu
    simp only [checkOrder, tupleIndex_eq hi, tupleIndex_eq hm, tupleIndex_eq hjw, Except.ok.injEq, decide_eq_true_eq]
    omega

/-- An ordinal hyperparameter whose order is not that of the texts. -/
def temperature (n : Name) : HP := ⟨n, .ord [.str "hot", .str "warm", .str "cold"], .str "hot"⟩

example : mkOrd "t" [.str "hot", .str "warm", .str "cold"] none = .ok (temperature "t") ∧
    checkOrder [.str "hot", .str "warm", .str "cold"] (.str "hot") (.str "cold") = .ok true ∧
    checkOrder [.str "hot", .str "warm", .str "cold"] (.str "mild") (.str "cold") = .error .valueError ∧
    getOrder [.str "hot", .str "warm", .str "cold"] (.str "warm") = .ok 1 := by decide +kernel

/-- C92: forbidden relations do not use this order but compare the values themselves, as their documentation says: with `hot`
before `cold` in both sequences, "left less than right" forbids `cold` on the left and `hot` on the right, and not the other
way round.  A condition about the same hyperparameter uses the order of the sequence. -/
theorem C92_relations_use_values :
    (Forb.rel .lt (temperature "s") (temperature "t")).onVal [("s", .str "hot"), ("t", .str "cold")] = false ∧
    (Forb.rel .lt (temperature "s") (temperature "t")).onVal [("s", .str "cold"), ("t", .str "hot")] = true ∧
    ∃ l, mkBin .lt ⟨"c", .const (.int 1), .int 1⟩ (temperature "s") (.str "cold") = .ok l ∧
      (Cond.lit l).satVal [("s", some (.str "hot"))] = .ok true := by
  refine ⟨by decide +kernel, by decide +kernel, _, rfl, by decide +kernel⟩

/-- C92: a position below zero is not rejected but counts from the end. -/
theorem C92_negative_position {seq : List Val} {v : Val} (h : seq.getLast? = some v) : getValue seq (-1) = .ok v := by
  have hl : 0 < seq.length := by
    cases seq with
    | nil => simp at h
    | cons x xs => simp
  unfold getValue Kind.pyIndex
  rw [if_neg (by omega), if_pos (by omega)]
  have : ((-1 : Int) + seq.length).toNat = seq.length - 1 := by omega
  rw [this, ← List.getLast?_eq_getElem?, h]

example : getValue [.str "hot", .str "warm", .str "cold"] (-1) = .ok (.str "cold") := C92_negative_position rfl

/-! ## The theorems applied to the sequence `hot`, `warm`, `cold` -/

theorem temperature_made : mkOrd "t" [.str "hot", .str "warm", .str "cold"] none = .ok (temperature "t") := by decide +kernel

example := C92_check_order temperature_made (.str "hot") (.str "cold")
example := C92_strict_total_order temperature_made (a := .str "hot") (b := .str "warm") (c := .str "cold") (by decide) (by decide) (by decide)
example := C92_entries temperature_made (a := .str "cold") (b := .str "warm") (x := 2) (y := 1) (by decide +kernel) (by decide +kernel)
example := C92_positions temperature_made

/-- A condition "less than `cold`" on `t`, where `t` is `warm`. -/
example : ∃ l, mkBin .lt ⟨"c", .const (.int 1), .int 1⟩ (temperature "t") (.str "cold") = .ok l ∧
    (Cond.lit l).satVal [("t", some (.str "warm"))] = .ok true := by
  have h := C92_conditions (child := ⟨"c", .const (.int 1), .int 1⟩) temperature_made (w := .str "cold") (v := .str "warm") (by decide)
    (dict := [("t", some (.str "warm"))]) rfl (idx := fun _ => 0) (vec := [some 1]) (by decide +kernel)
  refine ⟨_, rfl, ?_⟩
  obtain ⟨r, h1, h2, -⟩ := h.1 _ rfl
  have : checkOrder [.str "hot", .str "warm", .str "cold"] (.str "warm") (.str "cold") = .ok true := by decide +kernel
  rw [this] at h1
  cases h1
  exact h2

/-- The neighbours of `hot`: only `warm`. -/
example := C92_neighbors temperature_made (v := .str "hot") (x := 0) (by decide +kernel) (k := 2) (pick := true) (r := [1]) (by decide +kernel)
  (y := 1) (by decide)

end Verif
