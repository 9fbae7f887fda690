import Verif.Lemmas.Value
import Verif.Lemmas.Eq
import Verif.Spec.Eval

/-!
# Evaluation on values and on vectors
-/

set_option autoImplicit false

namespace Verif
open Verif.Spec

theorem onRat_onEntry (op : BOp) (w : Val) (x y : Rat) :
    (Test.bin op w y).onEntry (some x) = op.onRat x y := by
  cases op <;> simp [Test.onEntry, BOp.onRat]

theorem lit_satVal {l : Lit} (hw : l.wf = true) {d : Dict} {idx : Name → Nat} {v : Vec}
    (ha : Agree d idx v l.parent) (hne : IsNotEquals l → SetIn d l.parent.name) :
    l.satVal d = .ok (l.test.onEntry (v.at (idx l.parent.name))) := by
  rcases ha with ⟨h1, h2⟩ | ⟨w, x, h1, h2, h3, h4⟩
  · have : l.satVal d = .ok false := by
      simp [Lit.satVal, Dict.get, h1, bind, Except.bind]
    rw [this, h2]
    congr 1
    cases ht : l.test with
    | isIn vs xs => rfl
    | bin op w x =>
      cases op with
      | eq => rfl
      | lt => rfl
      | gt => rfl
      | ne =>
        obtain ⟨w', hw'⟩ := hne ⟨w, x, ht⟩
        rw [h1] at hw'; cases hw'
  · rw [h4]
    have hget : d.get l.parent.name = .ok (some w) := by simp [Dict.get, h1]
    simp only [Lit.satVal, hget, bind, Except.bind]
    simp only [Lit.wf, Bool.and_eq_true] at hw
    have hpw := hw.1.2
    have hw2 := hw.2
    cases ht : l.test with
    | isIn vs xs =>
      rw [ht] at hw2
      simp only [Bool.and_eq_true, List.all_eq_true, decide_eq_true_eq] at hw2
      simp only [Test.onEntry]
      congr 1
      rw [Bool.eq_iff_iff, decide_eq_true_eq, hw2.2]
      exact toVec_mem hpw h2 h3 hw2.1
    | bin op u y =>
      rw [ht] at hw2
      simp only [Bool.and_eq_true, decide_eq_true_eq] at hw2
      obtain ⟨⟨hlu, hy⟩, hord⟩ := hw2
      simp only
      split
      · rw [h3, onRat_onEntry]
      · rename_i hno
        rw [onRat_onEntry]
        have hno : l.parent.kind.isOrdinal = false := by simpa using hno
        have heq := toVec_inj hpw h2 hlu h3 hy
        cases op with
        | eq =>
          simp only [BOp.onVal, BOp.onRat]
          congr 1
          rw [Bool.eq_iff_iff, decide_eq_true_eq]; exact heq
        | ne =>
          simp only [BOp.onVal, BOp.onRat]
          congr 1
          rw [Bool.eq_iff_iff, decide_eq_true_eq, Bool.not_eq_true', ne_eq, ← heq]
          simp
        | lt =>
          have ho : l.parent.kind.orderable = true := by simpa using hord
          simp only [BOp.onVal, BOp.onRat, toVec_lt hpw ho hno h3 hy]
        | gt =>
          have ho : l.parent.kind.orderable = true := by simpa using hord
          simp only [BOp.onVal, BOp.onRat, toVec_lt hpw ho hno hy h3]

/-- A condition all of whose literals have an exception free value. -/
theorem cond_satVal {d : Dict} {idx : Name → Nat} {v : Vec} (c : Cond)
    (h : ∀ l ∈ c.dlcs, l.satVal d = .ok (l.test.onEntry (v.at (idx l.parent.name)))) :
    c.satVal d = .ok (c.satVec idx v) := by
  induction c using Cond.induct with
  | hl l => simpa [Cond.satVal, Cond.satVec] using h l (by simp [Cond.dlcs])
  | ha cs ih =>
    simp only [Cond.satVal, Cond.satVec]
    have h' : ∀ c ∈ cs, c.satVal d = .ok (c.satVec idx v) := fun c hc =>
      ih c hc (fun l hl => h l (by rw [Cond.dlcs]; exact mem_dlcsL.2 ⟨c, hc, hl⟩))
    clear ih h
    induction cs with
    | nil => simp [Cond.satValAll, Cond.satVecAll]
    | cons c cs ih =>
      simp only [Cond.satValAll, Cond.satVecAll, h' c (by simp), bind, Except.bind]
      cases c.satVec idx v with
      | false => simp
      | true => simp [ih (fun x hx => h' x (by simp [hx]))]
  | ho cs ih =>
    simp only [Cond.satVal, Cond.satVec]
    have h' : ∀ c ∈ cs, c.satVal d = .ok (c.satVec idx v) := fun c hc =>
      ih c hc (fun l hl => h l (by rw [Cond.dlcs]; exact mem_dlcsL.2 ⟨c, hc, hl⟩))
    clear ih h
    induction cs with
    | nil => simp [Cond.satValAny, Cond.satVecAny]
    | cons c cs ih =>
      simp only [Cond.satValAny, Cond.satVecAny, h' c (by simp), bind, Except.bind]
      cases c.satVec idx v with
      | true => simp
      | false => simp [ih (fun x hx => h' x (by simp [hx]))]

theorem wf0_lit {c : Cond} (h : c.wf0 = true) : ∀ l ∈ c.dlcs, l.wf = true := by
  induction c using Cond.induct with
  | hl l => intro m hm; simp [Cond.dlcs] at hm; subst hm; simpa [Cond.wf0] using h
  | ha cs ih =>
    intro l hl
    rw [Cond.dlcs] at hl
    obtain ⟨c, hc, hl⟩ := mem_dlcsL.1 hl
    exact ih c hc ((wf0_and.1 h).2 c hc) l hl
  | ho cs ih =>
    intro l hl
    rw [Cond.dlcs] at hl
    obtain ⟨c, hc, hl⟩ := mem_dlcsL.1 hl
    exact ih c hc ((wf0_or.1 h).2 c hc) l hl

/-! ## Decoding -/

theorem clip_id {x l u : Rat} (h1 : l ≤ x) (h2 : x ≤ u) : clipQ x l u = x := by
  unfold clipQ
  rw [if_neg (by linarith), if_neg (by linarith)]

theorem pyIndex_nat {cs : List Val} {i : Nat} : Kind.pyIndex cs (i : Int) = cs[i]? := by
  simp [Kind.pyIndex]

/-- Decoding the vector value of a legal value gives an equal value. -/
theorem toVal_toVec {h : HP} (hw : h.wf = true) {v : Val} {x : Rat} (lv : h.kind.legalValue v = true)
    (hx : h.kind.toVec v = some x) (he : ExactInt h.kind v) :
    ∃ w, h.kind.toVal x = some w ∧ w.pyEq v = true := by
  cases hk : h.kind with
  | cat cs =>
    rw [hk] at hx
    simp only [Kind.toVec, Option.map_eq_some_iff] at hx
    obtain ⟨i, hi, rfl⟩ := hx
    obtain ⟨w, h1, h2⟩ := seqIndex_some hi
    exact ⟨w, by simp [Kind.toVal, closeToInt_nat, rint_nat, pyIndex_nat, h1], h2⟩
  | ord cs =>
    rw [hk] at hx
    simp only [Kind.toVec, Option.map_eq_some_iff] at hx
    obtain ⟨i, hi, rfl⟩ := hx
    obtain ⟨w, h1, h2⟩ := seqIndex_some hi
    exact ⟨w, by simp [Kind.toVal, closeToInt_nat, rint_nat, pyIndex_nat, h1], h2⟩
  | const c =>
    rw [hk] at lv
    exact ⟨c, rfl, Val.pyEq_symm lv⟩
  | int l u =>
    have hlu := HP.wf_int hw hk
    obtain ⟨n, hn⟩ := he l u hk
    rw [hk] at hx
    simp only [Kind.toVec, hn, Option.map_some, Option.some.injEq] at hx
    subst hx
    refine ⟨.int n, ?_, ?_⟩
    · simp [Kind.toVal, scale_normalize hlu, rint_int]
    · exact (num_pyEq rfl hn).2 rfl
  | flt l u =>
    have hlu := HP.wf_flt hw hk
    rw [hk] at hx lv
    simp only [Kind.toVec, Option.map_eq_some_iff] at hx
    obtain ⟨q, hq, rfl⟩ := hx
    simp only [Kind.legalValue, hq, Bool.and_eq_true, decide_eq_true_eq] at lv
    refine ⟨.flt q, ?_, ?_⟩
    · simp [Kind.toVal, scale_normalize hlu, clip_id lv.1 lv.2]
    · exact (num_pyEq rfl hq).2 rfl

theorem lt_congr {a a' b b' : Val} (h : a.pyEq a' = true) (h' : b.pyEq b' = true) :
    a.lt? b = a'.lt? b' := by
  rw [Val.pyEq_iff] at h h'
  rcases h with ⟨s, rfl, rfl⟩ | ⟨p, h1, h2⟩ <;> rcases h' with ⟨t, rfl, rfl⟩ | ⟨q, h3, h4⟩
  · rfl
  · cases b <;> cases b' <;> simp [Val.num?] at h3 h4 <;> rfl
  · cases a <;> cases a' <;> simp [Val.num?] at h1 h2 <;> rfl
  · rw [num_lt h1 h3, num_lt h2 h4]

theorem relOp_congr {a a' b b' : Val} (h : a.pyEq a' = true) (h' : b.pyEq b' = true) (op : RelOp) :
    op.onVals a b = op.onVals a' b' := by
  cases op with
  | lt => simp [RelOp.onVals, lt_congr h h']
  | gt => simp [RelOp.onVals, lt_congr h' h]
  | eq => simp [RelOp.onVals, Val.pyEq_congr h, Val.pyEq_congr_right h']

mutual
theorem forb_onVal {d : List (Name × Val)} {idx : Name → Nat} {v : Vec} : ∀ (f : Forb),
    f.wf = true → (∀ h ∈ clauseHps f, AgreeV d idx v h) →
    (∀ h ∈ relHps f, ∀ w, d.lookup h.name = some w → ExactInt h.kind w) →
    f.onVal d = f.onVec idx v
  | .eq h w x, hw, ha, _ => by
    simp only [Forb.wf, Bool.and_eq_true, decide_eq_true_eq] at hw
    rcases ha h (by simp [clauseHps]) with ⟨h1, h2⟩ | ⟨w', x', h1, h2, h3, h4⟩
    · simp [Forb.onVal, Forb.onVec, Dict.get?, h1, h2]
    · simp only [Forb.onVal, Forb.onVec, Dict.get?, h1, h4]
      rw [Bool.eq_iff_iff, decide_eq_true_eq]
      exact toVec_inj hw.1.1 h2 hw.1.2 h3 hw.2
  | .isIn h vs xs, hw, ha, _ => by
    simp only [Forb.wf, Bool.and_eq_true, List.all_eq_true, decide_eq_true_eq] at hw
    rcases ha h (by simp [clauseHps]) with ⟨h1, h2⟩ | ⟨w', x', h1, h2, h3, h4⟩
    · simp [Forb.onVal, Forb.onVec, Dict.get?, h1, h2]
    · simp only [Forb.onVal, Forb.onVec, Dict.get?, h1, h4]
      rw [Bool.eq_iff_iff, decide_eq_true_eq, hw.2]
      exact toVec_mem hw.1.1 h2 h3 hw.1.2
  | .rel op l r, hw, ha, he => by
    simp only [Forb.wf, Bool.and_eq_true] at hw
    rcases ha l (by simp [clauseHps]) with ⟨h1, h2⟩ | ⟨w, x, h1, h2, h3, h4⟩
    · simp [Forb.onVal, Forb.onVec, Dict.get?, h1, h2, relOnEntries]
    · rcases ha r (by simp [clauseHps]) with ⟨k1, k2⟩ | ⟨w', x', k1, k2, k3, k4⟩
      · simp [Forb.onVal, Forb.onVec, Dict.get?, h1, h4, k1, k2, relOnEntries]
      · obtain ⟨a, e1, e2⟩ := toVal_toVec hw.1 h2 h3 (he l (by simp [relHps]) w h1)
        obtain ⟨b, e3, e4⟩ := toVal_toVec hw.2 k2 k3 (he r (by simp [relHps]) w' k1)
        simp only [Forb.onVal, Forb.onVec, Dict.get?, h1, h4, k1, k4, relOnEntries, e1, e3]
        exact (relOp_congr e2 e4 op).symm
  | .and cs, hw, ha, he => by
    simp only [Forb.onVal, Forb.onVec]
    exact forb_onValAll cs (by simpa [Forb.wf] using hw) (by simpa [clauseHps] using ha)
      (by simpa [relHps] using he)
theorem forb_onValAll {d : List (Name × Val)} {idx : Name → Nat} {v : Vec} : ∀ (cs : List Forb),
    Forb.wfL cs = true → (∀ h ∈ clauseHpsL cs, AgreeV d idx v h) →
    (∀ h ∈ relHpsL cs, ∀ w, d.lookup h.name = some w → ExactInt h.kind w) →
    Forb.onValAll d cs = Forb.onVecAll idx v cs
  | [], _, _, _ => rfl
  | c :: cs, hw, ha, he => by
    simp only [Forb.wfL, Bool.and_eq_true] at hw
    simp only [Forb.onValAll, Forb.onVecAll]
    rw [forb_onVal c hw.1 (fun h hh => ha h (by simp [clauseHpsL, hh]))
        (fun h hh => he h (by simp [relHpsL, hh])),
      forb_onValAll cs hw.2 (fun h hh => ha h (by simp [clauseHpsL, hh]))
        (fun h hh => he h (by simp [relHpsL, hh]))]
end

end Verif
