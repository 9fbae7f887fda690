import Verif.Lemmas.ScaledCheck
import Verif.Lemmas.F64Config
import Verif.Props.Sample

/-!
# Logarithmic scales: valid numbers and their twins
-/

set_option autoImplicit false
set_option linter.unusedSectionVars false

namespace Verif.Scaled
open Verif Verif.Spec Verif.Num

variable {calls : List Call} {s : Space}

/-! ## The numbers that occur in a space -/

noncomputable section

def valNum (v : Val) : List ℝ := (v.num?.map (fun q : Rat => (q : ℝ))).toList

def kindNums : Kind → List ℝ
  | .int l u => [(l : ℝ), (u : ℝ)]
  | .flt l u => [(l : ℝ), (u : ℝ)]
  | .cat cs => cs.flatMap valNum
  | .ord cs => cs.flatMap valNum
  | .const c => valNum c

def posNum (k : Kind) (w : Val) : List ℝ := ((numberOf k w).map (fun q : Rat => (q : ℝ))).toList

/-- All numbers that are compared in a space. -/
def spaceNums (calls : List Call) : List ℝ :=
  (allHps calls).flatMap (fun h => kindNums h.kind) ++
  (allConds calls).flatMap (fun c => c.dlcs.flatMap (fun l => (testVals l.test).flatMap (posNum l.parent.kind))) ++
  (allForbs calls).flatMap (fun f => (clauseVals f).flatMap (fun p => posNum p.1.kind p.2))

end

theorem kindIn_of {R : ℝ → Prop} {k : Kind} (h : ∀ x ∈ kindNums k, R x) : KindIn R k := by
  cases k with
  | int l u => exact ⟨h _ (by simp [kindNums]), h _ (by simp [kindNums])⟩
  | flt l u => exact ⟨h _ (by simp [kindNums]), h _ (by simp [kindNums])⟩
  | cat cs => exact fun c hc q hq => h _ (by simp only [kindNums, List.mem_flatMap]; exact ⟨c, hc, by simp [valNum, hq]⟩)
  | ord cs => exact fun c hc q hq => h _ (by simp only [kindNums, List.mem_flatMap]; exact ⟨c, hc, by simp [valNum, hq]⟩)
  | const c => exact fun q hq => h _ (by simp [kindNums, valNum, hq])

theorem valIn_of {R : ℝ → Prop} {k : Kind} {w : Val} (h : ∀ x ∈ posNum k w, R x) : ValIn R k w :=
  fun q hq => h _ (by simp [posNum, hq])

theorem pos_of {lg : Scales} (hp : PositiveLogs lg calls) {h : HP} (hh : h ∈ allHps calls) : Pos (lg h) h.kind := hp h hh

/-- The numbers of the space are enough. -/
theorem cover_of {lg : Scales} (hp : PositiveLogs lg calls) (hoc : OwnConds calls) (hown : OwnClauses calls) {R : ℝ → Prop}
    (h : ∀ x ∈ spaceNums calls, R x) : Cover lg calls R where
  pos := fun _ hh => pos_of hp hh
  kinds := fun k hk => kindIn_of (fun x hx => h x (by
    unfold spaceNums
    simp only [List.mem_append, List.mem_flatMap]
    exact .inl (.inl ⟨k, hk, hx⟩)))
  conds := fun c hc l hl => ⟨(hoc c hc l hl).1, fun w hw => valIn_of (fun x hx => h x (by
    unfold spaceNums
    simp only [List.mem_append, List.mem_flatMap]
    exact .inl (.inr ⟨c, hc, l, hl, w, hw, hx⟩)))⟩
  clauses := fun f hf p hpm => valIn_of (fun x hx => h x (by
    unfold spaceNums
    simp only [List.mem_append, List.mem_flatMap]
    exact .inr ⟨f, hf, p, hpm, hx⟩))
  own := hown

/-! ## Numbers and their twins -/

/-- A number for some of the names, and the linear entries of their twins. -/
def NTwin (lg : Scales) (calls : List Call) (R : ℝ → Prop) (φ : ℝ → Rat) (a : NumAssign) (a' : Assign) : Prop :=
  ∀ h ∈ allHps calls, (a h.name = none ∧ a' h.name = none) ∨
    ∃ x y, a h.name = some y ∧ Stands (lg h) h.kind x y ∧ R y ∧ a' h.name = some (encQ h.kind (φ y))

section Twin
variable {lg : Scales} {R : ℝ → Prop} {φ : ℝ → Rat} (hφ : Keeps R φ) {a : NumAssign} {a' : Assign}

include hφ

theorem some_twin {h : HP} (hw : h.wf = true) {e : Option ℝ} {e' : Option Rat} (he : (e = none ∧ e' = none) ∨
    ∃ y, e = some y ∧ R y ∧ e' = some (encQ h.kind (φ y))) {q : Rat} (hq : R (q : ℝ)) :
    (e = some (q : ℝ) ↔ e' = some (encQ h.kind q)) ∧ ((∃ y, e = some y ∧ y < (q : ℝ)) ↔ ∃ p, e' = some p ∧ p < encQ h.kind q) ∧
      ((∃ y, e = some y ∧ (q : ℝ) < y) ↔ ∃ p, e' = some p ∧ encQ h.kind q < p) := by
  rcases he with ⟨rfl, rfl⟩ | ⟨y, rfl, hy, rfl⟩
  · simp
  · refine ⟨?_, ?_, ?_⟩
    · simp only [Option.some.injEq]; exact (twin_eq hφ hw hy hq).symm
    · simp only [Option.some.injEq, exists_eq_left']; exact (twin_lt hφ hw hy hq).symm
    · simp only [Option.some.injEq, exists_eq_left']; exact (twin_gt hφ hw hy hq).symm

variable (hr : Reach calls s) (hc : Cover lg calls R) (ht : NTwin lg calls R φ a a')
include hr hc ht

theorem lit_twin {l : Lit} (hwf : l.wf = true) (h1 : l.parent ∈ allHps calls) (h2 : ∀ w ∈ testVals l.test, ValIn R l.parent.kind w) :
    LitHoldsN a l ↔ LitHolds a' l := by
  obtain ⟨k1, k2⟩ := lit_ok hwf
  have he : (a l.parent.name = none ∧ a' l.parent.name = none) ∨
      ∃ y, a l.parent.name = some y ∧ R y ∧ a' l.parent.name = some (encQ l.parent.kind (φ y)) := by
    rcases ht _ h1 with h | ⟨x, y, e1, -, e2, e3⟩
    · exact .inl h
    · exact .inr ⟨y, e1, e2, e3⟩
  unfold LitHoldsN LitHolds
  cases hte : l.test with
  | bin op w x0 =>
    rw [hte] at k2 h2
    simp only at k2
    obtain ⟨q, hq⟩ := numberOf_legal k2.1
    obtain ⟨s1, s2, s3⟩ := some_twin hφ k1 he (h2 w (by simp [testVals]) q hq)
    have hx0 : x0 = encQ l.parent.kind q := by
      have := k2.2
      rw [kvec_eq, hq] at this
      simpa using this.symm
    subst hx0
    cases op with
    | eq => simp only [hq, Option.some.injEq, exists_eq_left']; exact s1
    | ne => simp only [hq, Option.some.injEq, forall_eq']; exact not_congr s1
    | lt => simp only [hq, Option.some.injEq, exists_and_left, exists_eq_left']; exact s2
    | gt => simp only [hq, Option.some.injEq, exists_and_left, exists_eq_left']; exact s3
  | isIn ws xs =>
    rw [hte] at k2 h2
    simp only at k2 ⊢
    rw [k2.2]
    constructor
    · rintro ⟨w, hw, q, hq, e⟩
      obtain ⟨s1, -, -⟩ := some_twin hφ k1 he (h2 w (by simpa [testVals] using hw) q hq)
      refine ⟨encQ l.parent.kind q, ?_, s1.1 e⟩
      rw [List.mem_filterMap]
      exact ⟨w, hw, by rw [kvec_eq, hq]; rfl⟩
    · rintro ⟨p, hp, e⟩
      rw [List.mem_filterMap] at hp
      obtain ⟨w, hw, hwp⟩ := hp
      obtain ⟨q, hq⟩ := numberOf_legal (k2.1 w hw)
      obtain ⟨s1, -, -⟩ := some_twin hφ k1 he (h2 w (by simpa [testVals] using hw) q hq)
      rw [kvec_eq, hq] at hwp
      simp only [Option.map_some, Option.some.injEq] at hwp
      exact ⟨w, hw, q, hq, s1.2 (by rw [e, hwp])⟩

theorem holds_twin (c : Cond) (h : ∀ l ∈ c.dlcs, l.wf = true ∧ l.parent ∈ allHps calls ∧ ∀ w ∈ testVals l.test, ValIn R l.parent.kind w) :
    HoldsN a c ↔ Holds a' c := by
  induction c using Cond.induct with
  | hl l =>
    obtain ⟨h1, h2, h3⟩ := h l (by simp [Cond.dlcs])
    have := lit_twin hφ hr hc ht h1 h2 h3
    exact ⟨fun hh => by cases hh with | lit k => exact .lit (this.1 k), fun hh => by cases hh with | lit k => exact .lit (this.2 k)⟩
  | ha cs ih =>
    have h' : ∀ c ∈ cs, (HoldsN a c ↔ Holds a' c) := fun c hc => ih c hc (fun l hl => h l (by rw [Cond.dlcs]; exact mem_dlcsL.2 ⟨c, hc, hl⟩))
    exact ⟨fun hh => by cases hh with | and k => exact .and (fun c hc => (h' c hc).1 (k c hc)),
      fun hh => by cases hh with | and k => exact .and (fun c hc => (h' c hc).2 (k c hc))⟩
  | ho cs ih =>
    have h' : ∀ c ∈ cs, (HoldsN a c ↔ Holds a' c) := fun c hc => ih c hc (fun l hl => h l (by rw [Cond.dlcs]; exact mem_dlcsL.2 ⟨c, hc, hl⟩))
    exact ⟨fun hh => by cases hh with | or hm k => exact .or hm ((h' _ hm).1 k),
      fun hh => by cases hh with | or hm k => exact .or hm ((h' _ hm).2 k)⟩

end Twin

noncomputable section
/-- What a value that was read shows. -/
def RVal.shown : RVal → Shown
  | .num x => .num x
  | .val v => Spec.shown v
end

/-- The number of an entry denotes what is read. -/
theorem denotes_iff {h : HP} (hw : h.wf = true) {lg : Bool} (hp : Pos lg h.kind) {x y : ℝ} (hs : Stands lg h.kind x y) {r : RVal}
    (hr : toVal lg h.kind x = some r) {p : Shown} : Denotes h.kind y p ↔ p = r.shown := by
  cases hk : h.kind with
  | cat cs =>
    rw [hk] at hs hr
    obtain ⟨⟨i, hi, rfl⟩, rfl⟩ := hs
    simp only [toVal, closeToIntK_nat, rintK_natR, pyIndex_nat cs hi, if_true, Option.map_some, Option.some.injEq] at hr
    subst hr
    constructor
    · rintro ⟨j, w, hj, hw', rfl⟩
      have : i = j := by exact_mod_cast hj
      subst this
      rw [List.getElem?_eq_getElem hi, Option.some.injEq] at hw'
      rw [← hw']; rfl
    · rintro rfl
      exact ⟨i, cs[i], rfl, List.getElem?_eq_getElem hi, rfl⟩
  | ord cs =>
    rw [hk] at hs hr
    obtain ⟨⟨i, hi, rfl⟩, rfl⟩ := hs
    simp only [toVal, closeToIntK_nat, rintK_natR, pyIndex_nat cs hi, if_true, Option.map_some, Option.some.injEq] at hr
    subst hr
    constructor
    · rintro ⟨j, w, hj, hw', rfl⟩
      have : i = j := by exact_mod_cast hj
      subst this
      rw [List.getElem?_eq_getElem hi, Option.some.injEq] at hw'
      rw [← hw']; rfl
    · rintro rfl
      exact ⟨i, cs[i], rfl, List.getElem?_eq_getElem hi, rfl⟩
  | const c =>
    rw [hk] at hr
    simp only [toVal, Option.some.injEq] at hr
    subst hr
    rfl
  | int l u =>
    have hlu := range_lt hw hk
    rw [hk] at hs hp hr
    have hl : lg = true → (0 : ℝ) < l := fun e => by exact_mod_cast hp e
    obtain ⟨⟨n, h1, h2, rfl⟩, rfl⟩ := hs
    have h1' : (l : ℝ) ≤ n := by exact_mod_cast h1
    have hu := onScale_unsafe hlu hl (fun e => lt_of_lt_of_le (hl e) h1')
    simp only [toVal, unsafeVal, hu, Num.rintK_int, Option.some.injEq] at hr
    subst hr
    rfl
  | flt l u =>
    have hlu := range_ltF hw hk
    rw [hk] at hs hp hr
    have hl : lg = true → (0 : ℝ) < l := fun e => by exact_mod_cast hp e
    obtain ⟨⟨h1, h2⟩, rfl⟩ := hs
    have hu := onScale_unsafe hlu hl (fun e => lt_of_lt_of_le (hl e) h1)
    simp only [toVal, unsafeVal, hu, Num.clip_id h1 h2, Option.some.injEq] at hr
    subst hr
    rfl

theorem compares_iff (op : RelOp) (r r' : RVal) : Compares op r.shown r'.shown ↔ onVals op r r' = true := by
  rcases r with x | (n | q | t) <;> rcases r' with x' | (n' | q' | t') <;> cases op <;>
    simp [RVal.shown, Spec.shown, Compares, onVals, RVal.num?, RVal.str?, Val.num?] <;> exact eq_comm

section Twin
variable {lg : Scales} {R : ℝ → Prop} {φ : ℝ → Rat} (hφ : Keeps R φ) {a : NumAssign} {a' : Assign}
  (hr : Reach calls s) (hc : Cover lg calls R) (ht : NTwin lg calls R φ a a')
include hφ hr hc ht

theorem forbids_twin (f : Forb) (hf : Fine (allHps calls) R f) : ForbidsN a f ↔ Forbids a' f := by
  have side : ∀ h ∈ allHps calls, (a h.name = none ∧ a' h.name = none) ∨
      ∃ y, a h.name = some y ∧ R y ∧ a' h.name = some (encQ h.kind (φ y)) := by
    intro h hh
    rcases ht h hh with h | ⟨x, y, e1, -, e2, e3⟩
    · exact .inl h
    · exact .inr ⟨y, e1, e2, e3⟩
  induction f using Forb.induct with
  | he h w x =>
    have hh := hf.hps h (by simp [clauseHps])
    have hwf := hf.wf
    simp only [Forb.wf, Bool.and_eq_true, decide_eq_true_eq] at hwf
    obtain ⟨q, hq⟩ := numberOf_legal hwf.1.2
    have hx := hwf.2
    rw [kvec_eq, hq] at hx
    simp only [Option.map_some, Option.some.injEq] at hx
    subst hx
    obtain ⟨s1, -, -⟩ := some_twin hφ (hc.good hr h hh).1 (side h hh) (hf.vals (h, w) (by simp [clauseVals]) q hq)
    constructor
    · intro k
      cases k with
      | eq k1 k2 =>
        rw [hq] at k1
        cases k1
        exact .eq (s1.1 k2)
    · intro k
      cases k with
      | eq k1 => exact .eq hq (s1.2 k1)
  | hi h ws xs =>
    have hh := hf.hps h (by simp [clauseHps])
    have hwf := hf.wf
    simp only [Forb.wf, Bool.and_eq_true, List.all_eq_true, decide_eq_true_eq] at hwf
    constructor
    · intro k
      cases k with
      | @isIn _ _ _ w q k1 k2 k3 =>
        obtain ⟨s1, -, -⟩ := some_twin hφ (hc.good hr h hh).1 (side h hh)
          (hf.vals (h, w) (by simp only [clauseVals, List.mem_map]; exact ⟨w, k1, rfl⟩) q k2)
        refine .isIn (s1.1 k3) ?_
        rw [hwf.2, List.mem_filterMap]
        exact ⟨w, k1, by rw [kvec_eq, k2]; rfl⟩
    · intro k
      cases k with
      | isIn k1 k2 =>
        rw [hwf.2, List.mem_filterMap] at k2
        obtain ⟨w, hw, hwp⟩ := k2
        obtain ⟨q, hq⟩ := numberOf_legal (hwf.1.2 w hw)
        obtain ⟨s1, -, -⟩ := some_twin hφ (hc.good hr h hh).1 (side h hh)
          (hf.vals (h, w) (by simp only [clauseVals, List.mem_map]; exact ⟨w, hw, rfl⟩) q hq)
        rw [kvec_eq, hq] at hwp
        simp only [Option.map_some, Option.some.injEq] at hwp
        exact .isIn hw hq (s1.2 (by rw [k1, hwp]))
  | hr op l r =>
    have hl := hf.hps l (by simp [clauseHps])
    have hr' := hf.hps r (by simp [clauseHps])
    obtain ⟨l1, l2, l3⟩ := hc.good hr l hl
    obtain ⟨r1, r2, r3⟩ := hc.good hr r hr'
    rcases ht l hl with ⟨e1, e2⟩ | ⟨x, y, e1, est, ey, e2⟩
    · constructor
      · intro k; cases k with | rel k1 => rw [e1] at k1; cases k1
      · intro k; cases k with | rel k1 => rw [e2] at k1; cases k1
    · rcases ht r hr' with ⟨f1, f2⟩ | ⟨x', y', f1, fst, fy, f2⟩
      · constructor
        · intro k; cases k with | rel k1 k2 => rw [f1] at k2; cases k2
        · intro k; cases k with | rel k1 k2 => rw [f2] at k2; cases k2
      · obtain ⟨u, u', g1, g2, g3⟩ := toVal_twin hφ l1 l2 l3 est ey
        obtain ⟨w, w', j1, j2, j3⟩ := toVal_twin hφ r1 r2 r3 fst fy
        have hcmp := compares_iff op u w
        rw [onVals_twin hφ g3 j3 op] at hcmp
        constructor
        · intro k
          cases k with
          | rel k1 k2 k3 k4 k5 =>
            rw [e1] at k1
            rw [f1] at k2
            cases k1
            cases k2
            rw [denotes_iff l1 l3 est g1] at k3
            rw [denotes_iff r1 r3 fst j1] at k4
            subst k3 k4
            exact .rel e2 f2 g2 j2 (hcmp.1 k5)
        · intro k
          cases k with
          | rel k1 k2 k3 k4 k5 =>
            rw [e2] at k1
            rw [f2] at k2
            cases k1
            cases k2
            rw [g2] at k3
            rw [j2] at k4
            cases k3
            cases k4
            exact .rel e1 f1 ((denotes_iff l1 l3 est g1).2 rfl) ((denotes_iff r1 r3 fst j1).2 rfl) (hcmp.2 k5)
  | ha cs ih =>
    have h' : ∀ c ∈ cs, (ForbidsN a c ↔ Forbids a' c) := fun c hcm => ih c hcm (fine_and.1 hf c hcm)
    exact ⟨fun hh => by cases hh with | and k => exact .and (fun c hcm => (h' c hcm).1 (k c hcm)),
      fun hh => by cases hh with | and k => exact .and (fun c hcm => (h' c hcm).2 (k c hcm))⟩

theorem set_twin {n : Name} (hn : Known calls n) : (∃ y, a n = some y) ↔ ∃ q, a' n = some q := by
  obtain ⟨h, hh, rfl⟩ := hn
  rcases ht h hh with ⟨e1, e2⟩ | ⟨x, y, e1, -, -, e2⟩ <;> simp [e1, e2]

/-- The numbers are valid if and only if their twins are. -/
theorem valid_twin : ValidN calls a ↔ Valid calls a' := by
  have hwf := (reach_wf hr)
  have hh : ∀ c ∈ allConds calls, (HoldsN a c ↔ Holds a' c) := by
    intro c hcm
    have h0 := hwf.2.1 c hcm
    simp only [Cond.wf, Bool.and_eq_true] at h0
    exact holds_twin hφ hr hc ht c (fun l hl => ⟨wf0_lit h0.1 l hl, hc.conds c hcm l hl⟩)
  have hff : ∀ f ∈ allForbs calls, (ForbidsN a f ↔ Forbids a' f) := fun f hf => forbids_twin hφ hr hc ht f (fine_of hr hc hf)
  have hk : ∀ c ∈ allConds calls, ∀ n, childName c = some n → Known calls n := by
    intro c hcm n hn
    obtain ⟨x, hx, rfl, _⟩ := node_of_child hr hcm hn
    exact (reach_isNode hr x.name).1 (mem_names hx)
  constructor
  · intro hv
    refine ⟨fun n hn hcn => (set_twin hφ hr hc ht hn).1 (hv.roots n hn hcn), ?_, ?_, fun f hf hff' => hv.allowed f hf ((hff f hf).2 hff')⟩
    · intro c hcm n hn
      rw [← hh c hcm, ← hv.active c hcm n hn, set_twin hφ hr hc ht (hk c hcm n hn)]
    · intro h hhm q hq
      rcases ht h hhm with ⟨-, e2⟩ | ⟨x, y, -, hs, hy, e2⟩
      · rw [e2] at hq; cases hq
      · rw [e2] at hq
        cases hq
        obtain ⟨g1, g2, -⟩ := hc.good hr h hhm
        exact twin_legal hφ g1 g2 hs hy
  · intro hv
    refine ⟨fun n hn hcn => (set_twin hφ hr hc ht hn).2 (hv.roots n hn hcn), ?_, fun f hf hff' => hv.allowed f hf ((hff f hf).1 hff')⟩
    intro c hcm n hn
    rw [hh c hcm, ← hv.active c hcm n hn, set_twin hφ hr hc ht (hk c hcm n hn)]

end Twin

/-! ## The twin of one vector -/

noncomputable section
/-- The numbers among the values of the hyperparameters. -/
def numsOf (calls : List Call) (a : NumAssign) : List ℝ := (allHps calls).filterMap (fun h => a h.name)

/-- The twin of a vector of numbers. -/
def twinVec (s : Space) (φ : ℝ → Rat) (a : NumAssign) : Vec :=
  s.com.map (fun x => (a x.name).map (fun y => encQ x.hp.kind (φ y)))
end

theorem com_at (hr : Reach calls s) {h : HP} (hh : h ∈ allHps calls) :
    ∃ x, s.com[s.idx h.name]? = some x ∧ x.hp = h ∧ x.name = h.name := by
  have hn := (reach_isNode hr h.name).2 ⟨h, hh, rfl⟩
  have hlt : s.names.idxOf h.name < s.names.length := List.idxOf_lt_length_of_mem hn
  have hlt' : s.idx h.name < s.com.length := by simpa [Space.idx, idxOf, Space.names] using hlt
  refine ⟨s.com[s.idx h.name], List.getElem?_eq_getElem hlt', ?_⟩
  have e : s.com[s.idx h.name].name = h.name := by
    have : s.names[s.names.idxOf h.name] = h.name := List.getElem_idxOf hlt
    exact (List.getElem_map Node.name).symm.trans this
  obtain ⟨h1, h2, -⟩ := F64.node_hp hr (List.getElem_mem hlt')
  exact ⟨reach_hp_inj hr _ h1 _ hh (h2.trans e), e⟩

theorem twinVec_at (hr : Reach calls s) {φ : ℝ → Rat} {a : NumAssign} {h : HP} (hh : h ∈ allHps calls) :
    (twinVec s φ a).at (s.idx h.name) = (a h.name).map (fun y => encQ h.kind (φ y)) := by
  obtain ⟨x, hx, e, en⟩ := com_at hr hh
  unfold twinVec Vec.at
  rw [List.getD_eq_getElem?_getD, List.getElem?_map, hx]
  simp only [Option.map_some, Option.getD_some, e, en]

theorem twinVec_length (hr : Reach calls s) {φ : ℝ → Rat} {a : NumAssign} : (twinVec s φ a).length = s.len := by
  rw [(sinv_of_reach hr).len]
  simp [twinVec]

/-- A vector that stands for numbers has a twin, which represents the twins of the numbers. -/
theorem twin_exists (hr : Reach calls s) {lg : Scales} {R : ℝ → Prop} {φ : ℝ → Rat} {v : RVec} {a : NumAssign}
    (hv : Encodes lg calls s v a) (hR : ∀ y ∈ numsOf calls a, R y) :
    VTwin lg calls s R φ v (twinVec s φ a) ∧ (twinVec s φ a).length = s.len ∧
      ∀ a', Represents s (twinVec s φ a) a' → NTwin lg calls R φ a a' := by
  have hin : ∀ h ∈ allHps calls, ∀ y, a h.name = some y → R y := fun h hh y e => hR y (by
    unfold numsOf
    rw [List.mem_filterMap]
    exact ⟨h, hh, e⟩)
  refine ⟨fun h hh => ?_, twinVec_length hr, fun a' ha' h hh => ?_⟩
  · rw [twinVec_at hr hh]
    rcases hv.2 h hh with ⟨e1, e2⟩ | ⟨x, y, e1, e2, hs⟩
    · rw [e1, e2]; exact .inl ⟨rfl, rfl⟩
    · rw [e1, e2]; exact .inr ⟨x, y, rfl, hs, hin h hh y e2, rfl⟩
  · rw [← at_idx ha' ((reach_isNode hr h.name).2 ⟨h, hh, rfl⟩), twinVec_at hr hh]
    rcases hv.2 h hh with ⟨e1, e2⟩ | ⟨x, y, e1, e2, hs⟩
    · rw [e2]; exact .inl ⟨rfl, rfl⟩
    · rw [e2]; exact .inr ⟨x, y, rfl, hs, hin h hh y e2, rfl⟩

end Verif.Scaled
