import Verif.Props.AnyNum
import Verif.Lemmas.AnyNumLink
import Verif.Lemmas.AnyNumFree
import Verif.Props.Sample
import Verif.Props.Rebuild
import Verif.Props.F64Log
import Verif.Props.Scaled
import Verif.Spec.AnyNumInst

/-!
# C105: the arithmetics of the program
-/

set_option autoImplicit false
set_option linter.unusedSectionVars false

namespace Verif.AnyNum
open Verif Verif.Spec.Any Verif.F64
open Verif.Spec (Known Conditional childName At clauseHps clauseHpsL OwnClauses Tight WeaklyLayered Layered ParentOf Path OwnConds)

variable {calls : List Call} {s : Space}

/-! ## Exact numbers -/

theorem inClause_legal {f : Forb} {h : HP} {w : Val} (hi : InClause h w f) (hw : f.wf = true) : h.kind.legalValue w = true := by
  induction hi with
  | eq =>
    simp only [Forb.wf, Bool.and_eq_true] at hw
    exact hw.1.2
  | isIn hm =>
    simp only [Forb.wf, Bool.and_eq_true, List.all_eq_true] at hw
    exact hw.1.2 _ hm
  | @and fs f hm _ ih =>
    refine ih ?_
    simp only [Forb.wf] at hw
    clear ih
    induction fs with
    | nil => cases hm
    | cons d ds ihd =>
      simp only [Forb.wfL, Bool.and_eq_true] at hw
      rcases List.mem_cons.1 hm with rfl | hm
      · exact hw.1
      · exact ihd hm hw.2

theorem exact_legalClauses (h : Reach calls s) : LegalClauses exact calls := fun f hf _ _ hi =>
  inClause_legal hi ((reach_wf h).2.2 f hf)

/-- Entries are read in the same way. -/
theorem at_same (v : Vec) (i : Nat) : AVec.at v i = Vec.at v i := rfl

theorem any_congr {γ : Type} {xs : List γ} {p q : γ → Bool} (h : ∀ x ∈ xs, p x = q x) : xs.any p = xs.any q := by
  induction xs with
  | nil => rfl
  | cons x xs ih => rw [List.any_cons, List.any_cons, h x (by simp), ih (fun y hy => h y (by simp [hy]))]

theorem exact_fast (h : Reach calls s) (hown : OwnClauses calls) (v : Vec) :
    (fast exact s).any (fun f => onVec exact s.idx v f) = s.fast.any (fun f => f.onVec s.idx v) := by
  have hi := sinv_of_reach h
  have hmem : ∀ f, f ∈ s.dag.uncond ++ s.dag.condF ↔ f ∈ allForbs calls := fun f => hi.hist.forbs.mem_iff
  obtain ⟨fs, ho⟩ := merges h hown (exact_legalClauses h)
  have e1 : (fast exact s).any (fun f => onVec exact s.idx v f) = s.forbs.any (fun f => onVec exact s.idx v f) := by
    unfold fast
    rw [ho, Bool.eq_iff_iff]
    simp only
    rw [forb_any_iff, forb_any_iff, optimizedForbs_on (reach_hp_inj h) (fun f hf => hown f ((hmem f).1 hf)) ho]
    rfl
  have e2 : s.fast.any (fun f => f.onVec s.idx v) = s.forbs.any (fun f => f.onVec s.idx v) := by
    rw [Bool.eq_iff_iff, Verif.forb_any_iff, Verif.forb_any_iff, Verif.optimizedForbs_on (reach_hp_inj h)
      (fun f hf => hown f ((hmem f).1 hf)) (fun f hf => hi.hist.forbWf f ((hmem f).1 hf)) hi.fast]
    rfl
  rw [e1, e2]
  exact any_congr (fun f hf => exact_onVec f (hi.hist.forbWf f ((hmem f).1 hf)))

theorem exact_legalAt (v : Vec) (n : Name) : legalAt exact s v n = s.legalAt v n := by
  unfold legalAt Space.legalAt
  rw [at_same]
  cases s.hp? n <;> cases v.at (s.idx n) <;> rfl

theorem exact_checkConds (v : Vec) (al : Bool) : ∀ {cs : List CNode}, (∀ g ∈ cs, g.cond.wf0 = true) →
    checkConds exact s v al cs = Verif.checkConds s v al cs
  | [], _ => rfl
  | g :: cs, hg => by
    have ih := exact_checkConds v al (cs := cs) (fun g hgm => hg g (by simp [hgm]))
    have f1 : firstWith (fun e => !e.isSome) s v g.kids = Verif.firstWith (fun e => !isSet e) s v g.kids := rfl
    have f2 : firstWith (fun e => e.isSome) s v g.kids = Verif.firstWith isSet s v g.kids := rfl
    simp only [checkConds, Verif.checkConds, exact_satVec _ (hg g (by simp)), f1, f2, exact_legalAt, ih]
    split
    · rfl
    · split
      · rfl
      · cases Verif.firstWith isSet s v g.kids with
        | none => rfl
        | some n =>
          simp only
          rw [at_same]
          cases s.hp? n with
          | none => cases v.at (s.idx n) <;> rfl
          | some h => cases v.at (s.idx n) with
            | none => rfl
            | some q =>
              simp only
              rw [show exact.toVal h q = h.kind.toVal q from rfl]
              cases h.kind.toVal q <;> rfl

/-- **C105, exact numbers**: over exact numbers on linear scales the check and the batches of the sampler are those of
`Model/Space.lean` and `Model/Sample.lean`. -/
theorem C105_exact_check (h : Reach calls s) (hown : OwnClauses calls) (v : Vec) (al : Bool) : check exact s v al = s.check v al := by
  unfold check Space.check
  have f1 : firstWith (fun e => !e.isSome) s v s.dag.roots = Verif.firstWith (fun e => !isSet e) s v s.dag.roots := rfl
  rw [f1, exact_checkConds v al (fun g hg => group_wf h hg), exact_fast h hown]
  cases Verif.firstWith (fun e => !isSet e) s v s.dag.roots with
  | some n => rfl
  | none => cases Verif.checkConds s v al s.minConds <;> rfl

/-! ## Doubles on linear scales -/

theorem linear64_legalAt (v : Vec) (n : Name) : legalAt linear64 s v n = legalAt64 s v n := by
  unfold legalAt legalAt64
  rw [at_same]
  cases s.hp? n <;> cases v.at (s.idx n) <;> rfl

theorem linear64_checkConds (v : Vec) (al : Bool) : ∀ {cs : List CNode}, (∀ g ∈ cs, g.cond.wf0 = true) →
    checkConds linear64 s v al cs = checkConds64 s v al cs
  | [], _ => rfl
  | g :: cs, hg => by
    have ih := linear64_checkConds v al (cs := cs) (fun g hgm => hg g (by simp [hgm]))
    have f1 : firstWith (fun e => !e.isSome) s v g.kids = Verif.firstWith (fun e => !isSet e) s v g.kids := rfl
    have f2 : firstWith (fun e => e.isSome) s v g.kids = Verif.firstWith isSet s v g.kids := rfl
    simp only [checkConds, checkConds64, linear64_satVec _ (hg g (by simp)), f1, f2, linear64_legalAt, ih]
    split
    · rfl
    · split
      · rfl
      · cases Verif.firstWith isSet s v g.kids with
        | none => rfl
        | some n =>
          simp only
          rw [at_same]
          cases s.hp? n with
          | none => cases v.at (s.idx n) <;> rfl
          | some h => cases v.at (s.idx n) with
            | none => rfl
            | some q =>
              simp only
              rw [show linear64.toVal h q = toVal64 h.kind q from rfl]
              cases toVal64 h.kind q <;> rfl

/-- **C105, doubles on linear scales**: there the check is that of `Model/F64Space.lean`, whatever the bounds and the values are. -/
theorem C105_linear_check (h : Reach calls s) (v : Vec) (al : Bool) : check linear64 s v al = check64 s v al := by
  unfold check check64
  have f1 : firstWith (fun e => !e.isSome) s v s.dag.roots = Verif.firstWith (fun e => !isSet e) s v s.dag.roots := rfl
  obtain ⟨e1, e2⟩ := fast64_link h
  have e3 : (fast64 s).any (fun f => onVec64 s.idx v f) = (fast linear64 s).any (fun f => onVec linear64 s.idx v f) := by
    rw [e1, List.any_map]
    exact any_congr (fun f hf => (linear64_onVec f (e2 f hf)).symm)
  rw [f1, linear64_checkConds v al (fun g hg => group_wf h hg), e3]
  cases Verif.firstWith (fun e => !isSet e) s v s.dag.roots with
  | some n => rfl
  | none => cases checkConds64 s v al s.minConds <;> rfl

theorem drawn_legal {h : HP} (hw : h.wf = true) (hs : ∀ l u, h.kind = .int l u → |l| < 2 ^ 49 ∧ |u| < 2 ^ 49) {q : Rat}
    (hq : Spec.Drawn h.kind q) : legalVec64 h.kind q = true := by
  cases hk : h.kind with
  | cat cs =>
    rw [hk] at hq
    obtain ⟨i, hi, rfl⟩ := hq
    simp [legalVec64, Kind.legalVec, hi, closeToInt_nat]
  | ord cs =>
    rw [hk] at hq
    obtain ⟨i, hi, rfl⟩ := hq
    simp [legalVec64, Kind.legalVec, hi, closeToInt_nat]
  | const c =>
    rw [hk] at hq
    exact decide_eq_true hq
  | int l u =>
    rw [hk] at hq
    obtain ⟨n, h1, h2, rfl⟩ := hq
    obtain ⟨hl, hu⟩ := hs l u hk
    exact decide_eq_true (C75_int_legal hl.le hu.le (wf_int' hw hk) h1 h2).1
  | flt l u =>
    rw [hk] at hq
    simp [legalVec64, Kind.legalVec, hq.2.1, hq.2.2]

theorem drawn_legalDraws (h : Reach calls s) (hsm : Spec.SmallInts calls) {rng : Nat → Nat → AMat Rat} (hd : DrawnDraws calls s rng) :
    LegalDraws linear64 calls s rng :=
  ⟨hd.1, fun b w x hx i row hi hr e he => by
    obtain ⟨q, rfl, hq⟩ := hd.2 b w x hx i row hi hr e he
    exact ⟨q, rfl, drawn_legal ((reach_wf h).1 x hx) (hsm x hx) hq⟩⟩

/-- **C105, doubles on linear scales** (partial: weakly layered conditions): every configuration that is drawn in doubles passes
`check_configuration` in doubles. -/
theorem C105_linear_samples_partial (h : Reach calls s) (hw : WeaklyLayered calls) (hown : OwnClauses calls) (hsm : Spec.SmallInts calls)
    {rng : Nat → Nat → AMat Rat} (hd : DrawnDraws calls s rng) {fuel size : Nat} {vs : List Vec}
    (hs : sample linear64 s rng fuel size = some vs) : ∀ v ∈ vs, check64 s v = none := by
  intro v hv
  rw [← C105_linear_check h]
  exact C105_samples_pass_check_partial h hw hown (drawn_legalDraws h hsm hd) hs v hv

open Classical in
theorem sampled_drawn (h : Reach calls s) {rng : Nat → Nat → AMat Rat} (hd : DrawnDraws calls s rng) {fuel size : Nat} {vs : List Vec}
    (hs : sample linear64 s rng fuel size = some vs) : ∀ v ∈ vs, Spec.DrawnVector calls s v := by
  intro v hv
  obtain ⟨b, w, hm⟩ := sample_mem hs v hv
  obtain ⟨hlen, -⟩ := batch_allowed h (hd.1 b w).2 (hd.1 b w).1 hm
  obtain ⟨u, hu, he, _, _⟩ := (batch_mem h (hd.1 b w).2 (hd.1 b w).1).1 hm
  refine ⟨hlen, ?_⟩
  intro x hx q hq
  let B : Arith Rat Val := { linear64 with legalVec := fun y r => @decide (Spec.Drawn y.kind r) (Classical.propDecidable _) }
  have hd' : LegalDraws B calls s rng := ⟨hd.1, fun b w y hy i row hi hr e he => by
    obtain ⟨q, rfl, hq⟩ := hd.2 b w y hy i row hi hr e he
    exact ⟨q, rfl, decide_eq_true hq⟩⟩
  have hxn := (reach_isNode h x.name).2 ⟨x, hx, rfl⟩
  obtain ⟨p, hp, hlp⟩ := legal_column h hd' hu hx
  rcases maskFold_values (A := linear64) h hxn s.minConds u (fun _ hc => hc) with k | k
  · have k' : v.at (s.idx x.name) = none := by rw [he]; exact k
    rw [k'] at hq; cases hq
  · have k' : v.at (s.idx x.name) = u.at (s.idx x.name) := by rw [he]; exact k
    rw [k', hp] at hq
    cases hq
    exact of_decide_eq_true hlp

/-- **C105 with C103** (partial: weakly layered conditions, and no condition and no clause looks at a float hyperparameter): every
configuration that is drawn in doubles can be made again from its dictionary, and has the same dictionary then. -/
theorem C105_samples_rebuilt_partial (h : Reach calls s) (hw : WeaklyLayered calls) (hown : OwnClauses calls) (hsm : Spec.SmallInts calls)
    (hb : Spec.KeptBounds calls) (hff : Spec.FloatFree calls) {rng : Nat → Nat → AMat Rat} (hd : DrawnDraws calls s rng) {fuel size : Nat}
    {vs : List Vec} (hs : sample linear64 s rng fuel size = some vs) :
    ∀ v ∈ vs, ∃ d c', dict64 s ⟨v, none, false⟩ = .ok d ∧ ofValues64 s d = .ok c' ∧ dict64 s c' = .ok d ∧
      Spec.SameButFloats calls s v c'.vec := fun v hv =>
  Rebuild.C103_drawn_partial h hb hsm hff (sampled_drawn h hd hs v hv) (C105_linear_samples_partial h hw hown hsm hd hs v hv)

theorem linear64_equalEntries (calls : List Call) : EqualEntries linear64 calls := by
  intro h _ v w hvw
  show (toVec64 h.kind v).getD 0 = (toVec64 h.kind w).getD 0
  cases hk : h.kind <;> simp only [toVec64, Val.num_of_pyEq hvw, toVec_of_pyEq hvw]

/-- The entries of values that may be assigned are numbers that a sampler puts into vectors. -/
theorem drawn_entry {h : HP} (hb : ∀ l u, h.kind = .flt l u → rd l < rd u) {w : Val} (hwv : Assignable h.kind w) :
    Spec.Drawn h.kind (linear64.toVec h w) := by
  show Spec.Drawn h.kind ((toVec64 h.kind w).getD 0)
  have hchoice : ∀ cs : List Val, (∃ c ∈ cs, c.pyEq w = true) → ∃ i : Nat, seqIndex cs w = some i ∧ i < cs.length := by
    rintro cs ⟨c, hc, e⟩
    obtain ⟨i, hi⟩ := seqIndex_isSome (pyIn_iff.2 ⟨c, hc, e⟩)
    exact ⟨i, hi, Scaled.seqIndex_lt hi⟩
  cases hk : h.kind with
  | cat cs =>
    rw [hk] at hwv
    obtain ⟨i, hi, h3⟩ := hchoice cs hwv
    exact ⟨i, h3, by simp [toVec64, Kind.toVec, hi]⟩
  | ord cs =>
    rw [hk] at hwv
    obtain ⟨i, hi, h3⟩ := hchoice cs hwv
    exact ⟨i, h3, by simp [toVec64, Kind.toVec, hi]⟩
  | const c =>
    rw [hk] at hwv
    have hwv' : w.pyEq c = true := hwv
    show (toVec64 (.const c) w).getD 0 = 1
    simp [toVec64, Kind.toVec, hwv']
  | int l u =>
    rw [hk] at hwv
    obtain ⟨n, hn, h1, h2⟩ := hwv
    exact ⟨n, h1, h2, by simp [toVec64, hn]; rfl⟩
  | flt l u =>
    rw [hk] at hwv
    obtain ⟨q, hq, h1, h2⟩ := hwv
    have e : (toVec64 (.flt l u) w).getD 0 = toVecFlt (rd l) (rd u) (rd q) := by simp [toVec64, hq]
    rw [e]
    refine ⟨?_, C75_vector_in_unit (isF64_rd _) (isF64_rd _) (hb l u hk) (rd_mono h1) (rd_mono h2)⟩
    unfold toVecFlt F64.normalize
    split
    · exact isF64_rd _
    · exact isF64_rd _

open Classical in
/-- **C105, doubles on linear scales** (partial: the conditions are literals and weakly layered): every vector of drawn numbers that
`check_configuration` accepts is returned for some outcome of the generator. -/
theorem C105_linear_every_drawn_partial (h : Reach calls s) (ho : OwnConds calls) (hlit : ∀ c ∈ allConds calls, ∃ l, c = .lit l)
    (hw : WeaklyLayered calls) (hown : OwnClauses calls) (hl : LegalClauses linear64 calls) (hb : Spec.KeptBounds calls)
    (hp : ∀ x ∈ allHps calls, Assignable x.kind x.default) {v : Vec} (hv : Spec.DrawnVector calls s v) (hchk : check64 s v = none) :
    ∃ rng, DrawnDraws calls s rng ∧ sample linear64 s rng 1 1 = some [v] := by
  have hsep := C105_literals_separable h ho (linear64_equalEntries calls) hlit
  let B : Arith Rat Val := linear64.withLegal (fun y r => decide (Spec.Drawn y.kind r))
  have hrep : Represents s v (asg s.idx v) := represents_asg h hv.1
  rw [← C105_linear_check h] at hchk
  obtain ⟨h1, h2, _, h4⟩ := (C105_check_partial h hsep hown hl hrep).1 hchk
  have hholds : ∀ a c, Holds B a c ↔ Holds linear64 a c := fun a c =>
    ⟨fun k => by induction k with
      | lit k => exact .lit k
      | and _ ih => exact .and ih
      | or hm _ ih => exact .or hm ih,
    fun k => by induction k with
      | lit k => exact .lit k
      | and _ ih => exact .and ih
      | or hm _ ih => exact .or hm ih⟩
  have hforb : ∀ a f, Forbids B a f → Forbids linear64 a f := fun a f k => by
    induction k with
    | eq k => exact .eq k
    | isIn hm k => exact .isIn hm k
    | rel a b c d e => exact .rel a b c d e
    | and _ ih => exact .and ih
  have hval : Valid B calls (asg s.idx v) := by
    refine ⟨h1, fun c hc n hn => (h2 c hc n hn).trans (hholds _ _).symm, ?_, fun f hf k => h4 f hf (hforb _ _ k)⟩
    intro x hx q hq
    exact decide_eq_true (hv.2 x hx q hq)
  have hsepB : Separable B calls := fun c hc d hd e a => ((hholds a c).trans (hsep c hc d hd e a)).trans (hholds a d).symm
  have hdef : LegalDefaults B calls := fun x hx => decide_eq_true (drawn_entry (fun l u hk => (hb x hx l u hk).2.2) (hp x hx))
  obtain ⟨rng, hd, hs⟩ := C105_every_valid_sampled_partial h hsepB hw hdef (lt_of_lt_of_le (by decide) (le_max_right _ 5)) hrep hval
  refine ⟨rng, ⟨hd.1, fun b w x hx i row hi hr e he => ?_⟩, by rwa [sample_free] at hs⟩
  obtain ⟨q, rfl, hq⟩ := hd.2 b w x hx i row hi hr e he
  exact ⟨q, rfl, of_decide_eq_true hq⟩

/-! ## Doubles on linear and logarithmic scales -/

section
variable {lg ex : ℝ → ℝ} {log : Scaled.Scales}

/-- Values that are equal in Python have the same entry. -/
theorem doubles_equalEntries (calls : List Call) : EqualEntries (doubles lg ex log) calls := by
  intro h _ v w hvw
  show (toVecD lg (log h) h.kind v).getD 0 = (toVecD lg (log h) h.kind w).getD 0
  cases hk : h.kind <;> simp only [toVecD, Val.num_of_pyEq hvw, toVec_of_pyEq hvw]

/-- **C105, doubles on linear and logarithmic scales** (partial: the conditions are literals on hyperparameters of the space): whatever
functions `np.log` and `np.exp` are, `check_configuration` accepts a vector exactly if the unconditional hyperparameters are set, the
conditional ones exactly when their condition holds and then with a legal entry, and no clause forbids it. -/
theorem C105_double_check_partial (h : Reach calls s) (ho : OwnConds calls) (hlit : ∀ c ∈ allConds calls, ∃ l, c = .lit l)
    (hown : OwnClauses calls) (hl : LegalClauses (doubles lg ex log) calls) {v : AVec ℝ} {a : Entries ℝ} (hv : Represents s v a) :
    check (doubles lg ex log) s v = none ↔ RootsSet calls a ∧ ActivityOk (doubles lg ex log) calls a ∧
      LegalConditional (doubles lg ex log) calls a ∧ NotForbidden (doubles lg ex log) calls a :=
  C105_check_partial h (C105_literals_separable h ho (doubles_equalEntries calls) hlit) hown hl hv

/-- **C105, doubles on linear and logarithmic scales** (partial: also, weakly layered conditions): whatever functions `np.log` and
`np.exp` are, every configuration that is drawn is valid and passes `check_configuration`. -/
theorem C105_double_samples_partial (h : Reach calls s) (ho : OwnConds calls) (hlit : ∀ c ∈ allConds calls, ∃ l, c = .lit l)
    (hw : WeaklyLayered calls) (hown : OwnClauses calls) {rng : Nat → Nat → AMat ℝ} (hd : LegalDraws (doubles lg ex log) calls s rng)
    {fuel size : Nat} {vs : List (AVec ℝ)} (hs : sample (doubles lg ex log) s rng fuel size = some vs) :
    vs.length = size ∧ ∀ v ∈ vs, check (doubles lg ex log) s v = none ∧ ∃ a, Represents s v a ∧ Valid (doubles lg ex log) calls a :=
  ⟨C105_sample_count hs, fun v hv => ⟨C105_samples_pass_check_partial h hw hown hd hs v hv,
    C105_samples_valid_partial h (C105_literals_separable h ho (doubles_equalEntries calls) hlit) hw hd hs v hv⟩⟩

theorem closeToInt_real (n : Int) : F64.closeToInt (n : ℝ) := by
  unfold F64.closeToInt
  rw [rintK_eq (n := n) (by rw [sub_self, abs_zero]; norm_num), sub_self, abs_zero, rd_zero]
  exact rd_nonneg (add_nonneg (rd_nonneg (by norm_num)) (rd_nonneg (mul_nonneg (rd_nonneg (by norm_num)) (abs_nonneg _))))

open Classical in
/-- The entries of values that may be assigned are legal, and so are these values. -/
theorem double_legal (ha : Accurate lg ex) {h : HP} (hw : h.wf = true) (hr : DoubleRange lg (log h) h.kind) {w : Val}
    (hwv : Assignable h.kind w) : (doubles lg ex log).legalVec h ((doubles lg ex log).toVec h w) = true ∧
      (doubles lg ex log).legalValue h w = true := by
  show legalVecD lg ex (log h) h.kind ((toVecD lg (log h) h.kind w).getD 0) = true ∧ legalValueD h.kind w = true
  generalize log h = b at hr ⊢
  have hchoice : ∀ cs : List Val, (∃ c ∈ cs, c.pyEq w = true) → w.pyIn cs = true ∧
      ∃ i : Nat, seqIndex cs w = some i ∧ 0 ≤ ((i : Rat) : ℝ) ∧ ((i : Rat) : ℝ) < cs.length ∧ Num.closeToIntK ((i : Rat) : ℝ) := by
    rintro cs ⟨c, hc, e⟩
    have hin : w.pyIn cs = true := pyIn_iff.2 ⟨c, hc, e⟩
    obtain ⟨i, hi⟩ := seqIndex_isSome hin
    have hlt := Scaled.seqIndex_lt hi
    refine ⟨hin, i, hi, ?_⟩
    push_cast
    exact ⟨by positivity, by exact_mod_cast hlt, Scaled.closeToIntK_nat i⟩
  cases hk : h.kind with
  | cat cs =>
    rw [hk] at hwv
    obtain ⟨hin, i, hi, h3⟩ := hchoice cs hwv
    have e : toVecD lg b (.cat cs) w = some ((i : Rat) : ℝ) := by simp only [toVecD, Kind.toVec, hi, Option.map_some]
    rw [e]
    exact ⟨decide_eq_true h3, hin⟩
  | ord cs =>
    rw [hk] at hwv
    obtain ⟨hin, i, hi, h3⟩ := hchoice cs hwv
    have e : toVecD lg b (.ord cs) w = some ((i : Rat) : ℝ) := by simp only [toVecD, Kind.toVec, hi, Option.map_some]
    rw [e]
    exact ⟨decide_eq_true h3, hin⟩
  | const c =>
    rw [hk] at hwv
    have hwv' : w.pyEq c = true := hwv
    have e : toVecD lg b (.const c) w = some ((1 : Rat) : ℝ) := by simp only [toVecD, Kind.toVec, hwv', if_true, Option.map_some]
    rw [e]
    refine ⟨decide_eq_true ?_, hwv'⟩
    show ((1 : Rat) : ℝ) = 1
    norm_num
  | int l u =>
    rw [hk] at hwv hr
    obtain ⟨n, hn, h1, h2⟩ := hwv
    have hlu := wf_int' hw hk
    have hbig : |l| ≤ 2 ^ 49 ∧ |u| ≤ 2 ^ 49 := by
      simp only [DoubleRange] at hr
      cases b with
      | false => simpa using hr
      | true =>
        simp only [if_true] at hr
        rw [abs_le, abs_le]
        norm_num at *
        omega
    have hnb : |n| ≤ 2 ^ 49 := by
      have := abs_le.1 hbig.1
      have := abs_le.1 hbig.2
      rw [abs_le]
      omega
    have hval : legalValueD (.int l u) w = true := by
      simp only [legalValueD, hn, Rat.cast_intCast]
      refine decide_eq_true ?_
      unfold F64.legalInt
      rw [rd_int (hnb.trans (by norm_num)), rd_int (hbig.1.trans (by norm_num)), rd_int (hbig.2.trans (by norm_num)),
        rintK_eq (n := n) (by rw [sub_self, abs_zero]; norm_num)]
      exact ⟨by exact_mod_cast h1, by exact_mod_cast h2, closeToInt_real n⟩
    refine ⟨?_, hval⟩
    have e : toVecD lg b (.int l u) w = some (if b then toVecLogInt lg l u n else toVecInt l u n) := by
      simp only [toVecD, hn, Option.map_some, Rat.cast_intCast]
      rfl
    rw [e, Option.getD_some]
    refine decide_eq_true ?_
    cases b with
    | true =>
      have hr' : 1 ≤ l ∧ u ≤ 2 ^ 39 := hr
      exact (C75_log_int_round_trip ha hr'.1 hlu hr'.2 h1 h2).2
    | false => exact (C75_int_legal (K := ℝ) hbig.1 hbig.2 hlu h1 h2).1
  | flt l u =>
    rw [hk] at hwv hr
    obtain ⟨q, hq, h1, h2⟩ := hwv
    obtain ⟨hlu, hpos⟩ := hr
    have m1 : rd (l : ℝ) ≤ rd (q : ℝ) := rd_mono (by exact_mod_cast h1)
    have m2 : rd (q : ℝ) ≤ rd (u : ℝ) := rd_mono (by exact_mod_cast h2)
    have e : toVecD lg b (.flt l u) w = some (if b then toVecLog lg (rd (l : ℝ)) (rd (u : ℝ)) (rd (q : ℝ)) else toVecFlt (rd (l : ℝ)) (rd (u : ℝ)) (rd (q : ℝ))) := by
      simp only [toVecD, hq, Option.map_some]
    have hval : legalValueD (.flt l u) w = true := by
      simp only [legalValueD, hq]
      exact decide_eq_true ⟨m1, m2⟩
    refine ⟨?_, hval⟩
    rw [e, Option.getD_some]
    refine decide_eq_true ?_
    cases b with
    | true =>
      obtain ⟨p1, p2⟩ := hpos rfl
      exact (C75_log_vector ha p1 p2 hlu).1 _ m1 m2
    | false => exact C75_vector_in_unit (isF64_rd _) (isF64_rd _) hlu m1 m2

theorem inClause_mem {f : Forb} {h : HP} {w : Val} (hi : InClause h w f) : h ∈ clauseHps f := by
  induction hi with
  | eq => simp [clauseHps]
  | isIn _ => simp [clauseHps]
  | and hm _ ih =>
    simp only [clauseHps]
    exact mem_clauseHpsL.2 ⟨_, hm, ih⟩

/-- **C105, doubles**: if the functions are accurate and the ranges survive rounding then the defaults have legal entries and the values
of the clauses are legal. -/
theorem double_defaults (ha : Accurate lg ex) (h : Reach calls s) (hr : DoubleRanges lg log calls) (hp : PlainValues calls) :
    LegalDefaults (doubles lg ex log) calls := fun x hx =>
  (double_legal ha ((reach_wf h).1 x hx) (hr x hx) (hp.1 x hx)).1

theorem double_clauses (ha : Accurate lg ex) (h : Reach calls s) (hown : OwnClauses calls) (hr : DoubleRanges lg log calls)
    (hp : PlainValues calls) : LegalClauses (doubles lg ex log) calls := fun f hf x w hi =>
  have hx := hown f hf x (inClause_mem hi)
  (double_legal ha ((reach_wf h).1 x hx) (hr x hx) (hp.2 f hf x w hi)).2

/-- **C105, doubles on linear and logarithmic scales** (partial: the conditions are literals and weakly layered, the ranges survive
rounding): every valid vector can be drawn. -/
theorem C105_double_every_valid_sampled_partial (ha : Accurate lg ex) (h : Reach calls s) (ho : OwnConds calls)
    (hlit : ∀ c ∈ allConds calls, ∃ l, c = .lit l) (hw : WeaklyLayered calls) (hr : DoubleRanges lg log calls) (hp : PlainValues calls)
    {v : AVec ℝ} {a : Entries ℝ} (hv : Represents s v a) (hval : Valid (doubles lg ex log) calls a) :
    ∃ rng, LegalDraws (doubles lg ex log) calls s rng ∧ sample (doubles lg ex log) s rng 1 1 = some [v] :=
  C105_every_valid_sampled_partial h (C105_literals_separable h ho (doubles_equalEntries calls) hlit) hw (double_defaults ha h hr hp)
    (lt_of_lt_of_le (by decide) (le_max_right _ 5)) hv hval

/-- **C105, doubles on linear and logarithmic scales** (partial, as above): `config[name] = value`, for a whole number within the bounds of
an integer range, a number within the bounds of a float range, a choice or the constant, either makes the vector with the entry of
that value, in which other entries only change below `name`, or raises `ForbiddenValueError` and changes nothing; which of both is decided
by the clauses. -/
theorem C105_double_assign_partial (ha : Accurate lg ex) (h : Reach calls s) (ho : OwnConds calls)
    (hlit : ∀ c ∈ allConds calls, ∃ l, c = .lit l) (hw : WeaklyLayered calls) (hown : OwnClauses calls) (hr : DoubleRanges lg log calls)
    (hp : PlainValues calls) {v : AVec ℝ} {a : Entries ℝ} (hv : Represents s v a) (hchk : check (doubles lg ex log) s v = none)
    {y : HP} (hy : y ∈ allHps calls) (hset : ∃ q, a y.name = some q) {w : Val} (hwv : Assignable y.kind w) :
    ∃ v' b, Represents s v' b ∧ b y.name = some ((doubles lg ex log).toVec y w) ∧ ActivityOk (doubles lg ex log) calls b ∧
      (∀ m, Known calls m → m ≠ y.name → ¬ Path (ParentOf calls) y.name m → b m = a m) ∧
      ((NotForbidden (doubles lg ex log) calls b ∧ check (doubles lg ex log) s v' = none ∧
          setItem (doubles lg ex log) s v y.name w = (v', none)) ∨
        (¬ NotForbidden (doubles lg ex log) calls b ∧ setItem (doubles lg ex log) s v y.name w = (v, some .forbidden))) := by
  have hl := double_legal (log := log) ha ((reach_wf h).1 y hy) (hr y hy) hwv
  rcases C105_assign_partial h (C105_literals_separable h ho (doubles_equalEntries calls) hlit) hown (double_clauses ha h hown hr hp)
    (double_defaults ha h hr hp) hw hv hchk hy hset (w := w) (fun _ => hl.1) with ⟨h1, _⟩ | ⟨_, h2⟩
  · rw [hl.2] at h1; cases h1
  · exact h2

end

/-! ## Examples -/

namespace ExAn
open _root_.Verif.Scaled.ExL (hpOpt hpLr hpN litN forbS forbL callM spM reachM hpM)

theorem litsN : ∀ c ∈ allConds [Rebuild.ExZ.callN], ∃ l, c = .lit l := by
  intro c hc
  simp only [allConds, Rebuild.ExZ.callN, List.flatMap_cons, List.flatMap_nil, List.append_nil, List.mem_singleton] at hc
  exact ⟨_, hc⟩

theorem ownN : OwnConds [Rebuild.ExZ.callN] := by
  intro c hc l hl
  simp only [allConds, Rebuild.ExZ.callN, List.flatMap_cons, List.flatMap_nil, List.append_nil, List.mem_singleton] at hc
  subst hc
  simp only [Cond.dlcs, List.mem_singleton] at hl
  subst hl
  decide +kernel

theorem noForbsN : allForbs [Rebuild.ExZ.callN] = [] := rfl

theorem weaklyN : WeaklyLayered [Rebuild.ExZ.callN] := weaklyLayered_of_check Rebuild.ExZ.reachN (by decide +kernel)

theorem plainN : ∀ x ∈ allHps [Rebuild.ExZ.callN], Assignable x.kind x.default := by
  intro x hx
  rcases Rebuild.ExZ.memN hx with rfl | rfl | rfl
  · exact ⟨1 / 4, rfl, by norm_num, by norm_num⟩
  · exact ⟨.str "a", by simp, by decide +kernel⟩
  · exact ⟨3, rfl, by norm_num, by norm_num⟩

/-- The vector `c = "a"`, `f` just above one half, `n = 4` can be drawn in doubles. -/
theorem sampledN : ∃ rng, DrawnDraws [Rebuild.ExZ.callN] Rebuild.ExZ.spN rng ∧
    sample linear64 Rebuild.ExZ.spN rng 1 1 = some [Rebuild.ExZ.vecN] :=
  C105_linear_every_drawn_partial Rebuild.ExZ.reachN ownN litsN weaklyN (by intro f hf; rw [noForbsN] at hf; cases hf)
    (by intro f hf; rw [noForbsN] at hf; cases hf) Rebuild.ExZ.keptN plainN Rebuild.ExZ.drawnN Rebuild.ExZ.checkN

/-- So the hypotheses of `C105_samples_rebuilt_partial` can be met. -/
example : ∃ d c', dict64 Rebuild.ExZ.spN ⟨Rebuild.ExZ.vecN, none, false⟩ = .ok d ∧ ofValues64 Rebuild.ExZ.spN d = .ok c' ∧
    dict64 Rebuild.ExZ.spN c' = .ok d ∧ Spec.SameButFloats [Rebuild.ExZ.callN] Rebuild.ExZ.spN Rebuild.ExZ.vecN c'.vec := by
  obtain ⟨rng, hd, hs⟩ := sampledN
  exact C105_samples_rebuilt_partial Rebuild.ExZ.reachN weaklyN (by intro f hf; rw [noForbsN] at hf; cases hf) Rebuild.ExZ.smallN
    Rebuild.ExZ.keptN Rebuild.ExZ.freeN hd hs _ (by simp)

/-! An integer range `m` from 49 to 60 on a logarithmic scale that is active if `opt` is `"adam"`, in doubles with correctly rounded
logarithms. -/

noncomputable abbrev lgR : ℝ → ℝ := fun x => rd (Real.log x)
noncomputable abbrev exR : ℝ → ℝ := fun y => rd (Real.exp y)
abbrev logM : Scaled.Scales := fun h => decide (h.name = "m")
noncomputable abbrev D : Arith ℝ Scaled.RVal := doubles lgR exR logM

theorem memM {h : HP} (hh : h ∈ allHps [callM]) : h = hpOpt ∨ h = hpM := by simpa [allHps, callM] using hh

theorem litsM : ∀ c ∈ allConds [callM], ∃ l, c = .lit l := by
  intro c hc
  simp only [allConds, callM, List.flatMap_cons, List.flatMap_nil, List.append_nil, List.mem_singleton] at hc
  exact ⟨_, hc⟩

theorem ownM : OwnConds [callM] := by
  intro c hc l hl
  simp only [allConds, callM, List.flatMap_cons, List.flatMap_nil, List.append_nil, List.mem_singleton] at hc
  subst hc
  simp only [Cond.dlcs, List.mem_singleton] at hl
  subst hl
  decide +kernel

theorem weaklyM : WeaklyLayered [callM] := weaklyLayered_of_check reachM (by decide +kernel)

theorem ownForbsM : OwnClauses [callM] := by intro f hf; simp [allForbs, callM] at hf

theorem rangesM : DoubleRanges lgR logM [callM] := by
  intro h hh
  rcases memM hh with rfl | rfl
  · trivial
  · show (if logM hpM = true then (1 : Int) ≤ 49 ∧ (60 : Int) ≤ 2 ^ 39 else |(49 : Int)| ≤ 2 ^ 49 ∧ |(60 : Int)| ≤ 2 ^ 49)
    rw [if_pos (by decide)]
    norm_num

theorem plainM : PlainValues [callM] := by
  refine ⟨?_, by intro f hf; simp [allForbs, callM] at hf⟩
  intro h hh
  rcases memM hh with rfl | rfl
  · exact ⟨.str "adam", by simp, by decide +kernel⟩
  · exact ⟨50, rfl, by norm_num, by norm_num⟩

/-- `opt = "adam"` and `m = 50`. -/
noncomputable def aM : Entries ℝ := fun n => if n = "opt" then some 0 else if n = "m" then some (D.toVec hpM (.int 50)) else none
noncomputable def vM : AVec ℝ := [some 0, some (D.toVec hpM (.int 50))]

theorem idxM : spM.idx "opt" = 0 ∧ spM.idx "m" = 1 ∧ spM.len = 2 ∧ spM.names = ["opt", "m"] := by decide +kernel

theorem repM : Represents spM vM aM := by
  refine ⟨by rw [idxM.2.2.1]; rfl, ?_⟩
  intro i n hi
  unfold At at hi
  rw [idxM.2.2.2] at hi
  match i, hi with
  | 0, hi => cases hi; rfl
  | 1, hi => cases hi; rfl
  | i + 2, hi => simp at hi

theorem adam : D.toVec hpOpt (.str "adam") = 0 := by
  show (((hpOpt.kind.toVec (.str "adam")).map (fun q : Rat => (q : ℝ)))).getD 0 = 0
  have : hpOpt.kind.toVec (.str "adam") = some 0 := by decide +kernel
  rw [this]
  simp

theorem validM : Valid D [callM] aM := by
  refine ⟨?_, ?_, ?_, by intro f hf; simp [allForbs, callM] at hf⟩
  · rintro n ⟨h, hh, rfl⟩ _
    rcases memM hh with rfl | rfl
    · exact ⟨_, rfl⟩
    · exact ⟨_, rfl⟩
  · intro c hc n hn
    simp only [allConds, callM, List.flatMap_cons, List.flatMap_nil, List.append_nil, List.mem_singleton] at hc
    subst hc
    have : some "m" = some n := hn
    cases this
    refine iff_of_true ⟨_, rfl⟩ (.lit ?_)
    show aM "opt" = some (D.toVec hpOpt (.str "adam"))
    rw [adam]
    rfl
  · intro h hh q hq
    rcases memM hh with rfl | rfl
    · have e : some (0 : ℝ) = some q := hq
      cases e
      have := (double_legal (lg := lgR) (ex := exR) (log := logM) accurate_rd ((reach_wf reachM).1 _ hh) (rangesM _ hh) (plainM.1 _ hh)).1
      have e : D.toVec hpOpt hpOpt.default = 0 := adam
      rwa [e] at this
    · have e : some (D.toVec hpM (.int 50)) = some q := hq
      cases e
      exact (double_legal (lg := lgR) (ex := exR) (log := logM) accurate_rd ((reach_wf reachM).1 _ hh) (rangesM _ hh) (plainM.1 _ hh)).1

/-- It can be drawn, so the hypotheses of the theorems about samples can be met. -/
example : ∃ rng, LegalDraws D [callM] spM rng ∧ sample D spM rng 1 1 = some [vM] :=
  C105_double_every_valid_sampled_partial accurate_rd reachM ownM litsM weaklyM rangesM plainM repM validM

theorem checkM : check D spM vM = none := by
  obtain ⟨rng, hd, hs⟩ := C105_double_every_valid_sampled_partial accurate_rd reachM ownM litsM weaklyM rangesM plainM repM validM
  exact ((C105_double_samples_partial reachM ownM litsM weaklyM ownForbsM hd hs).2 vM (by simp)).1

/-- `config["m"] = 57` stores the entry of `57`. -/
example : ∃ v', setItem D spM vM "m" (.int 57) = (v', none) ∧ ∃ b, Represents spM v' b ∧ b "m" = some (D.toVec hpM (.int 57)) := by
  have hm : hpM ∈ allHps [callM] := by simp [allHps, callM]
  obtain ⟨v', b, h1, h2, _, _, h3⟩ := C105_double_assign_partial accurate_rd reachM ownM litsM weaklyM ownForbsM rangesM plainM repM checkM
    hm ⟨_, rfl⟩ (w := .int 57) ⟨57, rfl, by norm_num, by norm_num⟩
  rcases h3 with ⟨_, _, h3⟩ | ⟨h3, _⟩
  · exact ⟨v', h3, b, h1, h2⟩
  · exact absurd (fun f hf => by simp [allForbs, callM] at hf) h3

/-! Exact numbers: the learning rate, the optimiser and the number of layers, with two clauses. -/

theorem exact_equalEntries (calls : List Call) : EqualEntries exact calls := by
  intro h _ v w hvw
  show (h.kind.toVec v).getD 0 = (h.kind.toVec w).getD 0
  rw [toVec_of_pyEq hvw]

theorem litsE : ∀ c ∈ allConds [Scaled.ExL.call], ∃ l, c = .lit l := by
  intro c hc
  simp only [allConds, Scaled.ExL.call, List.flatMap_cons, List.flatMap_nil, List.append_nil, List.mem_singleton] at hc
  exact ⟨_, hc⟩

theorem sepE : Separable exact [Scaled.ExL.call] :=
  C105_literals_separable Scaled.ExL.reach Scaled.ExL.ownC (exact_equalEntries _) litsE

/-- `lr = 0.1`, `opt = "sgd"`, `n = 8`. -/
def vE : AVec Rat := [some (11 / 111), some 1, some (1 / 9)]
/-- `lr = 0.1`, `opt = "sgd"`, `n = 4`: the first clause forbids it. -/
def wE : AVec Rat := [some (11 / 111), some 1, some (1 / 21)]

theorem repE (v : AVec Rat) (hv : v.length = 3) : Represents Scaled.ExL.sp v (asg Scaled.ExL.sp.idx v) :=
  represents_asg Scaled.ExL.reach (by rw [hv]; decide +kernel)

example : check exact Scaled.ExL.sp vE = none ∧ check exact Scaled.ExL.sp wE = some .forbidden := by
  constructor <;> with_unfolding_all rfl

/-- The first vector meets the hypotheses of `C105_check_partial`, and is valid. -/
example : RootsSet [Scaled.ExL.call] (asg Scaled.ExL.sp.idx vE) ∧ NotForbidden exact [Scaled.ExL.call] (asg Scaled.ExL.sp.idx vE) := by
  have := (C105_check_partial Scaled.ExL.reach sepE Scaled.ExL.own (exact_legalClauses Scaled.ExL.reach) (repE vE rfl)).1
    (by with_unfolding_all rfl)
  exact ⟨this.1, this.2.2.2⟩

/-- A clause forbids the second one. -/
example : ∃ f ∈ allForbs [Scaled.ExL.call], Forbids exact (asg Scaled.ExL.sp.idx wE) f :=
  (C105_merged_clauses Scaled.ExL.reach Scaled.ExL.own (exact_legalClauses Scaled.ExL.reach) (repE wE rfl)).1 (by with_unfolding_all rfl)

/-- The slow validator agrees. -/
example : Valid exact [Scaled.ExL.call] (asg Scaled.ExL.sp.idx vE) := by
  refine (C105_rigorous_partial Scaled.ExL.reach sepE ?_ (repE vE rfl)).1 (by with_unfolding_all rfl)
  intro c hc
  simp only [allConds, Scaled.ExL.call, List.flatMap_cons, List.flatMap_nil, List.append_nil, List.mem_singleton] at hc
  subst hc
  refine .pos ?_
  rintro ⟨w, x, e⟩
  cases e

end ExAn

end Verif.AnyNum
