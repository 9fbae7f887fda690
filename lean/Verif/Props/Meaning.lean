import Verif.Lemmas.EvalVal
import Verif.Examples

/-!
# C13, C14, C15: values, vectors and equality of conditions
-/

set_option autoImplicit false

namespace Verif
open Verif.Spec

/-- **C13** (partial: a `NotEqualsCondition` must have its parent set, see the counterexample below).
On a dictionary of legal values and the vector of the same configuration, `satisfied_by_value` and
`satisfied_by_vector` give the same answer and no exception. -/
theorem C13_value_eq_vector_partial (c : Cond) (hc : c.wf = true) (d : Dict) (idx : Name → Nat) (v : Vec)
    (ha : ∀ l ∈ c.dlcs, Agree d idx v l.parent)
    (hne : ∀ l ∈ c.dlcs, IsNotEquals l → SetIn d l.parent.name) :
    c.satVal d = .ok (c.satVec idx v) := by
  simp only [Cond.wf, Bool.and_eq_true] at hc
  exact cond_satVal c (fun l hl => lit_satVal (wf0_lit hc.1 l hl) (ha l hl) (hne l hl))

/-- **C13.** An unset parent makes a literal other than `NotEquals` false on values and on vectors. -/
theorem C13_unset_parent_false (l : Lit) (d : Dict) (idx : Name → Nat) (v : Vec)
    (hd : d.lookup l.parent.name = some none) (hv : v.at (idx l.parent.name) = none)
    (hne : ¬ IsNotEquals l) :
    (Cond.lit l).satVal d = .ok false ∧ (Cond.lit l).satVec idx v = false := by
  refine ⟨by simp [Cond.satVal, Lit.satVal, Dict.get, hd, bind, Except.bind], ?_⟩
  simp only [Cond.satVec, hv]
  cases ht : l.test with
  | isIn vs xs => rfl
  | bin op w x =>
    cases op with
    | ne => exact absurd ⟨w, x, ht⟩ hne
    | eq => rfl
    | lt => rfl
    | gt => rfl

/-- The dictionary and vector of a configuration in which `x` is unset. -/
example : (Ex.condX).satVal [("alg", some (.str "a")), ("k", some (.int 2)), ("x", none)]
    = .ok (Ex.condX.satVec Ex.sp1.idx [some 0, some 1, some (1/9), some 1, none]) := by
  refine C13_value_eq_vector_partial _ (by decide +kernel) _ _ _ ?_ ?_
  · intro l hl
    simp only [Ex.condX, Cond.dlcs, Cond.dlcsL, List.append_nil, List.cons_append, List.nil_append,
      List.mem_cons, List.not_mem_nil, or_false] at hl
    rcases hl with rfl | rfl
    · exact .inr ⟨.int 2, 1/9, by decide +kernel, by decide +kernel, by decide +kernel, by decide +kernel⟩
    · exact .inr ⟨.str "a", 0, by decide +kernel, by decide +kernel, by decide +kernel, by decide +kernel⟩
  · intro l hl
    simp only [Ex.condX, Cond.dlcs, Cond.dlcsL, List.append_nil, List.cons_append, List.nil_append,
      List.mem_cons, List.not_mem_nil, or_false] at hl
    rcases hl with rfl | rfl
    · exact fun _ => ⟨_, rfl⟩
    · exact fun _ => ⟨_, rfl⟩

/-- `x | k != 2` -/
def Ex.litNe : Lit := ⟨Ex.hpX, Ex.hpK, .bin .ne (.int 2) (1/9)⟩

/-- **C13 fails** for `NotEqualsCondition` with an unset parent: false on values, true on vectors
(conditions.py:170 against conditions.py:160, `NaN != x`). -/
theorem C13_not_equals_unset_parent_differs :
    ∃ (l : Lit) (d : Dict) (idx : Name → Nat) (v : Vec), l.wf = true ∧ Agree d idx v l.parent ∧
      (Cond.lit l).satVal d = .ok false ∧ (Cond.lit l).satVec idx v = true :=
  ⟨Ex.litNe, [("k", none)], fun _ => 0, [none], by decide +kernel, .inl ⟨rfl, rfl⟩,
    by decide +kernel, by decide +kernel⟩

/-- **C14** (partial: values of integer hyperparameters in relations must be integers, see below).
On a dictionary of legal values and the vector of the same configuration, `is_forbidden_value` and
`is_forbidden_vector` give the same answer. -/
theorem C14_value_eq_vector_partial (f : Forb) (hf : f.wf = true) (d : List (Name × Val))
    (idx : Name → Nat) (v : Vec) (ha : ∀ h ∈ clauseHps f, AgreeV d idx v h)
    (he : ∀ h ∈ relHps f, ∀ w, d.lookup h.name = some w → ExactInt h.kind w) :
    f.onVal d = f.onVec idx v :=
  forb_onVal f hf ha he

/-- **C14.** Without relations between hyperparameters no restriction is needed. -/
theorem C14_value_eq_vector_no_relation (f : Forb) (hf : f.wf = true) (hr : relHps f = [])
    (d : List (Name × Val)) (idx : Name → Nat) (v : Vec) (ha : ∀ h ∈ clauseHps f, AgreeV d idx v h) :
    f.onVal d = f.onVec idx v :=
  forb_onVal f hf ha (by simp [hr])

/-- Second integer hyperparameter. -/
def Ex.hpJ : HP := ⟨"j", .int 1 10, .int 5⟩

example : (Forb.and [.rel .lt Ex.hpK Ex.hpJ, .eq Ex.hpAlg (.str "a") 0]).onVal
    [("k", .int 3), ("j", .int 5), ("alg", .str "a")] = true ∧
    (Forb.and [.rel .lt Ex.hpK Ex.hpJ, .eq Ex.hpAlg (.str "a") 0]).onVec
      (fun n => ["k", "j", "alg"].idxOf n) [some (2/9), some (4/9), some 0] = true := by
  have h : (Forb.and [.rel .lt Ex.hpK Ex.hpJ, .eq Ex.hpAlg (.str "a") 0]).onVal
    [("k", .int 3), ("j", .int 5), ("alg", .str "a")] = true := by decide +kernel
  refine ⟨h, ?_⟩
  rw [← h]
  symm
  refine C14_value_eq_vector_partial _ (by decide +kernel) _ _ _ ?_ ?_
  · intro x hx
    simp only [clauseHps, clauseHpsL, List.append_nil, List.cons_append, List.nil_append,
      List.mem_cons, List.not_mem_nil, or_false] at hx
    rcases hx with rfl | rfl | rfl
    · exact .inr ⟨.int 3, 2/9, by decide +kernel, by decide +kernel, by decide +kernel, by decide +kernel⟩
    · exact .inr ⟨.int 5, 4/9, by decide +kernel, by decide +kernel, by decide +kernel, by decide +kernel⟩
    · exact .inr ⟨.str "a", 0, by decide +kernel, by decide +kernel, by decide +kernel, by decide +kernel⟩
  · intro x hx w hw l u _
    simp only [relHps, relHpsL, List.append_nil, List.mem_cons, List.not_mem_nil, or_false] at hx
    rcases hx with rfl | rfl
    · simp [Ex.hpK] at hw; subst hw; exact ⟨3, rfl⟩
    · have : w = .int 5 := by
        have h0 : List.lookup Ex.hpJ.name [("k", Val.int 3), ("j", .int 5), ("alg", .str "a")]
          = some (.int 5) := by decide +kernel
        rw [h0] at hw; exact (Option.some.inj hw).symm
      subst this; exact ⟨5, rfl⟩

/-- **C14 fails** for a relation on a legal value of an integer hyperparameter that is only close to an
integer: 3.00001 is legal (hp_components.py:391-403 with `rtol=1e-5`) and differs from 3, but decodes
to 3. -/
theorem C14_relation_near_integer_differs :
    ∃ (f : Forb) (d : List (Name × Val)) (idx : Name → Nat) (v : Vec), f.wf = true ∧
      (∀ h ∈ clauseHps f, AgreeV d idx v h) ∧ f.onVal d = false ∧ f.onVec idx v = true := by
  refine ⟨.rel .eq Ex.hpK Ex.hpJ, [("k", .flt (300001/100000)), ("j", .int 3)],
    fun n => ["k", "j"].idxOf n, [some (200001/900000), some (2/9)], by decide +kernel, ?_,
    by decide +kernel, by decide +kernel⟩
  intro x hx
  simp only [clauseHps, List.mem_cons, List.not_mem_nil, or_false] at hx
  rcases hx with rfl | rfl
  · exact .inr ⟨.flt (300001/100000), 200001/900000, by decide +kernel, by decide +kernel,
      by decide +kernel, by decide +kernel⟩
  · exact .inr ⟨.int 3, 2/9, by decide +kernel, by decide +kernel, by decide +kernel, by decide +kernel⟩

/-! ## C15 -/

/-- **C15.** Equality of conditions, as built by the constructors, is an equivalence relation. -/
theorem C15_equality_equivalence :
    (∀ c : Cond, c.pyEq c = true) ∧
    (∀ c d : Cond, c.wf = true → c.pyEq d = true → d.pyEq c = true) ∧
    (∀ c d e : Cond, c.pyEq d = true → d.pyEq e = true → c.pyEq e = true) :=
  ⟨Cond.pyEq_refl, fun _ _ hc h => Cond.pyEq_symm (Cond.wf_wf0 hc) h, fun _ _ _ h h' => Cond.pyEq_trans h h'⟩

/-- **C15** (partial: the choices of equal categorical parents come in the same order). Equal conditions hold on the same vectors, in
every layout. -/
theorem C15_equal_conditions_same_meaning_partial {c d : Cond} (hc : c.wf = true) (hd : d.wf = true) (ho : SameOrders c d)
    (h : c.pyEq d = true) (idx : Name → Nat) (v : Vec) : c.satVec idx v = d.satVec idx v :=
  pyEq_satVec (Cond.wf_wf0 hc) (Cond.wf_wf0 hd) ho h idx v

/-- In particular if the parents of the same name are the same. -/
theorem sameOrders_of_same {c d : Cond} (h : ∀ l ∈ c.dlcs, ∀ m ∈ d.dlcs, l.parent.name = m.parent.name → l.parent = m.parent) :
    SameOrders c d := by
  intro l hl m hm e
  rw [h l hl m hm (HP.pyEq_name e)]
  exact sameOrder_refl _

/-- `x | p == "a"`, once with the choices of `p` in the order `a`, `b` and once in the order `b`, `a`. -/
def Ex.condAB : Cond := .lit ⟨Ex.hpX, ⟨"p", .cat [.str "a", .str "b"], .str "a"⟩, .bin .eq (.str "a") 0⟩
def Ex.condBA : Cond := .lit ⟨Ex.hpX, ⟨"p", .cat [.str "b", .str "a"], .str "a"⟩, .bin .eq (.str "a") 1⟩

/-- **C15 fails**: equality of categorical hyperparameters ignores the order of the choices (categorical.py:303-325), but the vector
value of a choice is its position. So equal conditions may hold on different vectors. -/
theorem C15_equal_conditions_differ :
    ∃ (c d : Cond) (idx : Name → Nat) (v : Vec), c.wf = true ∧ d.wf = true ∧ c.pyEq d = true ∧
      c.satVec idx v = true ∧ d.satVec idx v = false :=
  ⟨Ex.condAB, Ex.condBA, fun _ => 0, [some 0], by decide +kernel, by decide +kernel, by decide +kernel, by decide +kernel,
    by decide +kernel⟩

/-- The two literals of `condX` in the other order, and `2.0` instead of `2`. -/
def Ex.condX2 : Cond := .and [.lit Ex.litX', .lit ⟨Ex.hpX, Ex.hpK, .bin .gt (.flt 2) (1/9)⟩]

example : Ex.condX.pyEq Ex.condX2 = true ∧
    ∀ idx v, Ex.condX.satVec idx v = Ex.condX2.satVec idx v :=
  ⟨by decide +kernel, C15_equal_conditions_same_meaning_partial (by decide +kernel) (by decide +kernel)
    (sameOrders_of_same (by decide +kernel)) (by decide +kernel)⟩

namespace Spec
/-- A list of literals without two equivalent ones. -/
def PlainList (cs : List Cond) : Prop :=
  (∀ c ∈ cs, ∃ l, c = .lit l) ∧
  cs.Pairwise (fun a b => ∀ l m, a = .lit l → b = .lit m → l.equivOnParent m = false)

/-- Both are literals, or both are and-conjunctions, or both or-conjunctions, the first one of pairwise
inequivalent literals. -/
def SamePlain : Cond → Cond → Prop
  | .lit _, .lit _ => True
  | .and cs, .and _ => PlainList cs
  | .or cs, .or _ => PlainList cs
  | _, _ => False
end Spec

theorem allEquiv_iff {cs ds : List Cond} :
    Cond.allEquiv cs ds = true ↔ ∀ c ∈ cs, ∃ d ∈ ds, c.equivOnParent d = true := by
  induction cs with
  | nil => simp [Cond.allEquiv]
  | cons c cs ih => simp [Cond.allEquiv, ih]

theorem equiv_lit_left {l : Lit} {d : Cond} (h : (Cond.lit l).equivOnParent d = true) :
    ∃ m, d = .lit m ∧ l.equivOnParent m = true := by
  cases d with
  | lit m => exact ⟨m, rfl, by simpa [Cond.equivOnParent] using h⟩
  | and _ => simp [Cond.equivOnParent] at h
  | or _ => simp [Cond.equivOnParent] at h

/-- Matching of the components of two plain conjunctions. -/
theorem plain_match {cs ds : List Cond} (hp : PlainList cs) (hw : ∀ c ∈ cs, c.wf0 = true) (hl : cs.length = ds.length)
    (h : ∀ c ∈ cs, ∃ d ∈ ds, c.equivOnParent d = true) :
    ∀ d ∈ ds, ∃ c ∈ cs, c.equivOnParent d = true := by
  refine pigeonhole hl h ?_
  refine hp.2.imp_of_mem ?_
  intro a b ha hb hab d hd
  obtain ⟨l, rfl⟩ := hp.1 a ha
  obtain ⟨m, rfl⟩ := hp.1 b hb
  obtain ⟨n, rfl, h1⟩ := equiv_lit_left hd.1
  obtain ⟨n', h2, h3⟩ := equiv_lit_left hd.2
  cases h2
  have := hab l m rfl rfl
  rw [Lit.equiv_trans h1 (Lit.equiv_symm (by simpa [Cond.wf0] using hw _ hb) h3)] at this
  cases this

theorem lit_equiv_satVec {l m : Lit} (hl : l.wf = true) (hm : m.wf = true) (ho : SameOrders (.lit l) (.lit m))
    (h : l.equivOnParent m = true) (idx : Name → Nat) (v : Vec) :
    (Cond.lit l).satVec idx v = (Cond.lit m).satVec idx v := by
  obtain ⟨h1, h2⟩ := Lit.equiv_onEntry hl hm (ho l (by simp [Cond.dlcs]) m (by simp [Cond.dlcs])
    (by simp only [Lit.equivOnParent, Bool.and_eq_true] at h; exact h.1)) h
  simp only [Cond.satVec, h1, h2]

/-- **C15** (partial: literals, and conjunctions with the same connective of pairwise inequivalent literals, with the choices of equal
categorical parents in the same order). Conditions that `equivalent_condition_on_parent` groups for joint evaluation hold on the same vectors. -/
theorem C15_grouped_same_meaning_partial {c d : Cond} (hc : c.wf = true) (hd : d.wf = true)
    (hs : SamePlain c d) (ho : SameOrders c d) (h : c.equivOnParent d = true) (idx : Name → Nat) (v : Vec) :
    c.satVec idx v = d.satVec idx v := by
  simp only [Cond.wf, Bool.and_eq_true] at hc hd
  have pair : ∀ {cs ds : List Cond}, PlainList cs → (∀ c ∈ cs, c.wf0 = true) →
      (∀ c ∈ ds, c.wf0 = true) → SameOrders (.and cs) (.and ds) → ∀ c ∈ cs, ∀ d ∈ ds, c.equivOnParent d = true →
      c.satVec idx v = d.satVec idx v := by
    intro cs ds hp h1 h2 ho c hcm d hdm he
    obtain ⟨l, rfl⟩ := hp.1 c hcm
    obtain ⟨m, rfl, hlm⟩ := equiv_lit_left he
    exact lit_equiv_satVec (by simpa [Cond.wf0] using h1 _ hcm) (by simpa [Cond.wf0] using h2 _ hdm)
      (fun l hl m hm => ho l (mem_dlcsL.2 ⟨_, hcm, hl⟩) m (mem_dlcsL.2 ⟨_, hdm, hm⟩)) hlm idx v
  cases c with
  | lit l =>
    obtain ⟨m, rfl, hlm⟩ := equiv_lit_left h
    exact lit_equiv_satVec (by simpa [Cond.wf0] using hc.1) (by simpa [Cond.wf0] using hd.1) ho hlm idx v
  | and cs =>
    cases d with
    | lit m => exact hs.elim
    | or ds => exact hs.elim
    | and ds =>
      have hp : PlainList cs := hs
      simp only [Cond.equivOnParent, Bool.and_eq_true, decide_eq_true_eq, allEquiv_iff] at h
      have hback := plain_match hp (wf0_and.1 hc.1).2 h.1 h.2
      have key := pair (ds := ds) hp (wf0_and.1 hc.1).2 (wf0_and.1 hd.1).2 ho
      simp only [Cond.satVec]
      rw [Bool.eq_iff_iff, satVecAll_iff, satVecAll_iff]
      constructor
      · intro hsat d hdm
        obtain ⟨c, hcm, he⟩ := hback d hdm
        rw [← key c hcm d hdm he]; exact hsat c hcm
      · intro hsat c hcm
        obtain ⟨d, hdm, he⟩ := h.2 c hcm
        rw [key c hcm d hdm he]; exact hsat d hdm
  | or cs =>
    cases d with
    | lit m => exact hs.elim
    | and ds => exact hs.elim
    | or ds =>
      have hp : PlainList cs := hs
      simp only [Cond.equivOnParent, Bool.and_eq_true, decide_eq_true_eq, allEquiv_iff] at h
      have hback := plain_match hp (wf0_or.1 hc.1).2 h.1 h.2
      have key := pair (ds := ds) hp (wf0_or.1 hc.1).2 (wf0_or.1 hd.1).2 ho
      simp only [Cond.satVec]
      rw [Bool.eq_iff_iff, satVecAny_iff, satVecAny_iff]
      constructor
      · rintro ⟨c, hcm, hsat⟩
        obtain ⟨d, hdm, he⟩ := h.2 c hcm
        exact ⟨d, hdm, by rw [← key c hcm d hdm he]; exact hsat⟩
      · rintro ⟨d, hdm, hsat⟩
        obtain ⟨c, hcm, he⟩ := hback d hdm
        exact ⟨c, hcm, by rw [key c hcm d hdm he]; exact hsat⟩

/-- `o | k > 2 && alg == "a"`: the condition of `x`, for another child and in another order. -/
def Ex.condO2 : Cond := .and [.lit ⟨Ex.hpO, Ex.hpAlg, .bin .eq (.str "a") 0⟩,
  .lit ⟨Ex.hpO, Ex.hpK, .bin .gt (.int 2) (1/9)⟩]

example : ∀ idx v, Ex.condX.satVec idx v = Ex.condO2.satVec idx v :=
  C15_grouped_same_meaning_partial (by decide +kernel) (by decide +kernel)
    (by
      refine ⟨by simp, ?_⟩
      simp only [List.pairwise_cons, List.mem_cons, List.not_mem_nil, or_false, forall_eq]
      refine ⟨?_, by simp⟩
      intro l m h1 h2
      cases h1; cases h2
      decide +kernel) (sameOrders_of_same (by decide +kernel)) (by decide +kernel)

/-- The condition of `x` with *or* instead of *and*, for `o`. -/
def Ex.condO3 : Cond := .or [.lit ⟨Ex.hpO, Ex.hpAlg, .bin .eq (.str "a") 0⟩,
  .lit ⟨Ex.hpO, Ex.hpK, .bin .gt (.int 2) (1/9)⟩]

/-- **C15 fails** for grouping: an and-conjunction and an or-conjunction of the same literals are grouped for
joint evaluation (conditions.py:460-473 compares the components only) although they differ. -/
theorem C15_and_or_grouped_but_differ :
    ∃ (c d : Cond) (idx : Name → Nat) (v : Vec), c.wf = true ∧ d.wf = true ∧
      c.equivOnParent d = true ∧ c.satVec idx v = false ∧ d.satVec idx v = true :=
  ⟨Ex.condX, Ex.condO3, fun n => ["alg", "k"].idxOf n, [some 0, some 0], by decide +kernel,
    by decide +kernel, by decide +kernel, by decide +kernel, by decide +kernel⟩

/-- **C15 fails** for grouping: the comparison of components goes in one direction only, so
`And(p, p)` is grouped with `And(p, q)`. -/
theorem C15_repeated_literal_grouped_but_differ :
    ∃ (c d : Cond) (idx : Name → Nat) (v : Vec), c.wf = true ∧ d.wf = true ∧
      c.equivOnParent d = true ∧ c.satVec idx v = true ∧ d.satVec idx v = false :=
  ⟨.and [.lit Ex.litX', .lit Ex.litX'], Ex.condO2, fun n => ["alg", "k"].idxOf n,
    [some 0, some 0], by decide +kernel,
    by decide +kernel, by decide +kernel, by decide +kernel, by decide +kernel⟩

/-- A condition `k > 2` where `k` is unset. -/
example := C13_unset_parent_false ⟨Ex.hpX, Ex.hpK, .bin .gt (.int 2) (1 / 9)⟩ [("k", none)] (fun _ => 0) [none] rfl rfl (by simp [IsNotEquals])

/-- A conjunction of two equalities, on values and entries that agree. -/
example : (Forb.and [.eq Ex.hpK (.int 3) (2 / 9), .eq Ex.hpAlg (.str "a") 0]).onVal [("k", .int 3), ("alg", .str "a")] =
    (Forb.and [.eq Ex.hpK (.int 3) (2 / 9), .eq Ex.hpAlg (.str "a") 0]).onVec (fun n => if n = "k" then 0 else 1) [some (2 / 9), some 0] := by
  refine C14_value_eq_vector_no_relation _ (by decide +kernel) (by decide +kernel) _ _ _ ?_
  intro h hh
  have : h = Ex.hpK ∨ h = Ex.hpAlg := by
    have : ∀ h ∈ clauseHps (Forb.and [.eq Ex.hpK (.int 3) (2 / 9), .eq Ex.hpAlg (.str "a") 0]), h = Ex.hpK ∨ h = Ex.hpAlg := by decide +kernel
    exact this h hh
  rcases this with rfl | rfl
  · exact .inr ⟨.int 3, 2 / 9, by decide +kernel, by decide +kernel, by decide +kernel⟩
  · exact .inr ⟨.str "a", 0, by decide +kernel, by decide +kernel, by decide +kernel⟩

end Verif
