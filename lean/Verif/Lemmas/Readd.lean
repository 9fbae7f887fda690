import Verif.Lemmas.Rebuild
import Verif.Lemmas.EvalVal
import Verif.Lemmas.Order

/-!
# Replacing conditions by equal ones

`add_condition` stores the new condition object when it is equal to the old one.  Equal conditions may differ in the
order of the components and in the type of numbers; nothing that a user can observe depends on that.
-/

set_option autoImplicit false

namespace Verif
open Spec

/-! ## Literals of equal conditions -/

theorem pyEq_dlcs (c : Cond) : ∀ d : Cond, c.pyEq d = true → ∀ l ∈ c.dlcs, ∃ m ∈ d.dlcs, l.pyEq m = true := by
  induction c using Cond.induct with
  | hl l =>
    intro d h k hk
    cases d with
    | lit m =>
      simp only [Cond.dlcs, List.mem_singleton] at hk
      subst hk
      exact ⟨m, by simp [Cond.dlcs], by simpa [Cond.pyEq] using h⟩
    | and _ => simp [Cond.pyEq] at h
    | or _ => simp [Cond.pyEq] at h
  | ha cs ih =>
    intro d h k hk
    cases d with
    | and ds =>
      obtain ⟨c, hc, hkc⟩ := mem_dlcsL.1 (by simpa [Cond.dlcs] using hk)
      obtain ⟨d, hd, e⟩ := (pyEq_and.1 h).2.1 c hc
      obtain ⟨m, hm, e'⟩ := ih c hc d e k hkc
      exact ⟨m, by rw [Cond.dlcs]; exact mem_dlcsL.2 ⟨d, hd, hm⟩, e'⟩
    | lit _ => simp [Cond.pyEq] at h
    | or _ => simp [Cond.pyEq] at h
  | ho cs ih =>
    intro d h k hk
    cases d with
    | or ds =>
      obtain ⟨c, hc, hkc⟩ := mem_dlcsL.1 (by simpa [Cond.dlcs] using hk)
      obtain ⟨d, hd, e⟩ := (pyEq_or.1 h).2.1 c hc
      obtain ⟨m, hm, e'⟩ := ih c hc d e k hkc
      exact ⟨m, by rw [Cond.dlcs]; exact mem_dlcsL.2 ⟨d, hd, hm⟩, e'⟩
    | lit _ => simp [Cond.pyEq] at h
    | and _ => simp [Cond.pyEq] at h

theorem wf_dlcs_child {c : Cond} (h : c.wf = true) {x : HP} (hx : c.child? = some x) :
    ∀ l ∈ c.dlcs, l.child.name = x.name := by
  simp only [Cond.wf, Bool.and_eq_true] at h
  unfold Cond.child? at hx
  cases hd : c.dlcs with
  | nil => simp
  | cons m ms =>
    rw [hd] at hx
    simp only [List.head?_cons, Option.map_some, Option.some.injEq] at hx
    have h2 := h.2
    rw [hd] at h2
    simp only [sameChild, List.all_eq_true] at h2
    intro l hl
    rcases List.mem_cons.1 hl with rfl | hl
    · rw [hx]
    · rw [HP.pyEq_name (h2 l hl), hx]

theorem pyEq_child {c d : Cond} (hc : c.wf = true) (hd : d.wf = true) (h : c.pyEq d = true) : childName c = childName d := by
  obtain ⟨x, hx⟩ := wf_child hc
  obtain ⟨y, hy⟩ := wf_child hd
  have hl : ∃ l, l ∈ c.dlcs := by
    unfold Cond.child? at hx
    cases hh : c.dlcs with
    | nil => rw [hh] at hx; simp at hx
    | cons m ms => exact ⟨m, by simp⟩
  obtain ⟨l, hl⟩ := hl
  obtain ⟨m, hm, e⟩ := pyEq_dlcs c d h l hl
  have h1 := wf_dlcs_child hc hx l hl
  have h2 := wf_dlcs_child hd hy m hm
  simp only [Lit.pyEq, Bool.and_eq_true] at e
  have : x.name = y.name := by rw [← h1, ← h2]; exact HP.pyEq_name e.1.1
  simp [childName, hx, hy, this]

/-! ## `equivalent_condition_on_parent` respects equality -/

theorem equiv_congr_imp (c : Cond) : ∀ {c' d d' : Cond}, c.wf0 = true → c.pyEq c' = true → d.pyEq d' = true → c.equivOnParent d = true →
    c'.equivOnParent d' = true := by
  have conj : ∀ {cs cs' ds ds' : List Cond}, (∀ c ∈ cs, ∀ {c' d d' : Cond}, c.wf0 = true → c.pyEq c' = true → d.pyEq d' = true →
      c.equivOnParent d = true → c'.equivOnParent d' = true) → (∀ c ∈ cs, c.wf0 = true) →
      condsEq cs cs' → condsEq ds ds' →
      (decide (cs.length = ds.length) && Cond.allEquiv cs ds) = true →
      (decide (cs'.length = ds'.length) && Cond.allEquiv cs' ds') = true := by
    intro cs cs' ds ds' ih hw h1 h2 h3
    simp only [Bool.and_eq_true, decide_eq_true_eq, allEquiv_iff] at h3 ⊢
    refine ⟨by rw [← h1.1, ← h2.1]; exact h3.1, ?_⟩
    intro x' hx'
    obtain ⟨x, hx, e⟩ := h1.2.2 x' hx'
    obtain ⟨y, hy, ey⟩ := h3.2 x hx
    obtain ⟨y', hy', ey'⟩ := h2.2.1 y hy
    exact ⟨y', hy', ih x hx (hw x hx) e ey' ey⟩
  induction c using Cond.induct with
  | hl l =>
    intro c' d d' hw h1 h2 h3
    cases d with
    | lit m =>
      cases c' with
      | lit l' =>
        cases d' with
        | lit m' =>
          simp only [Cond.pyEq, Cond.equivOnParent] at h1 h2 h3 ⊢
          exact Lit.equiv_trans (Lit.equiv_symm (by simpa [Cond.wf0] using hw) (Lit.equiv_of_pyEq h1)) (Lit.equiv_trans h3 (Lit.equiv_of_pyEq h2))
        | and _ => simp [Cond.pyEq] at h2
        | or _ => simp [Cond.pyEq] at h2
      | and _ => simp [Cond.pyEq] at h1
      | or _ => simp [Cond.pyEq] at h1
    | and _ => simp [Cond.equivOnParent] at h3
    | or _ => simp [Cond.equivOnParent] at h3
  | ha cs ih =>
    intro c' d d' hw h1 h2 h3
    cases c' with
    | lit _ => simp [Cond.pyEq] at h1
    | or _ => simp [Cond.pyEq] at h1
    | and cs' =>
      cases d with
      | lit _ => simp [Cond.equivOnParent] at h3
      | and ds =>
        cases d' with
        | lit _ => simp [Cond.pyEq] at h2
        | or _ => simp [Cond.pyEq] at h2
        | and ds' =>
          simp only [Cond.equivOnParent] at h3 ⊢
          exact conj ih (wf0_and.1 hw).2 (pyEq_and.1 h1) (pyEq_and.1 h2) h3
      | or ds =>
        cases d' with
        | lit _ => simp [Cond.pyEq] at h2
        | and _ => simp [Cond.pyEq] at h2
        | or ds' =>
          simp only [Cond.equivOnParent] at h3 ⊢
          exact conj ih (wf0_and.1 hw).2 (pyEq_and.1 h1) (pyEq_or.1 h2) h3
  | ho cs ih =>
    intro c' d d' hw h1 h2 h3
    cases c' with
    | lit _ => simp [Cond.pyEq] at h1
    | and _ => simp [Cond.pyEq] at h1
    | or cs' =>
      cases d with
      | lit _ => simp [Cond.equivOnParent] at h3
      | and ds =>
        cases d' with
        | lit _ => simp [Cond.pyEq] at h2
        | or _ => simp [Cond.pyEq] at h2
        | and ds' =>
          simp only [Cond.equivOnParent] at h3 ⊢
          exact conj ih (wf0_or.1 hw).2 (pyEq_or.1 h1) (pyEq_and.1 h2) h3
      | or ds =>
        cases d' with
        | lit _ => simp [Cond.pyEq] at h2
        | and _ => simp [Cond.pyEq] at h2
        | or ds' =>
          simp only [Cond.equivOnParent] at h3 ⊢
          exact conj ih (wf0_or.1 hw).2 (pyEq_or.1 h1) (pyEq_or.1 h2) h3

theorem equiv_congr {c c' d d' : Cond} (hc : c.wf0 = true) (hc' : c'.wf0 = true) (hd : d.wf0 = true) (h1 : c.pyEq c' = true) (h2 : d.pyEq d' = true) :
    c.equivOnParent d = c'.equivOnParent d' := by
  rw [Bool.eq_iff_iff]
  exact ⟨equiv_congr_imp c hc h1 h2, equiv_congr_imp c' hc' (Cond.pyEq_symm hc h1) (Cond.pyEq_symm hd h2)⟩

/-! ## Evaluation on values respects equality -/

/-- Truth of a condition from the truth of its literals. -/
def Cond.evalB (f : Lit → Bool) : Cond → Prop
  | .lit l => f l = true
  | .and cs => ∀ c ∈ cs, Cond.evalB f c
  | .or cs => ∃ c, ∃ _ : c ∈ cs, Cond.evalB f c

theorem satVal_evalB {d : Dict} {f : Lit → Bool} (c : Cond) (h : ∀ l ∈ c.dlcs, l.satVal d = .ok (f l)) :
    ∃ b, c.satVal d = .ok b ∧ (b = true ↔ c.evalB f) := by
  induction c using Cond.induct with
  | hl l => exact ⟨f l, by simpa [Cond.satVal] using h l (by simp [Cond.dlcs]), by simp [Cond.evalB]⟩
  | ha cs ih =>
    have h' : ∀ c ∈ cs, ∃ b, c.satVal d = .ok b ∧ (b = true ↔ c.evalB f) := fun c hc =>
      ih c hc (fun l hl => h l (by rw [Cond.dlcs]; exact mem_dlcsL.2 ⟨c, hc, hl⟩))
    simp only [Cond.satVal, Cond.evalB]
    clear ih h
    induction cs with
    | nil => exact ⟨true, rfl, by simp⟩
    | cons c cs ih =>
      obtain ⟨b, h1, h2⟩ := h' c (by simp)
      obtain ⟨b', h3, h4⟩ := ih (fun x hx => h' x (by simp [hx]))
      simp only [Cond.satValAll, h1, bind, Except.bind]
      cases b with
      | true =>
        refine ⟨b', by simpa using h3, ?_⟩
        rw [h4]
        simp only [List.mem_cons, forall_eq_or_imp, h2.1 rfl, true_and]
      | false =>
        refine ⟨false, by simp, ?_⟩
        constructor
        · intro e; cases e
        · intro e
          exact (h2.2 (e c (by simp)))
  | ho cs ih =>
    have h' : ∀ c ∈ cs, ∃ b, c.satVal d = .ok b ∧ (b = true ↔ c.evalB f) := fun c hc =>
      ih c hc (fun l hl => h l (by rw [Cond.dlcs]; exact mem_dlcsL.2 ⟨c, hc, hl⟩))
    simp only [Cond.satVal, Cond.evalB]
    clear ih h
    induction cs with
    | nil => exact ⟨false, rfl, by simp⟩
    | cons c cs ih =>
      obtain ⟨b, h1, h2⟩ := h' c (by simp)
      obtain ⟨b', h3, h4⟩ := ih (fun x hx => h' x (by simp [hx]))
      simp only [Cond.satValAny, h1, bind, Except.bind]
      cases b with
      | false =>
        refine ⟨b', by simpa using h3, ?_⟩
        rw [h4]
        constructor
        · rintro ⟨x, hx, hx'⟩; exact ⟨x, by simp [hx], hx'⟩
        · rintro ⟨x, hx, hx'⟩
          rcases List.mem_cons.1 hx with rfl | hx
          · exact absurd (h2.2 hx') (by simp)
          · exact ⟨x, hx, hx'⟩
      | true =>
        refine ⟨true, by simp, ?_⟩
        simp only [true_iff]
        exact ⟨c, by simp, h2.1 rfl⟩

/-- Parents of the same name are the same. -/
def SameParents (c d : Cond) : Prop :=
  ∀ l ∈ c.dlcs, ∀ m ∈ d.dlcs, l.parent.name = m.parent.name → l.parent = m.parent

theorem SameParents.symm {c d : Cond} (h : SameParents c d) : SameParents d c :=
  fun l hl m hm e => (h m hm l hl e.symm).symm

theorem evalB_congr {f : Lit → Bool} (hf : ∀ a b : Lit, a.wf = true → b.wf = true → a.parent = b.parent → a.pyEq b = true →
    f a = f b) (c : Cond) :
    ∀ d : Cond, c.wf0 = true → d.wf0 = true → SameParents c d → c.pyEq d = true → (c.evalB f ↔ d.evalB f) := by
  induction c using Cond.induct with
  | hl l =>
    intro d hc hd hp h
    cases d with
    | lit m =>
      simp only [Cond.evalB]
      rw [hf l m (by simpa [Cond.wf0] using hc) (by simpa [Cond.wf0] using hd)
        (hp l (by simp [Cond.dlcs]) m (by simp [Cond.dlcs]) (HP.pyEq_name (by
          simp only [Cond.pyEq, Lit.pyEq, Bool.and_eq_true] at h
          exact h.1.2))) (by simpa [Cond.pyEq] using h)]
    | and _ => simp [Cond.pyEq] at h
    | or _ => simp [Cond.pyEq] at h
  | ha cs ih =>
    intro d hc hd hp h
    cases d with
    | and ds =>
      have h := pyEq_and.1 h
      have hc := (wf0_and.1 hc).2
      have hd := (wf0_and.1 hd).2
      have hp' : ∀ x ∈ cs, ∀ y ∈ ds, SameParents x y := fun x hx y hy l hl m hm =>
        hp l (mem_dlcsL.2 ⟨x, hx, hl⟩) m (mem_dlcsL.2 ⟨y, hy, hm⟩)
      simp only [Cond.evalB]
      constructor
      · intro hs y hy
        obtain ⟨x, hx, e⟩ := h.2.2 y hy
        exact (ih x hx y (hc x hx) (hd y hy) (hp' x hx y hy) e).1 (hs x hx)
      · intro hs x hx
        obtain ⟨y, hy, e⟩ := h.2.1 x hx
        exact (ih x hx y (hc x hx) (hd y hy) (hp' x hx y hy) e).2 (hs y hy)
    | lit _ => simp [Cond.pyEq] at h
    | or _ => simp [Cond.pyEq] at h
  | ho cs ih =>
    intro d hc hd hp h
    cases d with
    | or ds =>
      have h := pyEq_or.1 h
      have hc := (wf0_or.1 hc).2
      have hd := (wf0_or.1 hd).2
      have hp' : ∀ x ∈ cs, ∀ y ∈ ds, SameParents x y := fun x hx y hy l hl m hm =>
        hp l (mem_dlcsL.2 ⟨x, hx, hl⟩) m (mem_dlcsL.2 ⟨y, hy, hm⟩)
      simp only [Cond.evalB]
      constructor
      · rintro ⟨x, hx, hs⟩
        obtain ⟨y, hy, e⟩ := h.2.1 x hx
        exact ⟨y, hy, (ih x hx y (hc x hx) (hd y hy) (hp' x hx y hy) e).1 hs⟩
      · rintro ⟨y, hy, hs⟩
        obtain ⟨x, hx, e⟩ := h.2.2 y hy
        exact ⟨x, hx, (ih x hx y (hc x hx) (hd y hy) (hp' x hx y hy) e).2 hs⟩
    | lit _ => simp [Cond.pyEq] at h
    | and _ => simp [Cond.pyEq] at h

theorem pyIn_valsEq {w : Val} : ∀ {a b : List Val}, valsEq a b = true → w.pyIn a = w.pyIn b
  | [], [], _ => rfl
  | x :: xs, y :: ys, h => by
    simp only [valsEq, Bool.and_eq_true] at h
    have ih := pyIn_valsEq (w := w) h.2
    simp only [Val.pyIn, List.any_cons] at ih ⊢
    rw [Val.pyEq_congr h.1, ih]
  | [], _ :: _, h => by simp [valsEq] at h
  | _ :: _, [], h => by simp [valsEq] at h

/-- Equal literals give the same answer (or exception) on every dictionary. -/
theorem lit_satVal_congr {a b : Lit} (ha : a.wf = true) (hb : b.wf = true) (hp : a.parent = b.parent)
    (h : a.pyEq b = true) (d : Dict) : a.satVal d = b.satVal d := by
  obtain ⟨ca, pa, ta⟩ := a
  obtain ⟨cb, pb, tb⟩ := b
  simp only [Lit.pyEq, Bool.and_eq_true] at h
  simp only at hp
  subst hp
  have ht := h.2
  unfold Lit.satVal
  simp only
  cases hg : d.get pa.name with
  | error e => rfl
  | ok o =>
    cases o with
    | none => rfl
    | some w =>
      simp only [bind, Except.bind]
      cases ta with
      | bin op v x =>
        cases tb with
        | isIn _ _ => simp [Test.pyEq] at ht
        | bin op' v' x' =>
          simp only [Test.pyEq, Bool.and_eq_true, decide_eq_true_eq] at ht
          obtain ⟨rfl, hv⟩ := ht
          have hx : x = x' := by
            simp only [Lit.wf, Bool.and_eq_true, decide_eq_true_eq] at ha hb
            have e1 := ha.2.1.2
            have e2 := hb.2.1.2
            rw [toVec_of_pyEq hv, e2] at e1
            exact (Option.some.inj e1).symm
          subst hx
          simp only
          split
          · rfl
          · cases op with
            | eq => simp only [BOp.onVal, Val.pyEq_congr_right hv]
            | ne => simp only [BOp.onVal, Val.pyEq_congr_right hv]
            | lt => simp only [BOp.onVal, lt_congr (Val.pyEq_refl w) hv]
            | gt => simp only [BOp.onVal, lt_congr hv (Val.pyEq_refl w)]
      | isIn vs xs =>
        cases tb with
        | bin _ _ _ => simp [Test.pyEq] at ht
        | isIn vs' xs' =>
          simp only [Test.pyEq] at ht
          simp only [pyIn_valsEq ht]

/-- A literal can be evaluated on legal values. -/
theorem lit_satVal_total {l : Lit} (hw : l.wf = true) {d : Dict} {o : Option Val} (hd : d.lookup l.parent.name = some o)
    (ho : ∀ w, o = some w → l.parent.kind.legalValue w = true) : ∃ b, l.satVal d = .ok b := by
  unfold Lit.satVal Dict.get
  rw [hd]
  cases o with
  | none => exact ⟨false, rfl⟩
  | some w =>
    have hl := ho w rfl
    simp only [bind, Except.bind]
    simp only [Lit.wf, Bool.and_eq_true] at hw
    cases ht : l.test with
    | isIn vs xs => exact ⟨_, rfl⟩
    | bin op v x =>
      rw [ht] at hw
      simp only [Bool.and_eq_true, decide_eq_true_eq] at hw
      simp only
      split
      · obtain ⟨q, hq⟩ := legal_toVec hl
        rw [hq]; exact ⟨_, rfl⟩
      · rename_i hord
        have hnum : l.parent.kind.orderable = true → ∃ p q, w.num? = some p ∧ v.num? = some q := by
          intro horder
          have hlv := hw.2.1.1
          cases hk : l.parent.kind with
          | cat _ => rw [hk] at horder; simp [Kind.orderable] at horder
          | const _ => rw [hk] at horder; simp [Kind.orderable] at horder
          | ord _ => rw [hk] at hord; simp [Kind.isOrdinal] at hord
          | int a b =>
            rw [hk] at hl hlv
            cases h1 : w.num? <;> cases h2 : v.num? <;> simp_all [Kind.legalValue]
          | flt a b =>
            rw [hk] at hl hlv
            cases h1 : w.num? <;> cases h2 : v.num? <;> simp_all [Kind.legalValue]
        have hlt : ∀ {a b : Val} {p q : Rat}, a.num? = some p → b.num? = some q → a.lt? b = some (decide (p < q)) := by
          intro a b p q h1 h2
          cases a <;> cases b <;> simp_all [Val.num?, Val.lt?]
        cases op with
        | eq => exact ⟨_, rfl⟩
        | ne => exact ⟨_, rfl⟩
        | lt =>
          obtain ⟨p, q, h1, h2⟩ := hnum (by simpa using hw.2.2)
          exact ⟨_, by simp [BOp.onVal, hlt h1 h2]; rfl⟩
        | gt =>
          obtain ⟨p, q, h1, h2⟩ := hnum (by simpa using hw.2.2)
          exact ⟨_, by simp [BOp.onVal, hlt h2 h1]; rfl⟩

/-- Equal conditions give the same answer on legal values. -/
theorem satVal_congr {c c' : Cond} (hc : c.wf0 = true) (hc' : c'.wf0 = true) (hp : SameParents c c')
    (h : c.pyEq c' = true) {d : Dict}
    (hd : ∀ l ∈ c.dlcs, ∃ o, d.lookup l.parent.name = some o ∧ ∀ w, o = some w → l.parent.kind.legalValue w = true) :
    c.satVal d = c'.satVal d := by
  have tot : ∀ l ∈ c.dlcs, ∃ b, l.satVal d = .ok b := by
    intro l hl
    obtain ⟨o, ho, hl'⟩ := hd l hl
    exact lit_satVal_total (wf0_lit hc l hl) ho hl'
  let f : Lit → Bool := fun l => match l.satVal d with
    | .ok b => b
    | .error _ => false
  have hf : ∀ l ∈ c.dlcs, l.satVal d = .ok (f l) := by
    intro l hl
    obtain ⟨b, hb⟩ := tot l hl
    simp [f, hb]
  have hf' : ∀ l ∈ c'.dlcs, l.satVal d = .ok (f l) := by
    intro l hl
    obtain ⟨m, hm, e⟩ := pyEq_dlcs c' c (Cond.pyEq_symm hc h) l hl
    have e' := e
    simp only [Lit.pyEq, Bool.and_eq_true] at e'
    have := lit_satVal_congr (wf0_lit hc' l hl) (wf0_lit hc m hm) (hp m hm l hl (HP.pyEq_name e'.1.2).symm).symm e d
    obtain ⟨b, hb⟩ := tot m hm
    rw [hb] at this
    simp [f, this]
  obtain ⟨b, h1, h2⟩ := satVal_evalB c hf
  obtain ⟨b', h3, h4⟩ := satVal_evalB c' hf'
  have h5 := evalB_congr (f := f) (fun a b ha hb hp e => by simp [f, lit_satVal_congr ha hb hp e d]) c c' hc hc' hp h
  have : b = b' := by rw [Bool.eq_iff_iff, h2, h4, h5]
  rw [h1, h3, this]

/-! ## Nodes up to equality of conditions -/

/-- The same hyperparameter at the same depth with an equal condition on the same parents. -/
def NodeRel (x y : Node) : Prop :=
  x.hp = y.hp ∧ x.depth = y.depth ∧ ((x.cond = none ∧ y.cond = none) ∨
    ∃ c c', x.cond = some c ∧ y.cond = some c' ∧ c.pyEq c' = true ∧ c.wf = true ∧ c'.wf = true ∧ SameParents c c')

theorem NodeRel.name {x y : Node} (h : NodeRel x y) : x.name = y.name := by simp [Node.name, h.1]

/-- The same name at the same depth with an equal condition on parents with the same order of choices. -/
def NodeSim (x y : Node) : Prop :=
  x.name = y.name ∧ x.depth = y.depth ∧ ((x.cond = none ∧ y.cond = none) ∨
    ∃ c c', x.cond = some c ∧ y.cond = some c' ∧ c.pyEq c' = true ∧ c.wf = true ∧ c'.wf = true ∧ SameOrders c c')

theorem NodeRel.sim {x y : Node} (h : NodeRel x y) : NodeSim x y :=
  ⟨h.name, h.2.1, h.2.2.imp id fun ⟨c, c', h1, h2, h3, h4, h5, h6⟩ => ⟨c, c', h1, h2, h3, h4, h5, sameOrders_of_same h6⟩⟩

/-- Groups up to equality of conditions. -/
def CNodeRel (g g' : CNode) : Prop :=
  g.kids = g'.kids ∧ g.cond.pyEq g'.cond = true ∧ g.cond.wf = true ∧ g'.cond.wf = true ∧ SameOrders g.cond g'.cond

theorem addToGroups_rel {n : Name} {c c' : Cond} (h : c.pyEq c' = true) (hw : c.wf = true) (hw' : c'.wf = true)
    (hp : SameOrders c c') : ∀ {gs gs' : List CNode}, List.Forall₂ CNodeRel gs gs' →
    List.Forall₂ CNodeRel (addToGroups gs n c) (addToGroups gs' n c')
  | [], [], _ => .cons ⟨rfl, h, hw, hw', hp⟩ .nil
  | g :: gs, g' :: gs', .cons hg hgs => by
    unfold addToGroups
    rw [equiv_congr (Cond.wf_wf0 hg.2.2.1) (Cond.wf_wf0 hg.2.2.2.1) (Cond.wf_wf0 hw) hg.2.1 h]
    split
    · exact .cons ⟨by simp [hg.1], hg.2⟩ hgs
    · exact .cons hg (addToGroups_rel h hw hw' hp hgs)

theorem minConditions_rel {ns ns' : Nodes} (h : List.Forall₂ NodeSim ns ns') :
    List.Forall₂ CNodeRel (minConditions ns) (minConditions ns') := by
  have key : ∀ {ns ns' : Nodes} {gs gs' : List CNode}, List.Forall₂ NodeSim ns ns' → List.Forall₂ CNodeRel gs gs' →
      List.Forall₂ CNodeRel (ns.foldl (fun gs x => match x.cond with
        | none => gs
        | some c => addToGroups gs x.name c) gs) (ns'.foldl (fun gs x => match x.cond with
        | none => gs
        | some c => addToGroups gs x.name c) gs') := by
    intro ns ns' gs gs' h
    induction h generalizing gs gs' with
    | nil => intro hg; exact hg
    | cons hx _ ih =>
      intro hg
      simp only [List.foldl_cons]
      apply ih
      rcases hx.2.2 with ⟨e1, e2⟩ | ⟨c, c', e1, e2, e3, e4, e5, e6⟩
      · rw [e1, e2]; exact hg
      · rw [e1, e2, hx.1]; exact addToGroups_rel e3 e4 e5 e6 hg
  exact key h .nil

theorem insBy_rel {α β : Type} {R : α → β → Prop} {le : α → α → Bool} {le' : β → β → Bool}
    (hle : ∀ a a' b b', R a a' → R b b' → le a b = le' a' b') {x : α} {x' : β} (hx : R x x') :
    ∀ {ys : List α} {ys' : List β}, List.Forall₂ R ys ys' → List.Forall₂ R (insBy le x ys) (insBy le' x' ys')
  | [], [], _ => .cons hx .nil
  | y :: ys, y' :: ys', .cons hy hys => by
    unfold insBy
    rw [hle _ _ _ _ hx hy]
    split
    · exact .cons hx (.cons hy hys)
    · exact .cons hy (insBy_rel hle hx hys)

theorem sortBy_rel {α β : Type} {R : α → β → Prop} {le : α → α → Bool} {le' : β → β → Bool}
    (hle : ∀ a a' b b', R a a' → R b b' → le a b = le' a' b') :
    ∀ {ys : List α} {ys' : List β}, List.Forall₂ R ys ys' → List.Forall₂ R (sortBy le ys) (sortBy le' ys')
  | [], [], _ => .nil
  | y :: ys, y' :: ys', .cons hy hys => by
    unfold sortBy
    exact insBy_rel hle hy (sortBy_rel hle hys)

theorem minList_congr {l l' : List Nat} (hne : l ≠ []) (hne' : l' ≠ []) (h : ∀ x, x ∈ l ↔ x ∈ l') : minList l = minList l' :=
  Nat.le_antisymm (minList_le ((h _).2 (minList_mem hne'))) (minList_le ((h _).1 (minList_mem hne)))

theorem wf_parents_nil {c : Cond} (h : c.wf = true) : c.parents ≠ [] := by
  obtain ⟨x, hx⟩ := wf_child h
  unfold Cond.child? at hx
  unfold Cond.parents
  cases hd : c.dlcs with
  | nil => rw [hd] at hx; simp at hx
  | cons m ms => simp

theorem shallowest_rel {ns ns' : Nodes} (hd : depthOf ns = depthOf ns') {g g' : CNode} (h : CNodeRel g g') :
    shallowest ns g = shallowest ns' g' := by
  unfold shallowest CNode.parents
  rw [hd]
  apply minList_congr
  · simpa using wf_parents_nil h.2.2.1
  · simpa using wf_parents_nil h.2.2.2.1
  · intro x
    simp only [List.mem_map]
    constructor
    · rintro ⟨p, hp, e⟩; exact ⟨p, (pyEq_parents _ _ h.2.1 p).1 hp, e⟩
    · rintro ⟨p, hp, e⟩; exact ⟨p, (pyEq_parents _ _ h.2.1 p).2 hp, e⟩

theorem minCondsSorted_rel {ns ns' : Nodes} (hd : depthOf ns = depthOf ns') (h : List.Forall₂ NodeSim ns ns') :
    List.Forall₂ CNodeRel (minCondsSorted ns) (minCondsSorted ns') := by
  unfold minCondsSorted
  refine sortBy_rel ?_ (minConditions_rel h)
  intro a a' b b' ha hb
  rw [shallowest_rel hd ha, shallowest_rel hd hb]

theorem checkConds_rel {s s' : Space} (hidx : s.idx = s'.idx) (hhp : ∀ n q,
    (s.hp? n).map (fun h => (h.kind.legalVec q, (h.kind.toVal q).isSome)) =
    (s'.hp? n).map (fun h => (h.kind.legalVec q, (h.kind.toVal q).isSome))) (v : Vec) (al : Bool) :
    ∀ {cs cs' : List CNode}, List.Forall₂ CNodeRel cs cs' → checkConds s v al cs = checkConds s' v al cs'
  | [], [], _ => rfl
  | c :: cs, c' :: cs', .cons hc hcs => by
    unfold checkConds
    have h1 := hc.2.2.1
    have h2 := hc.2.2.2.1
    simp only [Cond.wf, Bool.and_eq_true] at h1 h2
    rw [checkConds_rel hidx hhp v al hcs, hidx, hc.1, pyEq_satVec h1.1 h2.1 hc.2.2.2.2 hc.2.1]
    have hl : s.legalAt = s'.legalAt := by
      funext v n
      unfold Space.legalAt
      rw [hidx]
      cases v.at (s'.idx n) with
      | none => cases s.hp? n <;> cases s'.hp? n <;> rfl
      | some q =>
        have := hhp n q
        cases e : s.hp? n <;> cases e' : s'.hp? n <;> simp [e, e'] at this ⊢
        exact this.1
    have ht : ∀ n, (match s.hp? n, v.at (s'.idx n) with
        | some h, some q => match h.kind.toVal q with
          | some _ => some (Err.inactiveSet n)
          | none => some Err.valueError
        | _, _ => some (Err.inactiveSet n)) = (match s'.hp? n, v.at (s'.idx n) with
        | some h, some q => match h.kind.toVal q with
          | some _ => some (Err.inactiveSet n)
          | none => some Err.valueError
        | _, _ => some (Err.inactiveSet n)) := by
      intro n
      cases v.at (s'.idx n) with
      | none => cases s.hp? n <;> cases s'.hp? n <;> rfl
      | some q =>
        have := hhp n q
        cases e : s.hp? n with
        | none => cases e' : s'.hp? n <;> simp [e, e'] at this ⊢
        | some h =>
          cases e' : s'.hp? n with
          | none => simp [e, e'] at this
          | some h' =>
            simp only [e, e', Option.map_some, Option.some.injEq, Prod.mk.injEq] at this
            have := this.2
            cases e1 : h.kind.toVal q <;> cases e2 : h'.kind.toVal q <;> simp_all
    simp only [firstWith, hl, hidx]
    split
    · rfl
    · split
      · rfl
      · split
        · exact ht _
        · rfl

/-- The entries of a dictionary are legal values of hyperparameters of the list. -/
def DictLegal (H : List HP) (d : Dict) : Prop :=
  ∀ n o, d.lookup n = some o → ∀ w, o = some w → ∀ h ∈ H, h.name = n → h.kind.legalValue w = true

theorem DictLegal.snoc {H : List HP} (hinj : ∀ x ∈ H, ∀ y ∈ H, x.name = y.name → x = y) {d : Dict} (hd : DictLegal H d)
    {x : HP} (hx : x ∈ H) {e : Option Val} (he : ∀ w, e = some w → x.kind.legalValue w = true) :
    DictLegal H (d ++ [(x.name, e)]) := by
  intro n o hl w hw h hh hn
  rw [List.lookup_append] at hl
  cases hdn : d.lookup n with
  | some o' =>
    rw [hdn] at hl
    simp only [Option.some_or, Option.some.injEq] at hl
    subst hl
    exact hd n o' hdn w hw h hh hn
  | none =>
    rw [hdn] at hl
    simp only [Option.none_or, List.lookup_cons, List.lookup_nil] at hl
    split at hl
    · rename_i hb
      simp only [Option.some.injEq] at hl
      subst hl
      have : n = x.name := by simpa using hb
      have : h = x := hinj h hh x hx (by rw [hn, this])
      subst this
      exact he w hw
    · cases hl

/-- The default values are the same. -/
theorem defaultValues_rel {H : List HP} (hinj : ∀ x ∈ H, ∀ y ∈ H, x.name = y.name → x = y) (hHw : ∀ h ∈ H, h.wf = true) :
    ∀ {ns ns' : Nodes} {d : Dict}, List.Forall₂ NodeRel ns ns' → (∀ x ∈ ns, x.hp ∈ H) →
    (∀ x ∈ ns, ∀ c, x.cond = some c → ∀ l ∈ c.dlcs, l.parent ∈ H) → DictLegal H d →
    defaultValues ns d = defaultValues ns' d
  | [], [], _, _, _, _, _ => rfl
  | x :: xs, y :: ys, d, .cons hxy hxs, hmem, hown, hd => by
    have hxH := hmem x (by simp)
    have ih : ∀ e : Option Val, (∀ w, e = some w → x.hp.kind.legalValue w = true) →
        defaultValues xs (d ++ [(x.name, e)]) = defaultValues ys (d ++ [(x.name, e)]) := fun e he =>
      defaultValues_rel hinj hHw hxs (fun z hz => hmem z (by simp [hz])) (fun z hz => hown z (by simp [hz]))
        (hd.snoc hinj hxH he)
    have hdef : ∀ w, some x.hp.default = some w → x.hp.kind.legalValue w = true := by
      intro w e
      cases e
      exact HP.wf_legal (hHw _ hxH)
    unfold defaultValues
    rw [← hxy.name, ← hxy.1]
    rcases hxy.2.2 with ⟨e1, e2⟩ | ⟨c, c', e1, e2, e3, e4, e5, e6⟩
    · rw [e1, e2]
      exact ih _ hdef
    · rw [e1, e2]
      simp only
      have hany : c.parents.any (fun p => (d.lookup p).isNone) = c'.parents.any (fun p => (d.lookup p).isNone) := by
        rw [Bool.eq_iff_iff, List.any_eq_true, List.any_eq_true]
        constructor
        · rintro ⟨p, hp, e⟩; exact ⟨p, (pyEq_parents _ _ e3 p).1 hp, e⟩
        · rintro ⟨p, hp, e⟩; exact ⟨p, (pyEq_parents _ _ e3 p).2 hp, e⟩
      rw [← hany]
      split
      · rfl
      · rename_i hno
        have hsv : c.satVal d = c'.satVal d := by
          simp only [Cond.wf, Bool.and_eq_true] at e4 e5
          refine satVal_congr e4.1 e5.1 e6 e3 ?_
          intro l hl
          have hp : l.parent.name ∈ c.parents := parents_iff.2 ⟨l, hl, rfl⟩
          cases hlk : d.lookup l.parent.name with
          | none =>
            exfalso
            apply hno
            rw [List.any_eq_true]
            exact ⟨_, hp, by rw [hlk]; rfl⟩
          | some o =>
            exact ⟨o, rfl, fun w hw => hd _ o hlk w hw l.parent (hown x (by simp) c e1 l hl) rfl⟩
        rw [hsv, ih _ hdef, ih none (by simp)]

/-- Spaces with the same hyperparameters and equal conditions. -/
theorem nodes_rel {s s' : Space} {H H' : List HP} {C C' : List Cond} {F F' : List Forb} (p : Pre s H C F)
    (p' : Pre s' H' C' F') (hh : H.Perm H') (hE : parentRel C = parentRel C')
    (hw : ∀ c ∈ C, c.wf = true) (hw' : ∀ c ∈ C', c.wf = true) (hp : ∀ c ∈ C, ∀ c' ∈ C', SameParents c c')
    (hc : ∀ n, (lastCond C n = none ∧ lastCond C' n = none) ∨
      ∃ c c', lastCond C n = some c ∧ lastCond C' n = some c' ∧ c.pyEq c' = true) :
    List.Forall₂ NodeRel s.com s'.com := by
  obtain ⟨hnames, hD, hhp⟩ := keys_eq p p' hh hE
  have hn : NInv s.com := p.com ▸ p.hist.ninv
  have hn' : NInv s'.com := p'.com ▸ p'.hist.ninv
  rw [List.forall₂_iff_get]
  have hlen : s.com.length = s'.com.length := by simpa [namesOf] using congrArg List.length hnames
  refine ⟨hlen, ?_⟩
  intro i hi hi'
  have hx := List.getElem_mem hi
  have hy := List.getElem_mem hi'
  have hname : (s.com[i]).name = (s'.com[i]).name := by
    have h1 : (namesOf s.com)[i]? = (namesOf s'.com)[i]? := by rw [hnames]
    simpa [namesOf, List.getElem?_eq_getElem hi, List.getElem?_eq_getElem hi'] using h1
  simp only [List.get_eq_getElem]
  generalize s.com[i] = x at hx hname ⊢
  generalize s'.com[i] = y at hy hname ⊢
  have fx := findNode_of_mem hn.nodup hx
  have fy := findNode_of_mem hn'.nodup hy
  rw [← hname] at fy
  refine ⟨?_, ?_, ?_⟩
  · have := hhp x.name
    simpa [hpAt, fx, fy] using this
  · have := hD x.name (List.mem_map.2 ⟨x, hx, rfl⟩)
    simpa [depthOf, fx, fy] using this
  · have cx : lastCond C x.name = x.cond := by
      rw [← p.hist.cond, p.com]; simp [condAt, fx]
    have cy : lastCond C' x.name = y.cond := by
      rw [← p'.hist.cond, p'.com]; simp [condAt, fy]
    rcases hc x.name with ⟨e1, e2⟩ | ⟨c, c', e1, e2, e3⟩
    · exact .inl ⟨by rw [← cx, e1], by rw [← cy, e2]⟩
    · exact .inr ⟨c, c', by rw [← cx, e1], by rw [← cy, e2], e3, hw c (lastCond_some e1).1, hw' c' (lastCond_some e2).1,
      hp c (lastCond_some e1).1 c' (lastCond_some e2).1⟩

theorem rel_names {ns ns' : Nodes} (h : List.Forall₂ NodeRel ns ns') : ns.map Node.name = ns'.map Node.name := by
  induction h with
  | nil => rfl
  | cons hx _ ih => simp [hx.name, ih]

theorem rel_hps {ns ns' : Nodes} (h : List.Forall₂ NodeRel ns ns') : ns.map Node.hp = ns'.map Node.hp := by
  induction h with
  | nil => rfl
  | cons hx _ ih => simp [hx.1, ih]

theorem rel_findNode {ns ns' : Nodes} (h : List.Forall₂ NodeRel ns ns') (n : Name) :
    (findNode ns n).map (fun x => (x.hp, x.depth)) = (findNode ns' n).map (fun x => (x.hp, x.depth)) := by
  unfold findNode
  induction h with
  | nil => rfl
  | cons hx _ ih =>
    rw [List.find?_cons, List.find?_cons, hx.name]
    split
    · simp [hx.1, hx.2.1]
    · exact ih

theorem rel_rootNames {ns ns' : Nodes} (h : List.Forall₂ NodeRel ns ns') : rootNames ns = rootNames ns' := by
  unfold rootNames
  induction h with
  | nil => rfl
  | cons hx _ ih =>
    rw [List.filter_cons, List.filter_cons, hx.2.1]
    split
    · simp [hx.name, ih]
    · exact ih

theorem rel_depthOf {ns ns' : Nodes} (h : List.Forall₂ NodeRel ns ns') : depthOf ns = depthOf ns' := by
  funext n
  have := congrArg (Option.map Prod.snd) (rel_findNode h n)
  unfold depthOf
  cases h1 : findNode ns n <;> cases h2 : findNode ns' n <;> rw [h1, h2] at this <;> simp_all

theorem fillValues_rel {s s' : Space} (hidx : s.idx = s'.idx) : ∀ {ns ns' : Nodes} (d : Dict) (v : Vec)
    (vals : List (Name × Val)), List.Forall₂ NodeRel ns ns' → fillValues s d ns v vals = fillValues s' d ns' v vals
  | [], [], _, _, _, _ => rfl
  | x :: xs, y :: ys, d, v, vals, .cons hxy h4 => by
    unfold fillValues
    rw [hxy.name, hxy.1, hidx]
    have ih := fun d v vals => fillValues_rel (ns := xs) (ns' := ys) hidx d v vals h4
    simp only [ih]

/-- Validation, construction from values and the default configuration are the same in two spaces with equal
conditions and the same set of clauses. -/
theorem same_default_rel {s s' : Space} {H H' : List HP} {C C' : List Cond} {F F' : List Forb} (p : Pre s H C F)
    (p' : Pre s' H' C' F') (hHw : ∀ h ∈ H, h.wf = true) (hown : ∀ f ∈ F, ∀ h ∈ clauseHps f, h ∈ H)
    (hoc : ∀ c ∈ C, ∀ l ∈ c.dlcs, l.parent ∈ H) (hF : ∀ f, f ∈ F ↔ f ∈ F')
    (hrel : List.Forall₂ NodeRel s.com s'.com) :
    (∀ v al, s.check v al = s'.check v al) ∧ (∀ d al, Config.ofValues s d al = Config.ofValues s' d al) ∧
    s.defaultConfig = s'.defaultConfig := by
  have hidx : s.idx = s'.idx := by
    funext n
    simp [Space.idx, idxOf, rel_names hrel]
  have hhp : s.hp? = s'.hp? := by
    funext n
    have := congrArg (Option.map Prod.fst) (rel_findNode hrel n)
    simpa [Space.hp?, Option.map_map, Function.comp_def] using this
  have hnd : (H.map HP.name).Nodup := by
    have : (s.dag.nodes.map Node.hp).map HP.name = namesOf s.dag.nodes := by simp [namesOf, Node.name]
    exact ((p.hist.hps.map HP.name).nodup_iff).1 (this ▸ p.hist.ninv.nodup)
  have hinj : ∀ x ∈ H, ∀ y ∈ H, x.name = y.name → x = y :=
    fun x hx y hy e => List.inj_on_of_nodup_map hnd hx hy e
  have hfast : ∀ v, (s.fast.any (fun f => f.onVec s.idx v)) = (s'.fast.any (fun f => f.onVec s'.idx v)) := by
    intro v
    rw [Bool.eq_iff_iff, forb_any_iff, forb_any_iff, hidx,
      optimizedForbs_on (H := H) hinj (fun f hf => hown f (p.hist.forbs.mem_iff.1 hf))
        (fun f hf => p.hist.forbWf f (p.hist.forbs.mem_iff.1 hf)) p.fast,
      optimizedForbs_on (H := H) hinj (fun f hf => hown f ((hF f).2 (p'.hist.forbs.mem_iff.1 hf)))
        (fun f hf => p'.hist.forbWf f (p'.hist.forbs.mem_iff.1 hf)) p'.fast]
    simp only [p.hist.forbs.mem_iff, p'.hist.forbs.mem_iff, hF]
  have hcheck : ∀ v al, s.check v al = s'.check v al := by
    intro v al
    unfold Space.check
    rw [p.roots, p'.roots, rel_rootNames hrel, p.mins, p'.mins,
      checkConds_rel hidx (fun n q => by rw [hhp]) v al
        (minCondsSorted_rel (rel_depthOf hrel) (hrel.imp fun _ _ => NodeRel.sim)), hfast]
    unfold firstWith
    rw [hidx]
  have hof : ∀ d al, Config.ofValues s d al = Config.ofValues s' d al := by
    intro d al
    unfold Config.ofValues
    have hlen : s.len = s'.len := by
      rw [p.len, p'.len]
      exact hrel.length_eq
    rw [p.com, p'.com, rel_names hrel, hlen, fillValues_rel hidx _ _ _ hrel]
    simp only [hcheck]
  refine ⟨hcheck, hof, ?_⟩
  have hn : NInv s.com := p.com ▸ p.hist.ninv
  unfold Space.defaultConfig
  rw [p.com, p'.com, defaultValues_rel hinj hHw hrel (by
      intro x hx
      rw [← p.com] at hx
      exact p.hist.hps.mem_iff.1 (List.mem_map.2 ⟨x, hx, rfl⟩)) (by
      intro x hx c hc
      apply hoc
      have : lastCond C x.name = some c := by
        rw [← p.hist.cond, p.com]
        simp [condAt, findNode_of_mem hn.nodup hx, hc]
      exact (lastCond_some this).1) (by intro n o h; simp at h)]
  split
  · rfl
  · exact hof _ _

/-! ## Adding again what is already there -/

section
variable {calls : List Call} {s : Space} {k : Call}

theorem repeats_cond (h : Reach calls s) (hk : k.wf) (hr : Repeats calls k) {c : Cond}
    (hc : c ∈ allConds (calls ++ [k])) : ∃ x ∈ allConds calls, x.pyEq c = true ∧ childName x = childName c := by
  have hw := (reach_wf h).2.1
  rw [allConds_snoc, List.mem_append] at hc
  rcases hc with hc | hc
  · exact ⟨c, hc, Cond.pyEq_refl _, rfl⟩
  · obtain ⟨x, hx, e⟩ := hr.conds c hc
    exact ⟨x, hx, e, pyEq_child (hw x hx) (hk.2.1 c hc) e⟩

theorem repeats_parentRel (h : Reach calls s) (hk : k.wf) (hr : Repeats calls k) :
    parentRel (allConds calls) = parentRel (allConds (calls ++ [k])) := by
  funext p n
  apply propext
  constructor
  · exact parentRel_mono (fun c hc => by rw [allConds_snoc]; simp [hc]) p n
  · rintro ⟨c, hc, h1, h2⟩
    obtain ⟨x, hx, e, e'⟩ := repeats_cond h hk hr hc
    exact ⟨x, hx, e'.trans h1, (pyEq_parents _ _ e p).2 h2⟩

theorem repeats_hps (hr : Repeats calls k) : allHps (calls ++ [k]) = allHps calls := by
  rw [allHps_snoc, hr.hps, List.append_nil]

theorem repeats_fits (h : Reach calls s) (hk : k.wf) (hr : Repeats calls k) : Fits calls k := by
  have hi := (sinv_of_reach h).hist
  have hkn : ∀ n, Known (calls ++ [k]) n ↔ Known calls n := by intro n; unfold Known; rw [repeats_hps hr]
  have hin : ∀ c ∈ k.conds, c ∈ allConds (calls ++ [k]) := fun c hc => by rw [allConds_snoc]; simp [hc]
  refine ⟨?_, ?_, ?_, ?_, ?_, ?_⟩
  · rw [repeats_hps hr]
    have : (s.dag.nodes.map Node.hp).map HP.name = namesOf s.dag.nodes := by simp [namesOf, Node.name]
    exact ((hi.hps.map HP.name).nodup_iff).1 (this ▸ hi.ninv.nodup)
  · intro c hc n hn
    obtain ⟨x, hx, e, e'⟩ := repeats_cond h hk hr (hin c hc)
    rw [hkn]
    exact hinv_child_known hi hx (e'.trans hn)
  · intro c hc l hl
    obtain ⟨x, hx, e, e'⟩ := repeats_cond h hk hr (hin c hc)
    obtain ⟨m, hm, e2⟩ := parents_iff.1 ((pyEq_parents _ _ e l.parent.name).2 (parents_iff.2 ⟨l, hl, rfl⟩))
    obtain ⟨ch, hch⟩ := wf_child ((reach_wf h).2.1 x hx)
    rw [hkn, ← e2]
    exact hinv_parents_known hi hx (n := ch.name) (by simp [childName, hch]) hm
  · intro c hc x hx hn
    obtain ⟨y, hy, e, e'⟩ := repeats_cond h hk hr (hin c hc)
    obtain ⟨z, hz, f, f'⟩ := repeats_cond h hk hr hx
    obtain ⟨ch, hch⟩ := wf_child ((reach_wf h).2.1 y hy)
    have hyn : childName y = some ch.name := by simp [childName, hch]
    have hyz : y.pyEq z = true := hinv_single hi hy hz hyn (by rw [f', hn, ← e', hyn])
    exact Cond.pyEq_trans (Cond.pyEq_symm (Cond.wf_wf0 ((reach_wf h).2.1 y hy)) e) (Cond.pyEq_trans hyz f)
  · rw [← parentRel_iff, ← repeats_parentRel h hk hr]
    exact hi.acyclic
  · intro f hf n hn
    rw [hkn]
    exact (hi.isNode n).1 (hi.forbNames f (hr.forbs f hf) n hn)

/-- Adding again equal conditions and present clauses succeeds and changes nothing observable. -/
theorem readd (h : Reach calls s) (hown : OwnClauses calls) (hoc : OwnConds (calls ++ [k])) (hk : k.wf) (hr : Repeats calls k) :
    ∃ s', s.add k.hps k.conds k.forbs = (s', none) ∧ Reach (calls ++ [k]) s' ∧ List.Forall₂ NodeRel s.com s'.com ∧
      (∀ v al, s.check v al = s'.check v al) ∧ (∀ d al, Config.ofValues s d al = Config.ofValues s' d al) ∧
      s.defaultConfig = s'.defaultConfig := by
  have hi := (sinv_of_reach h).hist
  have hw := reach_wf h
  have hin : ∀ c ∈ allConds calls, c ∈ allConds (calls ++ [k]) := fun c hc => by rw [allConds_snoc]; simp [hc]
  have hinj : ∀ x ∈ allHps (calls ++ [k]), ∀ y ∈ allHps (calls ++ [k]), x.name = y.name → x = y := by
    rw [repeats_hps hr]
    have : (s.dag.nodes.map Node.hp).map HP.name = namesOf s.dag.nodes := by simp [namesOf, Node.name]
    exact fun x hx y hy e => List.inj_on_of_nodup_map (((hi.hps.map HP.name).nodup_iff).1 (this ▸ hi.ninv.nodup)) hx hy e
  have hF : ∀ f, f ∈ allForbs calls ↔ f ∈ allForbs (calls ++ [k]) := by
    intro f
    rw [allForbs_snoc, List.mem_append]
    exact ⟨.inl, fun hf => hf.elim id (hr.forbs f)⟩
  have p := pre_of_reach h
  obtain ⟨s', p', ha⟩ := add_candidate h hk (repeats_fits h hk hr) (by
      intro f hf x hx
      rw [repeats_hps hr]
      exact hown f ((hF f).2 hf) x hx) (by
      intro hf
      exact noEmpty_of_pre p ((hF _).2 hf))
  have hw' : ∀ c ∈ allConds (calls ++ [k]), c.wf = true := by
    intro c hc
    rw [allConds_snoc, List.mem_append] at hc
    exact hc.elim (hw.2.1 c) (hk.2.1 c)
  have hrel : List.Forall₂ NodeRel s.com s'.com := by
    refine nodes_rel p p' (by rw [repeats_hps hr]) (repeats_parentRel h hk hr) hw.2.1 hw'
      (fun c hc c' hc' l hl m hm e => hinj _ (hoc c (hin c hc) l hl).1 _ (hoc c' hc' m hm).1 e) ?_
    intro n
    cases e : lastCond (allConds (calls ++ [k])) n with
    | none =>
      refine .inl ⟨?_, rfl⟩
      rw [lastCond_none] at e ⊢
      exact fun c hc => e c (by rw [allConds_snoc]; simp [hc])
    | some c' =>
      obtain ⟨hc', hn⟩ := lastCond_some e
      obtain ⟨x, hx, f, f'⟩ := repeats_cond h hk hr hc'
      cases e2 : lastCond (allConds calls) n with
      | none => exact absurd (f'.trans hn) (lastCond_none.1 e2 x hx)
      | some c =>
        obtain ⟨hc, hcn⟩ := lastCond_some e2
        exact .inr ⟨c, c', rfl, rfl, Cond.pyEq_trans (hinv_single hi hc hx hcn (f'.trans hn)) f⟩
  obtain ⟨k1, k2, k3⟩ := same_default_rel p p' hw.1 hown (fun c hc l hl => by
    have := (hoc c (hin c hc) l hl).1
    rwa [repeats_hps hr] at this) hF hrel
  obtain ⟨c, hc⟩ := (sinv_of_reach h).default
  rw [k3] at hc
  rw [hc] at ha
  exact ⟨s', ha, Reach.snoc h hk ha, hrel, k1, k2, k3⟩

end

end Verif
