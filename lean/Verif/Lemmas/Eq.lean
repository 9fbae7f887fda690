import Verif.Spec.Eval

/-!
# Equality of conditions: an equivalence relation that determines the meaning
-/

set_option autoImplicit false

namespace Verif
open Verif.Spec

/-! ## Values -/

theorem Val.pyEq_iff {a b : Val} : a.pyEq b = true ↔
    (∃ s, a = .str s ∧ b = .str s) ∨ (∃ q, a.num? = some q ∧ b.num? = some q) := by
  cases a <;> cases b <;> simp [Val.pyEq, Val.num?] <;> exact ⟨fun h => h.symm, fun h => h.symm⟩

theorem Val.pyEq_refl (a : Val) : a.pyEq a = true := by
  cases a <;> simp [Val.pyEq, Val.num?]

theorem Val.pyEq_symm {a b : Val} (h : a.pyEq b = true) : b.pyEq a = true := by
  rw [Val.pyEq_iff] at h ⊢
  rcases h with ⟨s, h1, h2⟩ | ⟨q, h1, h2⟩
  · exact .inl ⟨s, h2, h1⟩
  · exact .inr ⟨q, h2, h1⟩

theorem Val.pyEq_comm (a b : Val) : a.pyEq b = b.pyEq a := by
  by_cases h : a.pyEq b = true
  · rw [h, Val.pyEq_symm h]
  · by_cases h' : b.pyEq a = true
    · exact absurd (Val.pyEq_symm h') h
    · rw [Bool.not_eq_true] at h h'; rw [h, h']

theorem Val.pyEq_trans {a b c : Val} (h : a.pyEq b = true) (h' : b.pyEq c = true) :
    a.pyEq c = true := by
  rw [Val.pyEq_iff] at h h' ⊢
  rcases h with ⟨s, h1, h2⟩ | ⟨q, h1, h2⟩
  · rcases h' with ⟨t, h3, h4⟩ | ⟨q, h3, h4⟩
    · rw [h2] at h3; cases h3; exact .inl ⟨s, h1, h4⟩
    · rw [h2] at h3; simp [Val.num?] at h3
  · rcases h' with ⟨t, h3, h4⟩ | ⟨q', h3, h4⟩
    · rw [h3] at h2; simp [Val.num?] at h2
    · rw [h2] at h3; cases h3; exact .inr ⟨q, h1, h4⟩

theorem Val.pyEq_congr {a b : Val} (h : a.pyEq b = true) (x : Val) : a.pyEq x = b.pyEq x := by
  rw [Bool.eq_iff_iff]
  exact ⟨fun h' => Val.pyEq_trans (Val.pyEq_symm h) h', fun h' => Val.pyEq_trans h h'⟩

theorem Val.pyEq_congr_right {a b : Val} (h : a.pyEq b = true) (x : Val) : x.pyEq a = x.pyEq b := by
  rw [Val.pyEq_comm x a, Val.pyEq_comm x b, Val.pyEq_congr h]

theorem Val.num_of_pyEq {a b : Val} (h : a.pyEq b = true) : a.num? = b.num? := by
  rw [Val.pyEq_iff] at h
  rcases h with ⟨s, rfl, rfl⟩ | ⟨q, h1, h2⟩
  · rfl
  · rw [h1, h2]

/-- Equal values have the same vector value. -/
theorem toVec_of_pyEq {a b : Val} (h : a.pyEq b = true) (k : Kind) : k.toVec a = k.toVec b := by
  cases k with
  | cat cs => simp only [Kind.toVec, seqIndex, Val.pyEq_congr_right h]
  | ord cs => simp only [Kind.toVec, seqIndex, Val.pyEq_congr_right h]
  | const c => simp only [Kind.toVec, Val.pyEq_congr h]
  | int l u => simp only [Kind.toVec, Val.num_of_pyEq h]
  | flt l u => simp only [Kind.toVec, Val.num_of_pyEq h]

theorem valsEq_refl : ∀ a : List Val, valsEq a a = true
  | [] => rfl
  | x :: xs => by simp [valsEq, Val.pyEq_refl, valsEq_refl xs]

theorem valsEq_symm : ∀ {a b : List Val}, valsEq a b = true → valsEq b a = true
  | [], [], _ => rfl
  | x :: xs, y :: ys, h => by
    simp only [valsEq, Bool.and_eq_true] at h ⊢
    exact ⟨Val.pyEq_symm h.1, valsEq_symm h.2⟩
  | [], _ :: _, h => by simp [valsEq] at h
  | _ :: _, [], h => by simp [valsEq] at h

theorem valsEq_trans : ∀ {a b c : List Val}, valsEq a b = true → valsEq b c = true →
    valsEq a c = true
  | [], [], [], _, _ => rfl
  | x :: xs, y :: ys, z :: zs, h, h' => by
    simp only [valsEq, Bool.and_eq_true] at h h' ⊢
    exact ⟨Val.pyEq_trans h.1 h'.1, valsEq_trans h.2 h'.2⟩
  | [], _ :: _, _, h, _ => by simp [valsEq] at h
  | _ :: _, [], _, h, _ => by simp [valsEq] at h
  | [], [], _ :: _, _, h => by simp [valsEq] at h
  | _ :: _, _ :: _, [], _, h => by simp [valsEq] at h

theorem valsEq_filterMap (k : Kind) : ∀ {a b : List Val}, valsEq a b = true →
    a.filterMap k.toVec = b.filterMap k.toVec
  | [], [], _ => rfl
  | x :: xs, y :: ys, h => by
    simp only [valsEq, Bool.and_eq_true] at h
    simp only [List.filterMap_cons, toVec_of_pyEq h.1, valsEq_filterMap k h.2]
  | [], _ :: _, h => by simp [valsEq] at h
  | _ :: _, [], h => by simp [valsEq] at h

/-! ## Hyperparameters -/

theorem pigeonhole {α β : Type} {R : α → β → Prop} : ∀ {cs : List α} {ds : List β},
    cs.length = ds.length → (∀ c ∈ cs, ∃ d ∈ ds, R c d) →
    cs.Pairwise (fun a b => ∀ d, ¬ (R a d ∧ R b d)) → ∀ d ∈ ds, ∃ c ∈ cs, R c d
  | [], ds, hl, _, _, d, hd => by
    have : ds = [] := List.eq_nil_of_length_eq_zero (by simpa using hl.symm)
    subst this; cases hd
  | c :: cs, ds, hl, hR, hp, d, hd => by
    obtain ⟨d0, hd0, hcd0⟩ := hR c (by simp)
    obtain ⟨l1, l2, rfl⟩ := List.append_of_mem hd0
    have hp' := List.pairwise_cons.1 hp
    have ih := pigeonhole (cs := cs) (ds := l1 ++ l2) (R := R)
      (by simp at hl ⊢; omega)
      (by
        intro c' hc'
        obtain ⟨d', hd', hcd'⟩ := hR c' (by simp [hc'])
        have : d' ≠ d0 := by rintro rfl; exact hp'.1 c' hc' d' ⟨hcd0, hcd'⟩
        refine ⟨d', ?_, hcd'⟩
        simp only [List.mem_append, List.mem_cons] at hd' ⊢
        rcases hd' with h | h | h
        · exact .inl h
        · exact absurd h this
        · exact .inr h)
      hp'.2
    by_cases h : d ∈ l1 ++ l2
    · obtain ⟨c', h1, h2⟩ := ih d h
      exact ⟨c', by simp [h1], h2⟩
    · have : d = d0 := by
        simp only [List.mem_append, List.mem_cons, not_or] at hd h
        rcases hd with h' | h' | h'
        · exact absurd h' h.1
        · exact h'
        · exact absurd h' h.2
      exact ⟨c, by simp, this ▸ hcd0⟩

theorem pyIn_iff {v : Val} {xs : List Val} : v.pyIn xs = true ↔ ∃ x ∈ xs, x.pyEq v = true := by
  simp [Val.pyIn]

theorem distinctVals_apart {cs : List Val} (h : distinctVals cs = true) : cs.Pairwise (fun a b => ∀ d : Val,
    ¬ (d.pyEq a = true ∧ d.pyEq b = true)) := by
  induction cs with
  | nil => exact .nil
  | cons c cs ih =>
    simp only [distinctVals, Bool.and_eq_true, Bool.not_eq_true'] at h
    refine List.pairwise_cons.2 ⟨?_, ih h.2⟩
    intro b hb d hd
    have : c.pyIn cs = true := pyIn_iff.2 ⟨b, hb, Val.pyEq_trans (Val.pyEq_symm hd.2) hd.1⟩
    rw [this] at h
    cases h.1

theorem HP.pyEq_name {a b : HP} (h : a.pyEq b = true) : a.name = b.name := by
  simp only [HP.pyEq, Bool.and_eq_true, decide_eq_true_eq] at h
  exact h.1.1

theorem HP.pyEq_refl (a : HP) : a.pyEq a = true := by
  obtain ⟨an, ak, ad⟩ := a
  simp only [HP.pyEq, Val.pyEq_refl, decide_true, Bool.true_and]
  cases ak with
  | cat cs =>
    simp only [decide_true, Bool.true_and, List.all_eq_true]
    exact fun c hc => pyIn_iff.2 ⟨c, hc, Val.pyEq_refl c⟩
  | ord cs => exact valsEq_refl _
  | const v => exact Val.pyEq_refl _
  | int l u => simp
  | flt l u => simp

theorem HP.pyEq_trans {a b c : HP} (h : a.pyEq b = true) (h' : b.pyEq c = true) : a.pyEq c = true := by
  obtain ⟨an, ak, ad⟩ := a
  obtain ⟨bn, bk, bd⟩ := b
  obtain ⟨cn, ck, cd⟩ := c
  simp only [HP.pyEq, Bool.and_eq_true, decide_eq_true_eq] at h h' ⊢
  obtain ⟨⟨h1, h2⟩, h3⟩ := h
  obtain ⟨⟨k1, k2⟩, k3⟩ := h'
  refine ⟨⟨h1.trans k1, Val.pyEq_trans h2 k2⟩, ?_⟩
  cases ak <;> cases bk <;> cases ck <;>
    simp only [Bool.and_eq_true, decide_eq_true_eq, Bool.false_eq_true, List.all_eq_true] at h3 k3 ⊢
  · refine ⟨h3.1.trans k3.1, fun x hx => ?_⟩
    obtain ⟨y, hy, e⟩ := pyIn_iff.1 (h3.2 x hx)
    obtain ⟨z, hz, e'⟩ := pyIn_iff.1 (k3.2 y hy)
    exact pyIn_iff.2 ⟨z, hz, Val.pyEq_trans e' e⟩
  · exact valsEq_trans h3 k3
  · exact Val.pyEq_trans h3 k3
  · exact ⟨h3.1.trans k3.1, h3.2.trans k3.2⟩
  · exact ⟨h3.1.trans k3.1, h3.2.trans k3.2⟩

theorem HP.pyEq_symm {a b : HP} (hw : a.wf = true) (h : a.pyEq b = true) : b.pyEq a = true := by
  obtain ⟨an, ak, ad⟩ := a
  obtain ⟨bn, bk, bd⟩ := b
  simp only [HP.pyEq, Bool.and_eq_true, decide_eq_true_eq] at h ⊢
  obtain ⟨⟨h1, h2⟩, h3⟩ := h
  refine ⟨⟨h1.symm, Val.pyEq_symm h2⟩, ?_⟩
  cases ak <;> cases bk <;>
    simp only [Bool.and_eq_true, decide_eq_true_eq, Bool.false_eq_true, List.all_eq_true] at h3 ⊢
  · rename_i cs ds
    refine ⟨h3.1.symm, fun d hd => ?_⟩
    have hdist : distinctVals cs = true := by
      simp only [HP.wf, Bool.and_eq_true] at hw
      exact hw.1.2
    obtain ⟨c, hc, e⟩ := pigeonhole (R := fun c d : Val => d.pyEq c = true) h3.1
      (fun c hc => pyIn_iff.1 (h3.2 c hc)) (distinctVals_apart hdist) d hd
    exact pyIn_iff.2 ⟨c, hc, Val.pyEq_symm e⟩
  · exact valsEq_symm h3
  · exact Val.pyEq_symm h3
  · exact ⟨h3.1.symm, h3.2.symm⟩
  · exact ⟨h3.1.symm, h3.2.symm⟩

theorem sameOrder_refl (a : HP) : SameOrder a a := by
  intro cs ds h h'
  rw [h] at h'
  cases h'
  exact valsEq_refl _

theorem seqIndex_of_valsEq : ∀ {cs ds : List Val}, valsEq cs ds = true → ∀ v, seqIndex cs v = seqIndex ds v
  | [], [], _, _ => rfl
  | x :: xs, y :: ys, h, v => by
    simp only [valsEq, Bool.and_eq_true] at h
    have := seqIndex_of_valsEq h.2 v
    unfold seqIndex at this ⊢
    rw [List.findIdx?_cons, List.findIdx?_cons, Val.pyEq_congr h.1, this]
  | [], _ :: _, h, _ => by simp [valsEq] at h
  | _ :: _, [], h, _ => by simp [valsEq] at h

/-- Equal hyperparameters with the same order of choices have the same vector values. -/
theorem toVec_of_hpEq {a b : HP} (h : a.pyEq b = true) (ho : SameOrder a b) (v : Val) : a.kind.toVec v = b.kind.toVec v := by
  obtain ⟨an, ak, ad⟩ := a
  obtain ⟨bn, bk, bd⟩ := b
  simp only [HP.pyEq, Bool.and_eq_true, decide_eq_true_eq] at h
  obtain ⟨_, h3⟩ := h
  cases ak <;> cases bk <;>
    simp only [Bool.and_eq_true, decide_eq_true_eq, Bool.false_eq_true, List.all_eq_true] at h3
  · simp only [Kind.toVec, seqIndex_of_valsEq (ho _ _ rfl rfl)]
  · simp only [Kind.toVec, seqIndex_of_valsEq h3]
  · simp only [Kind.toVec, Val.pyEq_congr_right h3]
  · rw [h3.1, h3.2]
  · rw [h3.1, h3.2]

/-! ## Literals -/

theorem Test.pyEq_refl (t : Test) : t.pyEq t = true := by
  cases t <;> simp [Test.pyEq, Val.pyEq_refl, valsEq_refl]

theorem Test.pyEq_symm {t u : Test} (h : t.pyEq u = true) : u.pyEq t = true := by
  cases t <;> cases u <;> simp only [Test.pyEq, Bool.and_eq_true, decide_eq_true_eq] at h ⊢
  · exact ⟨h.1.symm, Val.pyEq_symm h.2⟩
  · cases h
  · cases h
  · exact valsEq_symm h

theorem Test.pyEq_trans {t u w : Test} (h : t.pyEq u = true) (h' : u.pyEq w = true) :
    t.pyEq w = true := by
  cases t <;> cases u <;> cases w <;>
    simp only [Test.pyEq, Bool.and_eq_true, decide_eq_true_eq, Bool.false_eq_true] at h h' ⊢
  · exact ⟨h.1.trans h'.1, Val.pyEq_trans h.2 h'.2⟩
  · exact valsEq_trans h h'

theorem Lit.wf_hps {l : Lit} (h : l.wf = true) : l.child.wf = true ∧ l.parent.wf = true := by
  simp only [Lit.wf, Bool.and_eq_true] at h
  exact ⟨h.1.1.2, h.1.2⟩

theorem Lit.pyEq_refl (a : Lit) : a.pyEq a = true := by simp [Lit.pyEq, HP.pyEq_refl, Test.pyEq_refl]

theorem Lit.pyEq_symm {a b : Lit} (hw : a.wf = true) (h : a.pyEq b = true) : b.pyEq a = true := by
  simp only [Lit.pyEq, Bool.and_eq_true] at h ⊢
  exact ⟨⟨HP.pyEq_symm (Lit.wf_hps hw).1 h.1.1, HP.pyEq_symm (Lit.wf_hps hw).2 h.1.2⟩, Test.pyEq_symm h.2⟩

theorem Lit.pyEq_trans {a b c : Lit} (h : a.pyEq b = true) (h' : b.pyEq c = true) :
    a.pyEq c = true := by
  simp only [Lit.pyEq, Bool.and_eq_true] at h h' ⊢
  exact ⟨⟨HP.pyEq_trans h.1.1 h'.1.1, HP.pyEq_trans h.1.2 h'.1.2⟩, Test.pyEq_trans h.2 h'.2⟩

theorem Lit.equiv_refl (a : Lit) : a.equivOnParent a = true := by
  simp [Lit.equivOnParent, HP.pyEq_refl, Test.pyEq_refl]

theorem Lit.equiv_symm {a b : Lit} (hw : a.wf = true) (h : a.equivOnParent b = true) : b.equivOnParent a = true := by
  simp only [Lit.equivOnParent, Bool.and_eq_true] at h ⊢
  exact ⟨HP.pyEq_symm (Lit.wf_hps hw).2 h.1, Test.pyEq_symm h.2⟩

theorem Lit.equiv_trans {a b c : Lit} (h : a.equivOnParent b = true)
    (h' : b.equivOnParent c = true) : a.equivOnParent c = true := by
  simp only [Lit.equivOnParent, Bool.and_eq_true] at h h' ⊢
  exact ⟨HP.pyEq_trans h.1 h'.1, Test.pyEq_trans h.2 h'.2⟩

theorem Lit.equiv_of_pyEq {a b : Lit} (h : a.pyEq b = true) : a.equivOnParent b = true := by
  simp only [Lit.pyEq, Lit.equivOnParent, Bool.and_eq_true] at h ⊢
  exact ⟨h.1.2, h.2⟩

/-- Literals that are equivalent on the parent test the same thing, if the choices come in the same order. -/
theorem Lit.equiv_onEntry {a b : Lit} (ha : a.wf = true) (hb : b.wf = true) (ho : SameOrder a.parent b.parent)
    (h : a.equivOnParent b = true) :
    a.parent.name = b.parent.name ∧ ∀ e, a.test.onEntry e = b.test.onEntry e := by
  obtain ⟨ac, ap, at'⟩ := a
  obtain ⟨bc, bp, bt⟩ := b
  simp only [Lit.equivOnParent, Bool.and_eq_true] at h
  obtain ⟨h1, h2⟩ := h
  have hv := toVec_of_hpEq h1 ho
  refine ⟨HP.pyEq_name h1, ?_⟩
  cases at' <;> cases bt <;> simp only [Test.pyEq, Bool.and_eq_true, decide_eq_true_eq,
    Bool.false_eq_true] at h2
  · rename_i o v x o' v' x'
    obtain ⟨rfl, h2⟩ := h2
    have : x = x' := by
      simp only [Lit.wf, Bool.and_eq_true, decide_eq_true_eq] at ha hb
      have h3 := ha.2.1.2
      have h4 := hb.2.1.2
      rw [toVec_of_pyEq h2, hv, h4] at h3
      exact (Option.some.inj h3).symm
    subst this
    intro e
    cases o <;> rfl
  · rename_i vs xs vs' xs'
    have : xs = xs' := by
      simp only [Lit.wf, Bool.and_eq_true, decide_eq_true_eq] at ha hb
      rw [ha.2.2, hb.2.2, valsEq_filterMap _ h2]
      exact congrArg (fun f => List.filterMap f vs') (funext hv)
    subst this
    intro e; rfl

/-! ## Conditions -/

theorem allIn_iff {cs ds : List Cond} :
    Cond.allIn cs ds = true ↔ ∀ c ∈ cs, ∃ d ∈ ds, c.pyEq d = true := by
  induction cs with
  | nil => simp [Cond.allIn]
  | cons c cs ih => simp [Cond.allIn, ih]

theorem anyEq_iff {cs : List Cond} {d : Cond} :
    Cond.anyEq cs d = true ↔ ∃ c ∈ cs, c.pyEq d = true := by
  induction cs with
  | nil => simp [Cond.anyEq]
  | cons c cs ih => simp [Cond.anyEq, ih]

/-- Both lists have the same length and the same elements up to equality. -/
def condsEq (cs ds : List Cond) : Prop :=
  cs.length = ds.length ∧ (∀ c ∈ cs, ∃ d ∈ ds, c.pyEq d = true) ∧
    ∀ d ∈ ds, ∃ c ∈ cs, c.pyEq d = true

theorem pyEq_and {cs ds : List Cond} : (Cond.and cs).pyEq (.and ds) = true ↔ condsEq cs ds := by
  simp [Cond.pyEq, allIn_iff, anyEq_iff, condsEq, and_assoc]

theorem pyEq_or {cs ds : List Cond} : (Cond.or cs).pyEq (.or ds) = true ↔ condsEq cs ds := by
  simp [Cond.pyEq, allIn_iff, anyEq_iff, condsEq, and_assoc]

/-- Induction over conditions with the induction hypothesis for every component. -/
theorem Cond.induct {P : Cond → Prop} (hl : ∀ l, P (.lit l))
    (ha : ∀ cs, (∀ c ∈ cs, P c) → P (.and cs)) (ho : ∀ cs, (∀ c ∈ cs, P c) → P (.or cs))
    (c : Cond) : P c :=
  Cond.rec (motive_1 := P) (motive_2 := fun cs => ∀ c ∈ cs, P c) hl ha ho
    (by intro c hc; cases hc)
    (by
      intro c cs h1 h2 x hx
      rcases List.mem_cons.1 hx with rfl | hx
      · exact h1
      · exact h2 x hx) c

theorem Cond.pyEq_refl (c : Cond) : c.pyEq c = true := by
  induction c using Cond.induct with
  | hl l => simp [Cond.pyEq, Lit.pyEq_refl]
  | ha cs ih => exact pyEq_and.2 ⟨rfl, fun c hc => ⟨c, hc, ih c hc⟩, fun c hc => ⟨c, hc, ih c hc⟩⟩
  | ho cs ih => exact pyEq_or.2 ⟨rfl, fun c hc => ⟨c, hc, ih c hc⟩, fun c hc => ⟨c, hc, ih c hc⟩⟩

theorem condsEq_symm {cs ds : List Cond}
    (ih : ∀ c ∈ cs, ∀ d, c.pyEq d = true → d.pyEq c = true) (h : condsEq cs ds) :
    condsEq ds cs := by
  refine ⟨h.1.symm, ?_, ?_⟩
  · intro d hd
    obtain ⟨c, hc, e⟩ := h.2.2 d hd
    exact ⟨c, hc, ih c hc d e⟩
  · intro c hc
    obtain ⟨d, hd, e⟩ := h.2.1 c hc
    exact ⟨d, hd, ih c hc d e⟩

theorem wf0L_iff {cs : List Cond} : Cond.wf0L cs = true ↔ ∀ c ∈ cs, c.wf0 = true := by
  induction cs with
  | nil => simp [Cond.wf0L]
  | cons c cs ih => simp [Cond.wf0L, ih]

theorem wf0_and {cs : List Cond} : (Cond.and cs).wf0 = true ↔
    2 ≤ cs.length ∧ ∀ c ∈ cs, c.wf0 = true := by
  simp [Cond.wf0, wf0L_iff]

theorem wf0_or {cs : List Cond} : (Cond.or cs).wf0 = true ↔
    2 ≤ cs.length ∧ ∀ c ∈ cs, c.wf0 = true := by
  simp [Cond.wf0, wf0L_iff]

theorem Cond.pyEq_symm {c d : Cond} (hw : c.wf0 = true) (h : c.pyEq d = true) : d.pyEq c = true := by
  induction c using Cond.induct generalizing d with
  | hl l =>
    cases d with
    | lit m => simp only [Cond.pyEq] at h ⊢; exact Lit.pyEq_symm (by simpa [Cond.wf0] using hw) h
    | and _ => simp [Cond.pyEq] at h
    | or _ => simp [Cond.pyEq] at h
  | ha cs ih =>
    cases d with
    | and ds => exact pyEq_and.2 (condsEq_symm (fun c hc d => ih c hc ((wf0_and.1 hw).2 c hc)) (pyEq_and.1 h))
    | lit _ => simp [Cond.pyEq] at h
    | or _ => simp [Cond.pyEq] at h
  | ho cs ih =>
    cases d with
    | or ds => exact pyEq_or.2 (condsEq_symm (fun c hc d => ih c hc ((wf0_or.1 hw).2 c hc)) (pyEq_or.1 h))
    | lit _ => simp [Cond.pyEq] at h
    | and _ => simp [Cond.pyEq] at h

theorem Cond.wf_wf0 {c : Cond} (h : c.wf = true) : c.wf0 = true := by
  simp only [Cond.wf, Bool.and_eq_true] at h
  exact h.1

theorem condsEq_trans {cs ds es : List Cond}
    (ih : ∀ c ∈ cs, ∀ d e, c.pyEq d = true → d.pyEq e = true → c.pyEq e = true)
    (h : condsEq cs ds) (h' : condsEq ds es) : condsEq cs es := by
  refine ⟨h.1.trans h'.1, ?_, ?_⟩
  · intro c hc
    obtain ⟨d, hd, e1⟩ := h.2.1 c hc
    obtain ⟨e, he, e2⟩ := h'.2.1 d hd
    exact ⟨e, he, ih c hc d e e1 e2⟩
  · intro e he
    obtain ⟨d, hd, e2⟩ := h'.2.2 e he
    obtain ⟨c, hc, e1⟩ := h.2.2 d hd
    exact ⟨c, hc, ih c hc d e e1 e2⟩

theorem Cond.pyEq_trans {c d e : Cond} (h : c.pyEq d = true) (h' : d.pyEq e = true) :
    c.pyEq e = true := by
  induction c using Cond.induct generalizing d e with
  | hl l =>
    cases d with
    | lit m =>
      cases e with
      | lit n => simp only [Cond.pyEq] at h h' ⊢; exact Lit.pyEq_trans h h'
      | and _ => simp [Cond.pyEq] at h'
      | or _ => simp [Cond.pyEq] at h'
    | and _ => simp [Cond.pyEq] at h
    | or _ => simp [Cond.pyEq] at h
  | ha cs ih =>
    cases d with
    | and ds =>
      cases e with
      | and es =>
        exact pyEq_and.2 (condsEq_trans (fun c hc d e => ih c hc) (pyEq_and.1 h) (pyEq_and.1 h'))
      | lit _ => simp [Cond.pyEq] at h'
      | or _ => simp [Cond.pyEq] at h'
    | lit _ => simp [Cond.pyEq] at h
    | or _ => simp [Cond.pyEq] at h
  | ho cs ih =>
    cases d with
    | or ds =>
      cases e with
      | or es =>
        exact pyEq_or.2 (condsEq_trans (fun c hc d e => ih c hc) (pyEq_or.1 h) (pyEq_or.1 h'))
      | lit _ => simp [Cond.pyEq] at h'
      | and _ => simp [Cond.pyEq] at h'
    | lit _ => simp [Cond.pyEq] at h
    | and _ => simp [Cond.pyEq] at h

/-! ## Meaning -/

theorem satVecAll_iff {idx : Name → Nat} {v : Vec} {cs : List Cond} :
    Cond.satVecAll idx v cs = true ↔ ∀ c ∈ cs, c.satVec idx v = true := by
  induction cs with
  | nil => simp [Cond.satVecAll]
  | cons c cs ih => simp [Cond.satVecAll, ih]

theorem satVecAny_iff {idx : Name → Nat} {v : Vec} {cs : List Cond} :
    Cond.satVecAny idx v cs = true ↔ ∃ c ∈ cs, c.satVec idx v = true := by
  induction cs with
  | nil => simp [Cond.satVecAny]
  | cons c cs ih => simp [Cond.satVecAny, ih]

theorem mem_dlcsL {cs : List Cond} {l : Lit} : l ∈ Cond.dlcsL cs ↔ ∃ c ∈ cs, l ∈ c.dlcs := by
  induction cs with
  | nil => simp [Cond.dlcsL]
  | cons c cs ih => simp [Cond.dlcsL, ih]

/-- Equal conditions hold on the same vectors, whatever the layout, if the choices come in the same order. -/
theorem pyEq_satVec {c d : Cond} (hc : c.wf0 = true) (hd : d.wf0 = true) (ho : SameOrders c d) (h : c.pyEq d = true)
    (idx : Name → Nat) (v : Vec) : c.satVec idx v = d.satVec idx v := by
  induction c using Cond.induct generalizing d with
  | hl l =>
    cases d with
    | lit m =>
      simp only [Cond.pyEq] at h
      simp only [Cond.wf0] at hc hd
      have he := Lit.equiv_of_pyEq h
      obtain ⟨h1, h2⟩ := Lit.equiv_onEntry hc hd (ho l (by simp [Cond.dlcs]) m (by simp [Cond.dlcs])
        (by simp only [Lit.pyEq, Bool.and_eq_true] at h; exact h.1.2)) he
      simp only [Cond.satVec, h1, h2]
    | and _ => simp [Cond.pyEq] at h
    | or _ => simp [Cond.pyEq] at h
  | ha cs ih =>
    cases d with
    | and ds =>
      have h := pyEq_and.1 h
      have hc := (wf0_and.1 hc).2
      have hd := (wf0_and.1 hd).2
      simp only [Cond.satVec]
      rw [Bool.eq_iff_iff, satVecAll_iff, satVecAll_iff]
      constructor
      · intro hs d hdm
        obtain ⟨c, hcm, e⟩ := h.2.2 d hdm
        rw [← ih c hcm (hc c hcm) (hd d hdm) (fun l hl m hm => ho l (mem_dlcsL.2 ⟨c, hcm, hl⟩) m (mem_dlcsL.2 ⟨d, hdm, hm⟩)) e]; exact hs c hcm
      · intro hs c hcm
        obtain ⟨d, hdm, e⟩ := h.2.1 c hcm
        rw [ih c hcm (hc c hcm) (hd d hdm) (fun l hl m hm => ho l (mem_dlcsL.2 ⟨c, hcm, hl⟩) m (mem_dlcsL.2 ⟨d, hdm, hm⟩)) e]; exact hs d hdm
    | lit _ => simp [Cond.pyEq] at h
    | or _ => simp [Cond.pyEq] at h
  | ho cs ih =>
    cases d with
    | or ds =>
      have h := pyEq_or.1 h
      have hc := (wf0_or.1 hc).2
      have hd := (wf0_or.1 hd).2
      simp only [Cond.satVec]
      rw [Bool.eq_iff_iff, satVecAny_iff, satVecAny_iff]
      constructor
      · rintro ⟨c, hcm, hs⟩
        obtain ⟨d, hdm, e⟩ := h.2.1 c hcm
        exact ⟨d, hdm, by rw [← ih c hcm (hc c hcm) (hd d hdm) (fun l hl m hm => ho l (mem_dlcsL.2 ⟨c, hcm, hl⟩) m (mem_dlcsL.2 ⟨d, hdm, hm⟩)) e]; exact hs⟩
      · rintro ⟨d, hdm, hs⟩
        obtain ⟨c, hcm, e⟩ := h.2.2 d hdm
        exact ⟨c, hcm, by rw [ih c hcm (hc c hcm) (hd d hdm) (fun l hl m hm => ho l (mem_dlcsL.2 ⟨c, hcm, hl⟩) m (mem_dlcsL.2 ⟨d, hdm, hm⟩)) e]; exact hs⟩
    | lit _ => simp [Cond.pyEq] at h
    | and _ => simp [Cond.pyEq] at h

end Verif
