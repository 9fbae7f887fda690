import Verif.Lemmas.SpaceEq

/-!
# C114: equal hyperparameters and equal clauses

`==` of hyperparameters and of forbidden clauses, as a user calls it, and what two equal ones have in common.
-/

set_option autoImplicit false

namespace Verif
open Verif.Spec

/-- No in clause inside the clause repeats a value. -/
def Spec.RepeatsNothing (f : Forb) : Prop :=
  ∀ h vs xs, Forb.isIn h vs xs ∈ f.dlcs → vs.Pairwise (fun a b => a.pyEq b = false)

/-- Equal categorical hyperparameters of the two clauses list their choices in the same order. -/
def Spec.ListedAlike (f g : Forb) : Prop := ∀ h ∈ clauseHps f, ∀ h' ∈ clauseHps g, h.pyEq h' = true → SameOrder h h'

namespace ExCe
def p : HP := ⟨"p", .cat [.str "a", .str "b", .str "c"], .str "c"⟩
/-- The same choices in another order. -/
def p' : HP := ⟨"p", .cat [.str "b", .str "a", .str "c"], .str "c"⟩
def n : HP := ⟨"n", .int 1 9, .int 4⟩
def m : HP := ⟨"m", .int 1 9, .int 2⟩
def aa : Forb := .isIn p [.str "a", .str "a"] [0, 0]
def ab : Forb := .isIn p [.str "a", .str "b"] [0, 1]
def ba : Forb := .isIn p' [.str "b", .str "a"] [0, 1]
def bigger : Forb := .rel .gt n m
/-- Two conjunctions with their parts in two orders and the choices listed in two orders. -/
def f1 : Forb := .and [ab, bigger]
def f2 : Forb := .and [bigger, ba]
def f3 : Forb := .and [bigger, .isIn p [.str "b", .str "a"] [1, 0]]

theorem aa_wf : aa.wf = true := by decide +kernel
theorem f1_wf : f1.wf = true := by decide +kernel
theorem f3_wf : f3.wf = true := by decide +kernel
theorem f12 : f1.pyEq f2 = true := by decide +kernel
theorem f13 : f1.pyEq f3 = true := by decide +kernel
theorem f21 : f2.pyEq f1 = true := by decide +kernel

theorem f1_rep : RepeatsNothing f1 := by
  intro h vs xs hm
  simp only [f1, ab, bigger, Forb.dlcs, Forb.dlcsL, List.append_nil, List.singleton_append, List.mem_cons,
    List.not_mem_nil, or_false, Forb.isIn.injEq, reduceCtorEq] at hm
  obtain ⟨-, rfl, -⟩ := hm
  decide

theorem f13_alike : ListedAlike f1 f3 := by
  have key : ∀ a ∈ clauseHps f1, ∀ b ∈ clauseHps f3, a.pyEq b = true → a = b := by decide +kernel
  intro a ha b hb e cs ds h1 h2
  have := key a ha b hb e
  subst this
  rw [h1] at h2
  cases h2
  exact valsEq_refl _
end ExCe

/-! ## Hyperparameters -/

/-- **C114.** `==` of hyperparameters is an equivalence. -/
theorem C114_hyperparameters :
    (∀ a : HP, a.pyEq a = true) ∧ (∀ a b : HP, a.wf = true → a.pyEq b = true → b.pyEq a = true) ∧
    (∀ a b c : HP, a.pyEq b = true → b.pyEq c = true → a.pyEq c = true) :=
  ⟨HP.pyEq_refl, fun _ _ hw h => HP.pyEq_symm hw h, fun _ _ _ h h' => HP.pyEq_trans h h'⟩

example : ExCe.p.pyEq ExCe.p' = true ∧ ExCe.p.pyEq ExCe.n = false :=
  ⟨C114_hyperparameters.2.1 ExCe.p' ExCe.p (by decide +kernel) (by decide +kernel), by decide +kernel⟩

/-- **C114.** Equal hyperparameters have the same name, equal defaults and the same legal values, whatever the order of
their choices. -/
theorem C114_same_values {a b : HP} (hw : a.wf = true) (h : a.pyEq b = true) :
    a.name = b.name ∧ a.default.pyEq b.default = true ∧ ∀ v, a.kind.legalValue v = b.kind.legalValue v := by
  refine ⟨HP.pyEq_name h, ?_, fun v => ?_⟩
  · simp only [HP.pyEq, Bool.and_eq_true] at h
    exact h.1.2
  · have h' := HP.pyEq_symm hw h
    obtain ⟨an, ak, ad⟩ := a
    obtain ⟨bn, bk, bd⟩ := b
    simp only [HP.pyEq, Bool.and_eq_true, decide_eq_true_eq] at h h'
    obtain ⟨_, h3⟩ := h
    obtain ⟨_, h4⟩ := h'
    cases ak <;> cases bk <;>
      simp only [Bool.and_eq_true, decide_eq_true_eq, Bool.false_eq_true, List.all_eq_true] at h3 h4
    · simp only [Kind.legalValue]
      rw [Bool.eq_iff_iff, pyIn_iff, pyIn_iff]
      constructor
      · rintro ⟨x, hx, e⟩
        obtain ⟨y, hy, e'⟩ := pyIn_iff.1 (h3.2 x hx)
        exact ⟨y, hy, Val.pyEq_trans e' e⟩
      · rintro ⟨x, hx, e⟩
        obtain ⟨y, hy, e'⟩ := pyIn_iff.1 (h4.2 x hx)
        exact ⟨y, hy, Val.pyEq_trans e' e⟩
    · simp only [Kind.legalValue]
      rw [Bool.eq_iff_iff, pyIn_iff, pyIn_iff]
      constructor
      · rintro ⟨x, hx, e⟩
        obtain ⟨i, hi, ei⟩ := List.getElem_of_mem hx
        rcases valsEq_getElem? h3 i with ⟨h5, -⟩ | ⟨u, w, h5, h6, h7⟩
        · rw [List.getElem?_eq_getElem hi] at h5; cases h5
        · rw [List.getElem?_eq_getElem hi, ei] at h5
          cases h5
          exact ⟨w, List.mem_of_getElem? h6, Val.pyEq_trans (Val.pyEq_symm h7) e⟩
      · rintro ⟨x, hx, e⟩
        obtain ⟨i, hi, ei⟩ := List.getElem_of_mem hx
        rcases valsEq_getElem? h4 i with ⟨h5, -⟩ | ⟨u, w, h5, h6, h7⟩
        · rw [List.getElem?_eq_getElem hi] at h5; cases h5
        · rw [List.getElem?_eq_getElem hi, ei] at h5
          cases h5
          exact ⟨w, List.mem_of_getElem? h6, Val.pyEq_trans (Val.pyEq_symm h7) e⟩
    · simp only [Kind.legalValue]
      rw [Bool.eq_iff_iff]
      exact ⟨fun e => by first | exact Val.pyEq_trans e h3 | exact Val.pyEq_trans (Val.pyEq_symm h3) e,
        fun e => by first | exact Val.pyEq_trans e h4 | exact Val.pyEq_trans (Val.pyEq_symm h4) e⟩
    · rw [h3.1, h3.2]
    · rw [h3.1, h3.2]

example : ExCe.p'.kind.legalValue (.str "b") = true ∧ ExCe.p'.kind.legalValue (.str "d") = false := by
  have h := C114_same_values (a := ExCe.p) (b := ExCe.p') (by decide +kernel) (by decide +kernel)
  rw [← h.2.2, ← h.2.2]
  decide +kernel

/-- **C114, guarded.** Equal hyperparameters that list their choices in the same order encode values alike. -/
theorem C114_same_vectors_partial {a b : HP} (h : a.pyEq b = true) (ho : SameOrder a b) (v : Val) :
    a.kind.toVec v = b.kind.toVec v := toVec_of_hpEq h ho v

example : ExCe.n.kind.toVec (.int 4) = ExCe.n.kind.toVec (.int 4) :=
  C114_same_vectors_partial (HP.pyEq_refl _) (fun _ _ h1 h2 => by rw [h1] at h2; cases h2; exact valsEq_refl _) _

/-- **C114 is false of the code** for vectors: equal hyperparameters may encode the same value differently. -/
theorem C114_vectors_differ : ∃ (a b : HP) (v : Val), a.wf = true ∧ b.wf = true ∧ a.pyEq b = true ∧ b.pyEq a = true ∧
    a.kind.legalValue v = true ∧ a.kind.toVec v ≠ b.kind.toVec v :=
  ⟨ExCe.p, ExCe.p', .str "a", by decide +kernel⟩

/-! ## Clauses -/

/-- **C114.** Every clause equals itself, and `==` of clauses is transitive. -/
theorem C114_reflexive_transitive : (∀ f : Forb, f.pyEq f = true) ∧
    ∀ f g h : Forb, f.pyEq g = true → g.pyEq h = true → f.pyEq h = true :=
  ⟨Forb.pyEq_refl, fun f _ _ => Forb.pyEq_trans f⟩

example : ExCe.f2.pyEq ExCe.f3 = true := C114_reflexive_transitive.2 _ _ _ ExCe.f21 ExCe.f13

/-- **C114, guarded.** `==` of clauses is symmetric, unless an in clause inside the left one repeats a value. -/
theorem C114_symmetric_partial {f g : Forb} (hw : f.wf = true) (hn : RepeatsNothing f) (h : f.pyEq g = true) :
    g.pyEq f = true := Forb.pyEq_symm f hw hn h

example : ExCe.f3.pyEq ExCe.f1 = true := C114_symmetric_partial ExCe.f1_wf ExCe.f1_rep ExCe.f13

/-- **C114 is false of the code** without this: `a == b` but not `b == a`. -/
theorem C114_not_symmetric : ∃ f g : Forb, f.wf = true ∧ g.wf = true ∧ f.pyEq g = true ∧ g.pyEq f = false :=
  ⟨ExCe.aa, ExCe.ab, by decide +kernel⟩

/-- Meaning on values, for a list of clauses. -/
theorem onValAll_mem {d : List (Name × Val)} {cs : List Forb} : Forb.onValAll d cs = true ↔ ∀ c ∈ cs, c.onVal d = true := by
  induction cs with
  | nil => simp [Forb.onValAll]
  | cons c cs ih => simp [Forb.onValAll, ih]

/-- **C114.** If `f == g`, then `g` forbids every assignment of values that `f` forbids: equality never hides that the left
clause forbids something. -/
theorem C114_forbids_no_less (d : List (Name × Val)) (f : Forb) : ∀ {g : Forb}, f.pyEq g = true → f.onVal d = true →
    g.onVal d = true := by
  induction f using Forb.induct with
  | he h w x =>
    intro g e hf
    cases g with
    | eq h' w' x' =>
      simp only [Forb.pyEq, Bool.and_eq_true] at e
      simp only [Forb.onVal, HP.pyEq_name e.1] at hf ⊢
      split at hf
      · exact Val.pyEq_trans hf e.2
      · cases hf
    | _ => simp [Forb.pyEq] at e
  | hi h ws xs =>
    intro g e hf
    cases g with
    | isIn h' ws' xs' =>
      simp only [Forb.pyEq, Bool.and_eq_true, decide_eq_true_eq, List.all_eq_true] at e
      simp only [Forb.onVal, HP.pyEq_name e.1.1] at hf ⊢
      split at hf
      · obtain ⟨u, hu, e1⟩ := pyIn_iff.1 hf
        obtain ⟨w, hw, e2⟩ := pyIn_iff.1 (e.2 u hu)
        exact pyIn_iff.2 ⟨w, hw, Val.pyEq_trans e2 e1⟩
      · cases hf
    | _ => simp [Forb.pyEq] at e
  | hr op l r =>
    intro g e hf
    cases g with
    | rel op' l' r' =>
      simp only [Forb.pyEq, Bool.and_eq_true, decide_eq_true_eq] at e
      obtain ⟨⟨rfl, el⟩, er⟩ := e
      simp only [Forb.onVal, HP.pyEq_name el, HP.pyEq_name er] at hf ⊢
      exact hf
    | _ => simp [Forb.pyEq] at e
  | ha cs ih =>
    intro g e hf
    cases g with
    | and ds =>
      obtain ⟨-, -, h3⟩ := forb_pyEq_and.1 e
      simp only [Forb.onVal, onValAll_mem] at hf ⊢
      intro d' hd
      obtain ⟨c, hc, e'⟩ := h3 d' hd
      exact ih c hc e' (hf c hc)
    | _ => simp [Forb.pyEq] at e

/-- `p = "a"`, `n = 5`, `m = 3`. -/
example : ExCe.f2.onVal [("p", .str "a"), ("n", .int 5), ("m", .int 3)] = true :=
  C114_forbids_no_less _ ExCe.f1 ExCe.f12 (by decide +kernel)

/-- **C114, guarded.** Equal clauses forbid the same assignments of values, in whatever order choices are listed, unless
an in clause inside the left one repeats a value. -/
theorem C114_same_meaning_partial {f g : Forb} (hw : f.wf = true) (hn : RepeatsNothing f) (h : f.pyEq g = true)
    (d : List (Name × Val)) : f.onVal d = g.onVal d :=
  Bool.eq_iff_iff.2 ⟨C114_forbids_no_less d f h, C114_forbids_no_less d g (Forb.pyEq_symm f hw hn h)⟩

example (d : List (Name × Val)) : ExCe.f1.onVal d = ExCe.f2.onVal d :=
  C114_same_meaning_partial ExCe.f1_wf ExCe.f1_rep ExCe.f12 d

/-- **C114, guarded.** Equal clauses forbid the same vectors, if in addition equal categorical hyperparameters list their
choices in the same order. -/
theorem C114_same_vectors_forbidden_partial {f g : Forb} (hw : f.wf = true) (hw' : g.wf = true) (hn : RepeatsNothing f)
    (ho : ListedAlike f g) (h : f.pyEq g = true) (idx : Name → Nat) (v : Vec) : f.onVec idx v = g.onVec idx v := by
  rw [Bool.eq_iff_iff, onVec_iff, onVec_iff]
  exact pyEq_forbids _ f hw hw' hn ho h

example (idx : Name → Nat) (v : Vec) : ExCe.f1.onVec idx v = ExCe.f3.onVec idx v :=
  C114_same_vectors_forbidden_partial ExCe.f1_wf ExCe.f3_wf ExCe.f1_rep ExCe.f13_alike ExCe.f13 idx v

/-- **C114 is false of the code** for clauses that repeat a value: `f == g` although `g` forbids more. -/
theorem C114_equal_forbids_more : ∃ (f g : Forb) (d : List (Name × Val)), f.wf = true ∧ g.wf = true ∧ f.pyEq g = true ∧
    f.onVal d = false ∧ g.onVal d = true :=
  ⟨ExCe.aa, ExCe.ab, [("p", .str "b")], by decide +kernel⟩

/-- **C114 is false of the code** for vectors: two equal clauses, equal in both directions and without repeated values,
forbid different vectors, because the order of choices is not compared. -/
theorem C114_equal_other_vectors : ∃ (f g : Forb) (idx : Name → Nat) (v : Vec), f.wf = true ∧ g.wf = true ∧
    f.pyEq g = true ∧ g.pyEq f = true ∧ RepeatsNothing f ∧ f.onVec idx v = true ∧ g.onVec idx v = false := by
  refine ⟨.eq ExCe.p (.str "a") 0, .eq ExCe.p' (.str "a") 1, fun _ => 0, [some 0], by decide +kernel, by decide +kernel,
    by decide +kernel, by decide +kernel, ?_, by decide +kernel, by decide +kernel⟩
  intro h vs xs hm
  simp [Forb.dlcs] at hm

end Verif
