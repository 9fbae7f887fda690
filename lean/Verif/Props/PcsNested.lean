import Verif.Props.PcsOld

/-!
# C73, continued: nested conjunctions in the old pcs format

The format has one line for each test and joins all lines of a child with "and".  So a nested conjunction is written as the flat
conjunction of its tests; here: this is what is written, and it means the same.
-/

set_option autoImplicit false

namespace Verif
open Verif.Spec

/-- A test, or a conjunction (with "and" only, nested to any depth) of such. -/
inductive Spec.AndOnly : Cond → Prop where
  | lit (l : Lit) : Spec.AndOnly (.lit l)
  | and {cs : List Cond} : cs ≠ [] → (∀ c ∈ cs, Spec.AndOnly c) → Spec.AndOnly (.and cs)

/-- The flat conjunction of all tests. -/
def Spec.flatAnd (c : Cond) : Cond := .and (c.dlcs.map Cond.lit)

theorem dlcs_ne_nil {c : Cond} (h : AndOnly c) : c.dlcs ≠ [] := by
  induction h with
  | lit l => simp [Cond.dlcs]
  | @and cs hn _ ih =>
    obtain ⟨c, cs, rfl⟩ := List.exists_cons_of_ne_nil hn
    have := ih c (by simp)
    simp only [Cond.dlcs, Cond.dlcsL]
    intro e
    exact this (List.append_eq_nil_iff.1 e).1

theorem dlcsL_flatMap : ∀ (cs : List Cond), Cond.dlcsL cs = cs.flatMap Cond.dlcs
  | [] => rfl
  | c :: cs => by rw [Cond.dlcsL, List.flatMap_cons, dlcsL_flatMap cs]

theorem buildOldConds_append (T : PyText) : ∀ (as bs : List Cond), buildOldConds T (as ++ bs) = match buildOldConds T as with
    | .error e => .error e
    | .ok x => match buildOldConds T bs with
      | .error e => .error e
      | .ok y => .ok (x ++ y)
  | [], bs => by
    simp only [List.nil_append, buildOldConds]
    cases buildOldConds T bs <;> rfl
  | a :: as, bs => by
    simp only [List.cons_append, buildOldConds, buildOldConds_append T as bs]
    cases buildOldCond T a with
    | error e => rfl
    | ok x =>
      cases buildOldConds T as with
      | error e => rfl
      | ok y =>
        cases buildOldConds T bs <;> rfl

theorem buildOldConds_length (T : PyText) : ∀ {cs : List Cond} {ls : List Chars}, buildOldConds T cs = .ok ls → ls.length = cs.length
  | [], ls, h => by cases h; rfl
  | c :: cs, ls, h => by
    rw [buildOldConds] at h
    cases e : buildOldCond T c with
    | error x => rw [e] at h; cases h
    | ok x =>
      cases e2 : buildOldConds T cs with
      | error y => rw [e, e2] at h; cases h
      | ok y =>
        rw [e, e2] at h
        cases h
        simp [buildOldConds_length T e2]

theorem joinWith_single (sep w : Chars) : joinWith sep [w] = w := by simp [joinWith_cons]

/-- The text of a nested conjunction is the text of its tests, one below the other. -/
theorem build_flat (T : PyText) {c : Cond} (h : AndOnly c) : buildOldCond T c = buildOldCond T (flatAnd c) := by
  unfold flatAnd
  simp only [buildOldCond]
  induction h with
  | lit l =>
    simp only [Cond.dlcs, List.map_cons, List.map_nil, buildOldConds, buildOldCond]
    cases buildOldLit T l with
    | error e => rfl
    | ok x => simp [joinWith_single]
  | @and cs hn hc ih =>
    simp only [buildOldCond, Cond.dlcs]
    have key : ∀ ds : List Cond, (∀ d ∈ ds, d ∈ cs) →
        (∃ e, buildOldConds T ds = .error e ∧ buildOldConds T ((Cond.dlcsL ds).map Cond.lit) = .error e) ∨
        (∃ lss : List (List Chars), (∀ ls ∈ lss, ls ≠ []) ∧ buildOldConds T ds = .ok (lss.map (joinWith "\n".toList)) ∧
          buildOldConds T ((Cond.dlcsL ds).map Cond.lit) = .ok lss.flatten) := by
      intro ds
      induction ds with
      | nil => intro _; exact .inr ⟨[], by simp, rfl, rfl⟩
      | cons d ds ih2 =>
        intro hd
        have h1 := ih d (hd d (by simp))
        have h2 := ih2 (fun x hx => hd x (by simp [hx]))
        simp only [buildOldConds, Cond.dlcsL, List.map_append, buildOldConds_append]
        cases e : buildOldConds T (d.dlcs.map Cond.lit) with
        | error x =>
          rw [e] at h1
          exact .inl ⟨x, by rw [h1], rfl⟩
        | ok ls =>
          rw [e] at h1
          rcases h2 with ⟨x, h2, h3⟩ | ⟨lss, hl, h2, h3⟩
          · exact .inl ⟨x, by rw [h1, h2], by rw [h3]⟩
          · refine .inr ⟨ls :: lss, ?_, by rw [h1, h2]; rfl, by rw [h3]; rfl⟩
            intro m hm
            rcases List.mem_cons.1 hm with rfl | hm
            · intro e0
              subst e0
              have := buildOldConds_length T e
              simp only [List.length_nil, List.length_map] at this
              exact dlcs_ne_nil (hc d (hd d (by simp))) (List.eq_nil_of_length_eq_zero this.symm)
            · exact hl m hm
    rcases key cs (fun _ h => h) with ⟨e, h1, h2⟩ | ⟨lss, hl, h1, h2⟩
    · rw [h1, h2]
    · rw [h1, h2]
      simp only
      rw [joinWith_flatten hl]

theorem satVec_flat (idx : Name → Nat) (v : Vec) {c : Cond} (h : AndOnly c) :
    c.satVec idx v = true ↔ ∀ l ∈ c.dlcs, l.test.onEntry (v.at (idx l.parent.name)) = true := by
  induction h with
  | lit l => simp [Cond.satVec, Cond.dlcs]
  | @and cs hn hc ih =>
    rw [Cond.satVec, satVecAll_iff, Cond.dlcs, dlcsL_flatMap]
    simp only [List.mem_flatMap]
    constructor
    · rintro h l ⟨c, hcm, hl⟩
      exact (ih c hcm).1 (h c hcm) l hl
    · intro h c hcm
      exact (ih c hcm).2 (fun l hl => h l ⟨c, hcm, hl⟩)

theorem andOnly_lits {ls : List Lit} (h : ls ≠ []) : AndOnly (.and (ls.map Cond.lit)) := by
  refine .and (by simpa using h) ?_
  intro c hc
  obtain ⟨l, -, rfl⟩ := List.mem_map.1 hc
  exact .lit l

theorem dlcs_flatAnd (c : Cond) : (flatAnd c).dlcs = c.dlcs := by
  unfold flatAnd
  rw [Cond.dlcs, dlcsL_lits]

theorem wf0_lits {c : Cond} (h : AndOnly c) (hw : c.wf0 = true) : ∀ l ∈ c.dlcs, l.wf = true := by
  induction h with
  | lit l => simpa [Cond.dlcs, Cond.wf0] using hw
  | @and cs hn hc ih =>
    intro l hl
    rw [Cond.dlcs, dlcsL_flatMap] at hl
    obtain ⟨c, hcm, hl⟩ := List.mem_flatMap.1 hl
    exact ih c hcm ((wf0_and.1 hw).2 c hcm) l hl

theorem two_lits {cs : List Cond} (h2 : 2 ≤ cs.length) (hc : ∀ c ∈ cs, AndOnly c) : 2 ≤ (Cond.dlcsL cs).length := by
  match cs, h2 with
  | a :: b :: cs, _ =>
    have ha := List.length_pos_iff.2 (dlcs_ne_nil (hc a (by simp)))
    have hb := List.length_pos_iff.2 (dlcs_ne_nil (hc b (by simp)))
    simp only [Cond.dlcsL, List.length_append]
    omega

/-- **C73, nested conjunctions.** A conjunction (with "and" only) of any nesting is written as the flat conjunction of its tests: both
have the same text, or both raise the same error.  The flat conjunction is a condition that the constructors accept, about the same
child and the same parents, and it holds for the same vectors, however the hyperparameters are laid out.  (What reading gives for the
flat one is in `C73_round_trip_partial`.) -/
theorem C73_nested_flattened (T : PyText) {cs : List Cond} (h : AndOnly (.and cs)) (hw : (Cond.and cs).wf = true) :
    buildOldCond T (.and cs) = buildOldCond T (flatAnd (.and cs)) ∧ (flatAnd (.and cs)).wf = true ∧
      (flatAnd (.and cs)).child? = (Cond.and cs).child? ∧ (flatAnd (.and cs)).parents = (Cond.and cs).parents ∧
      ∀ idx v, (flatAnd (.and cs)).satVec idx v = (Cond.and cs).satVec idx v := by
  refine ⟨build_flat T h, ?_, ?_, ?_, ?_⟩
  · simp only [Cond.wf, Bool.and_eq_true] at hw ⊢
    refine ⟨?_, by rw [dlcs_flatAnd]; exact hw.2⟩
    unfold flatAnd
    refine wf0_and.2 ⟨?_, ?_⟩
    · cases h with
      | and hn hc =>
        rw [List.length_map, Cond.dlcs]
        exact two_lits (wf0_and.1 hw.1).1 hc
    · intro c hc
      obtain ⟨l, hl, rfl⟩ := List.mem_map.1 hc
      rw [Cond.wf0]
      exact wf0_lits h hw.1 l hl
  · unfold Cond.child?
    rw [dlcs_flatAnd]
  · unfold Cond.parents
    rw [dlcs_flatAnd]
  · intro idx v
    rw [Bool.eq_iff_iff, satVec_flat idx v h, satVec_flat idx v (c := flatAnd (.and cs)) (andOnly_lits (dlcs_ne_nil h)), dlcs_flatAnd]

namespace ExQn

def p : HP := ⟨"p", .cat [.str "a", .str "b"], .str "a"⟩
def q : HP := ⟨"q", .cat [.str "a", .str "b"], .str "a"⟩
def r : HP := ⟨"r", .cat [.str "a", .str "b"], .str "a"⟩
def x : HP := ⟨"x", .cat [.str "y", .str "z"], .str "y"⟩
def l (a : HP) : Cond := .lit ⟨x, a, .bin .eq (.str "b") 1⟩
/-- `And(p == b, And(q == b, r == b))`. -/
def nested : List Cond := [l p, .and [l q, l r]]

theorem nested_and : AndOnly (.and nested) := by
  refine .and (by decide) ?_
  intro c hc
  simp only [nested, List.mem_cons, List.not_mem_nil, or_false] at hc
  rcases hc with rfl | rfl
  · exact .lit _
  · refine .and (by decide) ?_
    intro c hc
    simp only [List.mem_cons, List.not_mem_nil, or_false] at hc
    rcases hc with rfl | rfl <;> exact .lit _

/-- The hypotheses of `C73_nested_flattened` are met; here are the lines. -/
example : buildOldCond ExQ.text (.and nested) = buildOldCond ExQ.text (flatAnd (.and nested)) :=
  (C73_nested_flattened ExQ.text nested_and (by decide +kernel)).1
example : (buildOldCond ExQ.text (.and nested)).toOption.map String.ofList =
    some "x | p in {b}\nx | q in {b}\nx | r in {b}" := by decide +kernel

end ExQn

end Verif
