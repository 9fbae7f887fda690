import Verif.Lemmas.Positions

/-!
# C72: spaces do not disturb each other
-/

set_option autoImplicit false

namespace Verif
open Spec

variable {o : Objs} {es : List (Nat × OCall)} {w : World} {k : Nat}

/-- **C72, conditions** (partial: only if no condition object of the space was added to another space too, and no two
conditions of the space on different hyperparameters print alike).  Whatever is added to any number of spaces in any order: the condition object
kept for a hyperparameter is the one in `parent_conditions_of`, and evaluated on a vector of its space it tells whether the
condition holds for the values in the vector. -/
theorem C72_conditions_read_their_parents_partial (h : Worlds o es w) (hs : NotShared es k)
    (hp : PrintApart (callsOf o es k)) {n : Name} {t : Tree Nat} (ht : CondObj o es k n t) {v : Vec} {a : Assign}
    (hv : Represents (w.space k) v a) :
    (w.space k).parentConditionsOf n = .ok [t.toCond o] ∧
    ∃ b, w.pos.sat o t v = some b ∧ (b = true ↔ Holds a (t.toCond o)) := by
  have hr := (worlds_hist h k).1
  have hl := lastObj_of ht
  obtain ⟨hm, hn⟩ := lastObj_child hl
  have hin : t.toCond o ∈ allConds (callsOf o es k) := by
    rw [allConds_callsOf]
    exact List.mem_map.2 ⟨t, hm, rfl⟩
  refine ⟨?_, _, sat_of_pos (fun i hi => (worlds_pos h hs).1 t (condObj_listed h hp ht) i hi) v, ?_⟩
  · have hc : condAt (w.space k).com n = some (t.toCond o) := by
      have hi := sinv_of_reach hr
      rw [← hi.com, hi.hist.cond, allConds_callsOf, lastObj_cond, hl]
      rfl
    unfold condAt at hc
    unfold Space.parentConditionsOf Space.ofNode
    cases hz : findNode (w.space k).com n with
    | none => rw [hz] at hc; cases hc
    | some z =>
      rw [hz] at hc
      simp only [Option.bind_some] at hc
      simp [hc]
  · rw [satVec_iff]
    exact holds_congr _ (fun p hp => asg_of_represents hv (cond_parents_known hr hin hp))

/-- **C72, clauses** (partial: only if no clause object of the space was added to another space too).  Whatever is added to
any number of spaces in any order: a clause object of a space, evaluated on a vector of the space, tells whether the clause
forbids the values in the vector. -/
theorem C72_clauses_read_their_hyperparameters_partial (h : Worlds o es w) (hs : NotShared es k) {t : Tree Nat}
    (ht : ClauseObj es k t) {v : Vec} {a : Assign} (hv : Represents (w.space k) v a) :
    t.toForb o ∈ allForbs (callsOf o es k) ∧
    ∃ b, w.pos.forbids o t v = some b ∧ (b = true ↔ Forbids a (t.toForb o)) := by
  have hr := (worlds_hist h k).1
  have hm := mem_forbsOf.2 ht
  have hin : t.toForb o ∈ allForbs (callsOf o es k) := by
    rw [allForbs_callsOf]
    exact List.mem_map.2 ⟨t, hm, rfl⟩
  refine ⟨hin, _, forbids_of_pos (fun i hi => (worlds_pos h hs).2 t hm i hi) v, ?_⟩
  rw [onVec_iff]
  exact forbids_congr _ (fun x hx => asg_of_represents hv (forb_known hr hin hx))

/-- With a single space nothing is shared. -/
theorem C72_single_space (h1 : ∀ e ∈ es, e.1 = k) : NotShared es k := by
  intro j hj
  refine ⟨fun i _ hu => ?_, fun i _ hu => ?_⟩
  · obtain ⟨e, he, hej, _⟩ := hu
    exact hj (hej.symm.trans (h1 e he))
  · obtain ⟨e, he, hej, _⟩ := hu
    exact hj (hej.symm.trans (h1 e he))

/-- **C72, states.**  What a space consists of depends only on the calls made on it. -/
theorem C72_own_history (h : Worlds o es w) : Reach (callsOf o es k) (w.space k) := (worlds_hist h k).1

/-! ## Examples -/

namespace ExP
open Ex

/-- Object 0 is `x | p == "a"`, object 1 the same but another object; object 2 is `a | b | c == "a"` with child `a`, object 3
prints alike but has the child `a | b`.  Clause 0 forbids `p == "b"`. -/
def objs : Objs where
  lit := fun i => match i with
    | 0 => isA "x" "p"
    | 1 => isA "x" "p"
    | 2 => isA "a" "b | c"
    | _ => isA "a | b" "c"
  clause := fun _ => .eq (ab "p") (.str "b") 1

/-- `p`, `x` and the condition. -/
def call0 : OCall := ⟨[ab "p", ab "x"], [.leaf 0], [.leaf 0]⟩
/-- Another space with one more hyperparameter, and the same condition object. -/
def call1 : OCall := ⟨[ab "a0", ab "p", ab "x"], [.leaf 0], []⟩
/-- The same with a condition object of its own. -/
def call1' : OCall := ⟨[ab "a0", ab "p", ab "x"], [.leaf 1], []⟩
/-- Two conditions that print alike. -/
def call2 : OCall := ⟨[ab "a", ab "b | c", ab "a | b", ab "c"], [.leaf 2, .leaf 3], []⟩

def sp0 : Space := committed {} (call0.call objs)
def sp1 : Space := committed {} (call1.call objs)
def sp1' : Space := committed {} (call1'.call objs)
def sp2 : Space := committed {} (call2.call objs)

def w0 : World := World.added objs {} 0 call0 sp0
def w1 : World := World.added objs w0 1 call1 sp1
def w1' : World := World.added objs w0 1 call1' sp1'
def w2 : World := World.added objs {} 0 call2 sp2

theorem add0 : (({} : Space).add (call0.call objs).hps (call0.call objs).conds (call0.call objs).forbs) = (sp0, none) :=
  add_of_stages [("p", some (.str "a")), ("x", some (.str "a"))] [some 0, some 0] [("p", .str "a"), ("x", .str "a")]
    (by decide +kernel) (by decide +kernel) (by decide +kernel) (by decide +kernel) (by decide +kernel)
    (by decide +kernel)

theorem add1 : (({} : Space).add (call1.call objs).hps (call1.call objs).conds (call1.call objs).forbs) = (sp1, none) :=
  add_of_stages [("a0", some (.str "a")), ("p", some (.str "a")), ("x", some (.str "a"))] [some 0, some 0, some 0]
    [("a0", .str "a"), ("p", .str "a"), ("x", .str "a")]
    (by decide +kernel) (by decide +kernel) (by decide +kernel) (by decide +kernel) (by decide +kernel)
    (by decide +kernel)

theorem add1' : (({} : Space).add (call1'.call objs).hps (call1'.call objs).conds (call1'.call objs).forbs) = (sp1', none) :=
  add_of_stages [("a0", some (.str "a")), ("p", some (.str "a")), ("x", some (.str "a"))] [some 0, some 0, some 0]
    [("a0", .str "a"), ("p", .str "a"), ("x", .str "a")]
    (by decide +kernel) (by decide +kernel) (by decide +kernel) (by decide +kernel) (by decide +kernel)
    (by decide +kernel)

theorem add2 : (({} : Space).add (call2.call objs).hps (call2.call objs).conds (call2.call objs).forbs) = (sp2, none) :=
  add_of_stages [("b | c", some (.str "a")), ("c", some (.str "a")), ("a", some (.str "a")), ("a | b", some (.str "a"))]
    [some 0, some 0, some 0, some 0] [("b | c", .str "a"), ("c", .str "a"), ("a", .str "a"), ("a | b", .str "a")]
    (by decide +kernel) (by decide +kernel) (by decide +kernel) (by decide +kernel) (by decide +kernel)
    (by decide +kernel)

theorem worlds0 : Worlds objs [(0, call0)] w0 := .snoc (es := []) .nil (by decide +kernel) add0
theorem worlds1 : Worlds objs [(0, call0), (1, call1)] w1 := .snoc (es := [(0, call0)]) worlds0 (by decide +kernel) add1
theorem worlds1' : Worlds objs [(0, call0), (1, call1')] w1' :=
  .snoc (es := [(0, call0)]) worlds0 (by decide +kernel) add1'
theorem worlds2 : Worlds objs [(0, call2)] w2 := .snoc (es := []) .nil (by decide +kernel) add2

theorem notShared1' : NotShared [(0, call0), (1, call1')] 0 := by
  intro j hj
  constructor
  · rintro i ⟨e, he, h1, t, ht, hi⟩ ⟨e', he', h1', t', ht', hi'⟩
    simp only [List.mem_cons, List.not_mem_nil, or_false] at he he'
    rcases he with rfl | rfl <;> rcases he' with rfl | rfl <;> simp_all [call0, call1', Tree.leaves]
  · rintro i ⟨e, he, h1, t, ht, hi⟩ ⟨e', he', h1', t', ht', hi'⟩
    simp only [List.mem_cons, List.not_mem_nil, or_false] at he he'
    rcases he with rfl | rfl <;> rcases he' with rfl | rfl <;> simp_all [call0, call1', Tree.leaves]

theorem apart1' : PrintApart (callsOf objs [(0, call0), (1, call1')] 0) := by
  intro c hc d hd _
  have hc' : c = Tree.toCond objs (.leaf 0) := by simpa [allConds, callsOf, OCall.call, call0] using hc
  have hd' : d = Tree.toCond objs (.leaf 0) := by simpa [allConds, callsOf, OCall.call, call0] using hd
  rw [hc', hd']

theorem condObj1' : CondObj objs [(0, call0), (1, call1')] 0 "x" (.leaf 0) :=
  ⟨[], [], by simp [call0], by decide +kernel, by simp⟩

end ExP

/-- Two spaces with their own objects: the theorem applies to the first, and the condition holds on `p = "a"`. -/
example : ∃ b, ExP.w1'.pos.sat ExP.objs (.leaf 0) [some 0, some 0] = some b ∧
    (b = true ↔ Holds (asg ExP.sp0.idx [some 0, some 0]) (.lit (Ex.isA "x" "p"))) := by
  have hr := (worlds_hist ExP.worlds1' 0).1
  exact (C72_conditions_read_their_parents_partial ExP.worlds1' ExP.notShared1' ExP.apart1' ExP.condObj1'
    (represents_asg (s := ExP.sp0) hr (by decide +kernel))).2

example : ExP.w1'.pos.sat ExP.objs (.leaf 0) [some 0, some 0] = some true := by decide +kernel

/-- The clause of the first space, after the second was filled. -/
example : ∃ b, ExP.w1'.pos.forbids ExP.objs (.leaf 0) [some 1, none] = some b ∧
    (b = true ↔ Forbids (asg ExP.sp0.idx [some 1, none]) (Tree.toForb ExP.objs (.leaf 0))) := by
  have hr := (worlds_hist ExP.worlds1' 0).1
  exact (C72_clauses_read_their_hyperparameters_partial ExP.worlds1' ExP.notShared1'
    ⟨(0, ExP.call0), by simp, rfl, by simp [ExP.call0]⟩
    (represents_asg (s := ExP.sp0) hr (by decide +kernel))).2

example : ExP.w1'.pos.forbids ExP.objs (.leaf 0) [some 1, none] = some true := by decide +kernel

/-- **C72 is false for shared condition objects.**  After a condition object of a space has been added to a second space, where
its parent has another position, the first space reads the wrong entry: on the same vector the condition held before, and does not hold any more.
The call was made on the other space. -/
theorem C72_shared_condition : ∃ o es w k c s' t v, Worlds o es w ∧ Worlds o (es ++ [(k, c)]) (w.added o k c s') ∧ k ≠ 0 ∧
    CondObj o es 0 "x" t ∧ (w.space 0).check v = none ∧ w.pos.sat o t v = some true ∧
    (w.added o k c s').pos.sat o t v = some false :=
  ⟨ExP.objs, [(0, ExP.call0)], ExP.w0, 1, ExP.call1, ExP.sp1, .leaf 0, [some 0, some 1], ExP.worlds0,
    ExP.worlds1, by decide, ⟨[], [], by simp [ExP.call0], by decide +kernel, by simp⟩, by decide +kernel,
    by decide +kernel, by decide +kernel⟩

/-- **C72 is false for conditions that print alike**, even within one space: only the first gets its positions. -/
theorem C72_conditions_that_print_alike : ∃ o es w t n, Worlds o es w ∧ NotShared es 0 ∧ CondObj o es 0 n t ∧
    ∀ v, w.pos.sat o t v = none :=
  ⟨ExP.objs, [(0, ExP.call2)], ExP.w2, .leaf 3, "a | b", ExP.worlds2, C72_single_space (by simp),
    ⟨[.leaf 2], [], by simp [ExP.call2], by decide +kernel, by simp⟩, fun v => by
      unfold Positions.sat
      exact if_neg (by decide +kernel)⟩

example : Reach (callsOf ExP.objs [(0, ExP.call0), (1, ExP.call1')] 1) ExP.sp1' := C72_own_history (k := 1) ExP.worlds1'

end Verif
