import Verif.Model.Family
import Verif.Lemmas.Check
import Verif.Props.Change
import Mathlib.Data.List.Forall2

/-!
# C71: parents and children
-/

set_option autoImplicit false

namespace Verif
open Spec

variable {calls : List Call} {s : Space}

theorem ofNode_known {α : Type} (h : Reach calls s) {n : Name} (hn : Known calls n) (f : Node → α) :
    ∃ x ∈ s.com, x.name = n ∧ findNode s.com n = some x ∧ s.ofNode n f = .ok (f x) := by
  have := (reach_isNode h n).2 hn
  unfold IsNode namesOf at this
  obtain ⟨x, hx, rfl⟩ := List.mem_map.1 this
  have hf := findNode_of_mem (reach_ninv h).nodup hx
  refine ⟨x, hx, rfl, hf, ?_⟩
  unfold Space.ofNode
  rw [hf]

/-- **C71, unknown names.**  All four queries raise `KeyError` exactly for names that are not in the space. -/
theorem C71_unknown_name (h : Reach calls s) (n : Name) :
    (s.childHpsOf n = .error .keyError ↔ ¬ Known calls n) ∧ (s.parentHpsOf n = .error .keyError ↔ ¬ Known calls n) ∧
    (s.childConditionsOf n = .error .keyError ↔ ¬ Known calls n) ∧
    (s.parentConditionsOf n = .error .keyError ↔ ¬ Known calls n) := by
  have key : ∀ {α : Type} (f : Node → α), s.ofNode n f = .error .keyError ↔ ¬ Known calls n := by
    intro α f
    constructor
    · intro he hk
      obtain ⟨x, _, _, _, hx⟩ := ofNode_known h hk f
      rw [hx] at he
      cases he
    · intro hk
      rw [← reach_isNode h] at hk
      unfold Space.ofNode
      cases hf : findNode s.com n with
      | none => rfl
      | some x => exact absurd (mem_namesOf_of_find hf) hk
  exact ⟨key _, key _, key _, key _⟩

theorem filterMap_hp (h : Reach calls s) {β : Type} {es : List (Name × β)} (hk : ∀ e ∈ es, Known calls e.1) :
    (es.filterMap (fun kc => s.hp? kc.1)).map HP.name = es.map Prod.fst := by
  induction es with
  | nil => rfl
  | cons e es ih =>
    obtain ⟨x, hx, hxn⟩ := hk e (by simp)
    rw [List.filterMap_cons_some (f := fun kc : Name × β => s.hp? kc.1) ((hp_of h).2 ⟨hx, hxn⟩), List.map_cons, List.map_cons,
      ih (fun e he => hk e (by simp [he])), hxn]

theorem edge_iff_child {ns : Nodes} (hn : NInv ns) {x : Node} (hx : x ∈ ns) (m : Name) :
    m ∈ x.children.map Prod.fst ↔ Edge ns x.name m := by
  unfold Edge childNames
  rw [findNode_of_mem hn.nodup hx]

/-- **C71, children.**  `children_of[n]` lists exactly the added hyperparameters with a condition that mentions `n`,
each once. -/
theorem C71_children_of (h : Reach calls s) {n : Name} (hn : Known calls n) :
    ∃ ys, s.childHpsOf n = .ok ys ∧ (ys.map HP.name).Nodup ∧
      ∀ y, y ∈ ys ↔ y ∈ allHps calls ∧ ParentOf calls n y.name := by
  have hi := reach_ninv h
  obtain ⟨x, hx, rfl, hf, ho⟩ := ofNode_known h hn (fun x => x.children.filterMap (fun kc => s.hp? kc.1))
  have hed := fun m => edge_iff_child hi hx m
  have hk : ∀ e ∈ x.children, Known calls e.1 := by
    intro e he
    have := (hed e.1).1 (List.mem_map.2 ⟨e, he, rfl⟩)
    exact (reach_isNode h _).1 (hi.edges _ _ this).2
  refine ⟨_, ho, ?_, ?_⟩
  · rw [filterMap_hp h hk]
    exact (hi.keys x hx).1
  · intro y
    simp only [List.mem_filterMap, ← reach_edge h, ← hed, List.mem_map]
    constructor
    · rintro ⟨e, he, hy⟩
      obtain ⟨h1, h2⟩ := (hp_of h).1 hy
      exact ⟨h1, e, he, h2.symm⟩
    · rintro ⟨hy, e, he, hey⟩
      exact ⟨e, he, (hp_of h).2 ⟨hy, hey.symm⟩⟩

theorem parent_iff (h : Reach calls s) {x : Node} (hx : x ∈ s.com) (m : Name) :
    m ∈ x.parents.map Prod.fst ↔ ParentOf calls m x.name := by
  have hi := reach_ninv h
  have e1 : ∀ c, x.parents.lookup m = some c ↔ x.cond = some c ∧ m ∈ c.parents := by
    intro c
    have := hi.parent x.name m c
    simpa [parentAt, condAt, findNode_of_mem hi.nodup hx] using this
  have e2 : ∀ c, childAt s.com m x.name = some c ↔ x.cond = some c ∧ m ∈ c.parents := by
    intro c
    have := hi.child m x.name c
    simpa [condAt, findNode_of_mem hi.nodup hx] using this
  rw [← reach_edge h, ← lookup_isSome_iff, Option.isSome_iff_exists]
  simp only [e1, ← e2]
  unfold childAt Edge childNames
  cases findNode s.com m with
  | none => simp
  | some y => simp [← lookup_isSome_iff, Option.isSome_iff_exists]

/-- **C71, parents.**  `parents_of[n]` lists exactly the added hyperparameters that the conditions on `n` mention, each
once. -/
theorem C71_parents_of (h : Reach calls s) {n : Name} (hn : Known calls n) :
    ∃ ys, s.parentHpsOf n = .ok ys ∧ (ys.map HP.name).Nodup ∧
      ∀ y, y ∈ ys ↔ y ∈ allHps calls ∧ ParentOf calls y.name n := by
  have hi := reach_ninv h
  obtain ⟨x, hx, rfl, hf, ho⟩ := ofNode_known h hn (fun x => x.parents.filterMap (fun kc => s.hp? kc.1))
  have hed := fun m => parent_iff h hx m
  have hk : ∀ e ∈ x.parents, Known calls e.1 := by
    intro e he
    have := (hed e.1).1 (List.mem_map.2 ⟨e, he, rfl⟩)
    exact (reach_isNode h _).1 (hi.edges _ _ ((reach_edge h _ _).2 this)).1
  refine ⟨_, ho, ?_, ?_⟩
  · rw [filterMap_hp h hk]
    exact (hi.keys x hx).2
  · intro y
    simp only [List.mem_filterMap, ← hed, List.mem_map]
    constructor
    · rintro ⟨e, he, hy⟩
      obtain ⟨h1, h2⟩ := (hp_of h).1 hy
      exact ⟨h1, e, he, h2.symm⟩
    · rintro ⟨hy, e, he, hey⟩
      exact ⟨e, he, (hp_of h).2 ⟨hy, hey.symm⟩⟩

/-- **C71, the two are inverse to each other.** -/
theorem C71_inverse (h : Reach calls s) {p c : HP} {ps cs : List HP} (hp : p ∈ allHps calls) (hc : c ∈ allHps calls)
    (h1 : s.childHpsOf p.name = .ok cs) (h2 : s.parentHpsOf c.name = .ok ps) : c ∈ cs ↔ p ∈ ps := by
  obtain ⟨cs', k1, _, k2⟩ := C71_children_of h ⟨p, hp, rfl⟩
  obtain ⟨ps', k3, _, k4⟩ := C71_parents_of h ⟨c, hc, rfl⟩
  rw [h1] at k1
  rw [h2] at k3
  cases k1
  cases k3
  rw [k2, k4]
  simp [hp, hc]

/-- **C71, conditions of the parents.**  `parent_conditions_of[n]` is empty if no condition on `n` was added; otherwise
it has one element, a condition on `n` that was added, and all conditions on `n` that were added are equal to it. -/
theorem C71_parent_conditions_of (h : Reach calls s) {n : Name} (hn : Known calls n) :
    (¬ Conditional calls n ∧ s.parentConditionsOf n = .ok []) ∨
    ∃ c ∈ allConds calls, s.parentConditionsOf n = .ok [c] ∧ childName c = some n ∧
      ∀ d ∈ allConds calls, childName d = some n → c.pyEq d = true := by
  obtain ⟨x, hx, rfl, hf, ho⟩ := ofNode_known h hn (fun x => x.cond.toList)
  cases hc : x.cond with
  | none =>
    rw [hc] at ho
    refine Or.inl ⟨?_, ho⟩
    rintro ⟨d, hd, hdn⟩
    obtain ⟨y, hy, hyn, c, hyc⟩ := node_of_child h hd hdn
    have := findNode_of_mem (reach_ninv h).nodup hy
    rw [hyn, hf] at this
    cases this
    rw [hc] at hyc
    cases hyc
  | some c =>
    rw [hc] at ho
    obtain ⟨k1, k2, k3⟩ := node_cond h hx hc
    exact Or.inr ⟨c, k1, ho, k2, k3⟩

/-- **C71, conditions of the children.**  `child_conditions_of[n]` has one condition for each element of `children_of[n]`, in
the same order: the one in `parent_conditions_of` of that child, and it mentions `n`. -/
theorem C71_child_conditions_of (h : Reach calls s) {n : Name} (hn : Known calls n) :
    ∃ cs ys, s.childConditionsOf n = .ok cs ∧ s.childHpsOf n = .ok ys ∧
      List.Forall₂ (fun c y => s.parentConditionsOf y.name = .ok [c] ∧ ∃ l ∈ c.dlcs, l.parent.name = n) cs ys := by
  have hi := reach_ninv h
  obtain ⟨x, hx, rfl, hf, ho⟩ := ofNode_known h hn (fun x => x.children.filterMap (fun kc => s.hp? kc.1))
  obtain ⟨x', _, _, hf', ho'⟩ := ofNode_known h hn (fun x => x.children.map Prod.snd)
  rw [hf] at hf'
  cases hf'
  refine ⟨_, _, ho', ho, ?_⟩
  have key : ∀ e ∈ x.children, condAt s.com e.1 = some e.2 ∧ x.name ∈ e.2.parents := by
    intro e he
    refine (hi.child x.name e.1 e.2).1 ?_
    unfold childAt
    rw [hf]
    exact lookup_of_mem (hi.keys x hx).1 he
  generalize x.children = es at key
  induction es with
  | nil => exact .nil
  | cons e es ih =>
    obtain ⟨k1, k2⟩ := key e (by simp)
    obtain ⟨y, hy, hyn⟩ := (reach_isNode h e.1).1 (condAt_isNode k1)
    rw [List.filterMap_cons_some (f := fun kc : Name × Cond => s.hp? kc.1) ((hp_of h).2 ⟨hy, hyn⟩), List.map_cons]
    refine .cons ⟨?_, parents_iff.1 k2⟩ (ih (fun e he => key e (by simp [he])))
    unfold condAt at k1
    rw [hyn]
    unfold Space.parentConditionsOf Space.ofNode
    cases hz : findNode s.com e.1 with
    | none => rw [hz] at k1; cases k1
    | some z =>
      rw [hz] at k1
      simp only [Option.bind_some] at k1
      simp [k1]

/-! ## Examples -/

namespace ExF
open Ex

/-- `a | n == "a" && z == "a"`, `b | n == "a"`. -/
def callN : Call := ⟨[ab "n", ab "w", ab "z", ab "a", ab "b"],
  [.and [.lit (isA "a" "n"), .lit (isA "a" "z")], .lit (isA "b" "n")], []⟩
/-- `z | w == "a"`, which puts `a` one level deeper. -/
def callZ : Call := ⟨[], [.lit (isA "z" "w")], []⟩
/-- The same conditions, that of `z` first, in one call. -/
def callM : Call := ⟨[ab "n", ab "w", ab "z", ab "a", ab "b"],
  [.lit (isA "z" "w"), .and [.lit (isA "a" "n"), .lit (isA "a" "z")], .lit (isA "b" "n")], []⟩

def spN : Space := committed {} callN
def spZ : Space := committed spN callZ
def spM : Space := committed {} callM

theorem reachN : Reach [callN] spN := Reach.snoc (calls := []) .nil (by decide +kernel)
  (add_of_stages [("n", some (.str "a")), ("w", some (.str "a")), ("z", some (.str "a")), ("a", some (.str "a")),
      ("b", some (.str "a"))]
    [some 0, some 0, some 0, some 0, some 0]
    [("n", .str "a"), ("w", .str "a"), ("z", .str "a"), ("a", .str "a"), ("b", .str "a")]
    (by decide +kernel) (by decide +kernel) (by decide +kernel) (by decide +kernel) (by decide +kernel)
    (by decide +kernel))

theorem reachZ : Reach [callN, callZ] spZ := Reach.snoc (calls := [callN]) reachN (by decide +kernel)
  (add_of_stages [("n", some (.str "a")), ("w", some (.str "a")), ("b", some (.str "a")), ("z", some (.str "a")),
      ("a", some (.str "a"))]
    [some 0, some 0, some 0, some 0, some 0]
    [("n", .str "a"), ("w", .str "a"), ("b", .str "a"), ("z", .str "a"), ("a", .str "a")]
    (by decide +kernel) (by decide +kernel) (by decide +kernel) (by decide +kernel) (by decide +kernel)
    (by decide +kernel))

theorem reachM : Reach [callM] spM := Reach.snoc (calls := []) .nil (by decide +kernel)
  (add_of_stages [("n", some (.str "a")), ("w", some (.str "a")), ("b", some (.str "a")), ("z", some (.str "a")),
      ("a", some (.str "a"))]
    [some 0, some 0, some 0, some 0, some 0]
    [("n", .str "a"), ("w", .str "a"), ("b", .str "a"), ("z", .str "a"), ("a", .str "a")]
    (by decide +kernel) (by decide +kernel) (by decide +kernel) (by decide +kernel) (by decide +kernel)
    (by decide +kernel))

end ExF

/-- In the example, `a` has two parents and `n` has two children. -/
example : (ExF.spZ.parentHpsOf "a").toOption = some [Ex.ab "n", Ex.ab "z"] ∧
    (ExF.spZ.childHpsOf "n").toOption = some [Ex.ab "a", Ex.ab "b"] ∧
    (ExF.spZ.childConditionsOf "w").toOption.map (List.map Cond.render) = some [(Cond.lit (Ex.isA "z" "w")).render] ∧
    (ExF.spZ.parentConditionsOf "n").toOption.map List.length = some 0 := by
  decide +kernel

example : ∃ ys, ExF.spZ.childHpsOf "n" = .ok ys ∧ (ys.map HP.name).Nodup ∧
    ∀ y, y ∈ ys ↔ y ∈ allHps [ExF.callN, ExF.callZ] ∧ ParentOf [ExF.callN, ExF.callZ] "n" y.name :=
  C71_children_of ExF.reachZ ⟨Ex.ab "n", by simp [allHps, ExF.callN], rfl⟩

/-- **The order of the children depends on the history.**  Two histories with the same hyperparameters and conditions give
the same order of all hyperparameters, but list the children of `n` in different orders: the children are sorted when a
condition is added, with the depths known at that time.  In the first space, `a` is listed before `b`, although it comes later in the
space. -/
theorem C71_order_depends_on_history : ∃ calls calls' s s', Reach calls s ∧ Reach calls' s' ∧
    allHps calls = allHps calls' ∧ (allConds calls).Perm (allConds calls') ∧ s.names = s'.names ∧
    s.names = ["n", "w", "b", "z", "a"] ∧
    (s.childHpsOf "n").toOption = some [Ex.ab "a", Ex.ab "b"] ∧
    (s'.childHpsOf "n").toOption = some [Ex.ab "b", Ex.ab "a"] :=
  ⟨_, _, _, _, ExF.reachZ, ExF.reachM, rfl, by
    simp only [allConds, List.flatMap_cons, List.flatMap_nil, List.append_nil, ExF.callN, ExF.callZ, ExF.callM]
    exact List.perm_append_comm, by decide +kernel, by decide +kernel, by decide +kernel, by decide +kernel⟩

/-- The other theorems on the same space: `z` is a child of `w` and `w` a parent of `z`; `b` is no name before the call. -/
example : ∃ ys, ExF.spZ.parentHpsOf "z" = .ok ys ∧ (ys.map HP.name).Nodup ∧
    ∀ y, y ∈ ys ↔ y ∈ allHps [ExF.callN, ExF.callZ] ∧ ParentOf [ExF.callN, ExF.callZ] y.name "z" :=
  C71_parents_of ExF.reachZ ⟨Ex.ab "z", by simp [allHps, ExF.callN], rfl⟩

example : ∃ c ∈ allConds [ExF.callN, ExF.callZ], ExF.spZ.parentConditionsOf "z" = .ok [c] := by
  rcases C71_parent_conditions_of ExF.reachZ (n := "z") ⟨Ex.ab "z", by simp [allHps, ExF.callN], rfl⟩ with ⟨h, _⟩ | ⟨c, h1, h2, _⟩
  · exact absurd ⟨.lit (Ex.isA "z" "w"), by simp [allConds, ExF.callZ], rfl⟩ h
  · exact ⟨c, h1, h2⟩

example : ∃ cs ys, ExF.spZ.childConditionsOf "n" = .ok cs ∧ ExF.spZ.childHpsOf "n" = .ok ys ∧
      List.Forall₂ (fun c y => ExF.spZ.parentConditionsOf y.name = .ok [c] ∧ ∃ l ∈ c.dlcs, l.parent.name = "n") cs ys :=
  C71_child_conditions_of ExF.reachZ ⟨Ex.ab "n", by simp [allHps, ExF.callN], rfl⟩

example : ∃ cs ps, ExF.spZ.childHpsOf "z" = .ok cs ∧ ExF.spZ.parentHpsOf "a" = .ok ps ∧ (Ex.ab "a" ∈ cs ↔ Ex.ab "z" ∈ ps) := by
  have h1 : Ex.ab "z" ∈ allHps [ExF.callN, ExF.callZ] := by simp [allHps, ExF.callN]
  have h2 : Ex.ab "a" ∈ allHps [ExF.callN, ExF.callZ] := by simp [allHps, ExF.callN]
  obtain ⟨cs, hcs, _⟩ := C71_children_of ExF.reachZ (n := "z") ⟨_, h1, rfl⟩
  obtain ⟨ps, hps, _⟩ := C71_parents_of ExF.reachZ (n := "a") ⟨_, h2, rfl⟩
  exact ⟨cs, ps, hcs, hps, C71_inverse ExF.reachZ h1 h2 hcs hps⟩

example : ExF.spZ.childHpsOf "q" = .error .keyError :=
  ((C71_unknown_name ExF.reachZ "q").1).2 (by
    rintro ⟨x, hx, hn⟩
    have : ∀ x ∈ allHps [ExF.callN, ExF.callZ], x.name ≠ "q" := by decide +kernel
    exact this x hx hn)

end Verif
