import Verif.Spec.Arrays
import Mathlib.Tactic.SplitIfs

/-!
# C86: lists and arrays of values
-/

set_option autoImplicit false

namespace Verif

open Verif.Spec

/-- `f` works element by element, and gives one answer for one object. -/
private theorem oneByOne_eq {α : Type} (c : Choices) (f : List Obj → Except Err (List α)) (g : Obj → Except Err α)
    (hf : ∀ vs, f vs = vs.mapM g) (vs : List Obj) (hs : c.hasSeq = true ∨ ∀ v ∈ vs, v.isSeq = false) :
    oneByOne (c.dispatch f) vs = f vs := by
  rw [hf]
  induction vs with
  | nil => rfl
  | cons v vs ih =>
    have hd : c.dispatch f (.obj v) = (g v).map Res.one := by
      have h1 : (f [v]).bind Res.first = (g v).map Res.one := by
        rw [hf]; simp only [List.mapM_cons, List.mapM_nil]
        cases g v <;> rfl
      cases v with
      | val v => exact h1
      | dict d => exact h1
      | seq t xs =>
        rcases hs with hs | hs
        · show (if c.hasSeq then _ else _) = _
          rw [if_pos hs]; exact h1
        · exact absurd (hs _ List.mem_cons_self) (by simp [Obj.isSeq])
    have ih := ih (hs.imp id (fun h v hv => h v (List.mem_cons_of_mem _ hv)))
    unfold oneByOne
    rw [hd, ih]
    rw [List.mapM_cons]
    cases g v with
    | error e => rfl
    | ok a =>
      cases h : vs.mapM g with
      | error e => simp [Except.map, bind, Except.bind]
      | ok as => simp [Except.map, bind, Except.bind, pure, Except.pure]

theorem asarray_hom (vs : List Obj) (h : Homogeneous vs) : asarray vs = vs := by
  unfold asarray
  split_ifs with hd hs
  · rfl
  · rcases h with h | h | h
    · refine (List.map_congr_left fun v hv => ?_).trans (List.map_id _)
      have := h v hv
      cases v with
      | val v => cases v <;> simp_all [Obj.isStr, Obj.toText]
      | seq t xs => simp [Obj.isStr] at this
      | dict d => simp [Obj.isStr] at this
    · obtain ⟨v, hv, hv'⟩ := List.any_eq_true.1 hs
      rw [h v hv] at hv'; exact absurd hv' (by simp)
    · obtain ⟨v, hv, hv'⟩ := h
      exact absurd (List.any_eq_true.2 ⟨v, hv, hv'⟩) hd
  · rfl

private theorem legalArr_each (c : Choices) : ∃ g : Obj → Except Err Bool, ∀ vs, c.legalArr vs = vs.mapM g := by
  by_cases h : c.hasLookup = true
  · exact ⟨_, fun vs => by unfold Choices.legalArr; rw [if_pos h]⟩
  · refine ⟨fun v => .ok (c.index v).isSome, fun vs => ?_⟩
    unfold Choices.legalArr; rw [if_neg h]
    induction vs with
    | nil => rfl
    | cons v vs ih => rw [List.mapM_cons, ← ih]; rfl

private theorem toVectorArr_each (c : Choices) (h : c.hasLookup = true ∨ c.hasSeq = true) :
    ∃ g : Obj → Except Err Nat, ∀ vs, c.toVectorArr vs = vs.mapM g := by
  by_cases hl : c.hasLookup = true
  · exact ⟨_, fun vs => by unfold Choices.toVectorArr; rw [if_pos hl]⟩
  · have hs : c.hasSeq = true := h.resolve_left hl
    exact ⟨_, fun vs => by unfold Choices.toVectorArr; rw [if_neg hl, if_neg (by simp [hs])]⟩

/-- **C86, arrays.** The answers of `legal_value` and `to_vector` of a categorical or ordinal hyperparameter for an array are the
answers for its elements one by one.  For `to_vector` the choices must be hashable, or one of them a sequence. -/
theorem C86_arrays_partial (c : Choices) (vs : List Obj) (hs : c.hasSeq = true ∨ ∀ v ∈ vs, v.isSeq = false) :
    Elementwise c.legalValue (.array vs) vs
    ∧ (c.hasLookup = true ∨ c.hasSeq = true → Elementwise c.toVector (.array vs) vs) := by
  constructor
  · obtain ⟨g, hg⟩ := legalArr_each c
    unfold Elementwise Choices.legalValue
    rw [oneByOne_eq c _ g hg vs hs]; rfl
  · intro h
    obtain ⟨g, hg⟩ := toVectorArr_each c h
    unfold Elementwise Choices.toVector
    rw [oneByOne_eq c _ g hg vs hs]; rfl

/-- **C86, lists.** The same for lists (and tuples) of values, if no choice is a sequence, and the list does not mix texts and
numbers. -/
theorem C86_lists_partial (c : Choices) (t : Bool) (vs : List Obj) (hc : c.hasSeq = false) (hs : ∀ v ∈ vs, v.isSeq = false)
    (hh : Homogeneous vs) :
    Elementwise c.legalValue (.obj (.seq t vs)) vs
    ∧ (c.hasLookup = true → Elementwise c.toVector (.obj (.seq t vs)) vs) := by
  have key : ∀ {α : Type} (f : List Obj → Except Err (List α)),
      c.dispatch f (.obj (.seq t vs)) = c.dispatch f (.array vs) := by
    intro α f
    show (if c.hasSeq then _ else _) = _
    rw [if_neg (by simp [hc]), asarray_hom vs hh]; rfl
  have := C86_arrays_partial c vs (.inr hs)
  constructor
  · show c.dispatch _ _ = _
    rw [key]; exact this.1
  · intro h
    show c.dispatch _ _ = _
    rw [key]; exact this.2 (.inl h)

/-- **C86, ranges.** For integers and floats: arrays, and lists that do not mix texts and numbers. -/
theorem C86_ranges_partial (k : Kind) (t : Bool) (vs : List Obj) (hs : ∀ v ∈ vs, v.isSeq = false) :
    Elementwise (fun a => .ok (k.legalArg a)) (.array vs) vs
    ∧ (Homogeneous vs → Elementwise (fun a => .ok (k.legalArg a)) (.obj (.seq t vs)) vs) := by
  have h1 : oneByOne (fun a => .ok (k.legalArg a)) vs = .ok (vs.map k.legalObj) := by
    clear t
    induction vs with
    | nil => rfl
    | cons v vs ih =>
      have hv : v.isSeq = false := hs v List.mem_cons_self
      have ih := ih (fun w hw => hs w (List.mem_cons_of_mem _ hw))
      unfold oneByOne
      rw [ih]
      cases v with
      | val v => rfl
      | dict d => rfl
      | seq t xs => simp [Obj.isSeq] at hv
  refine ⟨by unfold Elementwise; rw [h1]; rfl, fun hh => ?_⟩
  unfold Elementwise
  rw [h1]
  show Except.ok (Res.many ((asarray vs).map k.legalObj)) = _
  rw [asarray_hom vs hh]; rfl

/-- **C86, one value.** If some choice is a sequence, a list or tuple is taken for one value: the answer says whether it is a
choice, whatever is in it. -/
theorem C86_sequence_is_one_value (c : Choices) (hc : c.hasSeq = true) (t : Bool) (vs : List Obj) (b : Bool)
    (h : c.hasLookup = false ∨ (Obj.seq t vs).hashable = true) :
    c.legalValue (.obj (.seq t vs)) = .ok (.one b) ↔ (b = true ↔ ∃ x ∈ c.items, x.pyEq (.seq t vs) = true) := by
  have hv : c.legalValue (.obj (.seq t vs)) = .ok (.one (c.index (.seq t vs)).isSome) := by
    show (if c.hasSeq then _ else _) = _
    rw [if_pos hc]
    unfold Choices.legalArr
    by_cases hl : c.hasLookup = true
    · have hh : (Obj.seq t vs).hashable = true := by
        rcases h with h | h
        · rw [h] at hl; simp at hl
        · exact h
      rw [if_pos hl]
      simp only [List.mapM_cons, List.mapM_nil, if_pos hh]; rfl
    · rw [if_neg hl]; rfl
  rw [hv]
  have hi : (c.index (.seq t vs)).isSome = true ↔ ∃ x ∈ c.items, x.pyEq (.seq t vs) = true := by
    unfold Choices.index; rw [List.findIdx?_isSome]; exact List.any_eq_true
  rw [← hi]
  cases b <;> cases (c.index (.seq t vs)).isSome <;> simp

/-- Three hyperparameters for examples: choices that are numbers and texts, dictionaries, and tuples. -/
def ExG.mixed : Choices := ⟨[.val (.int 1), .val (.str "1"), .val (.str "a")]⟩
def ExG.dicts : Choices := ⟨[.dict [("x", .int 1)], .dict [("x", .int 2)]]⟩
def ExG.tuples : Choices := ⟨[.seq true [.val (.int 1), .val (.int 2)], .val (.str "a")]⟩

open ExG

/-- **C86, false of the code: mixed lists.** In a list that contains a text all numbers are turned into texts, so that legal
values are found illegal; with the choices 1 and "1" the position of the wrong choice is returned. -/
theorem C86_mixed_lists :
    (∀ (c : Choices) (t : Bool) (vs : List Obj), c.hasSeq = false → c.hasLookup = true → (∀ v ∈ vs, ∃ w, v = .val w) →
      (∃ v ∈ vs, v.isStr = true) →
      c.legalValue (.obj (.seq t vs)) = .ok (.many (vs.map (fun v => (c.index v.toText).isSome))))
    ∧ (∀ (k : Kind) (t : Bool) (vs : List Obj), (∃ l u, k = .int l u) ∨ (∃ l u, k = .flt l u) → (∀ v ∈ vs, ∃ w, v = .val w) →
      (∃ v ∈ vs, v.isStr = true) → k.legalArg (.obj (.seq t vs)) = .many (vs.map (fun _ => false)))
    ∧ ¬ Elementwise mixed.toVector (.obj (.seq false [.val (.int 1), .val (.str "1")])) [.val (.int 1), .val (.str "1")]
    ∧ mixed.toVector (.obj (.val (.int 1))) = .ok (.one 0)
    ∧ mixed.toVector (.obj (.seq false [.val (.int 1), .val (.str "1")])) = .ok (.many [1, 1]) := by
  have has : ∀ vs : List Obj, (∀ v ∈ vs, ∃ w, v = .val w) → (∃ v ∈ vs, v.isStr = true) → asarray vs = vs.map Obj.toText := by
    intro vs h1 h2
    unfold asarray
    have : vs.any Obj.isDict = false := by
      rw [List.any_eq_false]; intro v hv; obtain ⟨w, rfl⟩ := h1 v hv; simp [Obj.isDict]
    rw [this, if_neg (by simp), if_pos (List.any_eq_true.2 h2)]
  refine ⟨?_, ?_, ?_, by rfl, by rfl⟩
  · intro c t vs hc hl h1 h2
    show (if c.hasSeq then _ else _) = _
    rw [if_neg (by simp [hc]), has vs h1 h2]
    unfold Choices.legalArr; rw [if_pos hl]
    have : ∀ ws : List Obj, (∀ v ∈ ws, ∃ w, v = .val w) →
        (ws.map Obj.toText).mapM (fun v => if v.hashable then (.ok (c.index v).isSome : Except Err Bool) else .error .typeError)
          = .ok (ws.map (fun v => (c.index v.toText).isSome)) := by
      intro ws hw
      induction ws with
      | nil => rfl
      | cons v ws ih =>
        rw [List.map_cons, List.mapM_cons, ih (fun w hw' => hw w (List.mem_cons_of_mem _ hw'))]
        obtain ⟨w, rfl⟩ := hw v List.mem_cons_self
        have : (Obj.val w).toText.hashable = true := by cases w <;> simp [Obj.toText, Obj.hashable]
        rw [if_pos this]; rfl
    rw [this vs h1]; rfl
  · intro k t vs hk h1 h2
    show Res.many ((asarray vs).map k.legalObj) = _
    rw [has vs h1 h2, List.map_map]
    congr 1
    refine List.map_congr_left fun v hv => ?_
    obtain ⟨w, rfl⟩ := h1 v hv
    rcases hk with ⟨l, u, rfl⟩ | ⟨l, u, rfl⟩ <;> cases w <;> rfl
  · intro h
    have h1 : mixed.toVector (.obj (.seq false [.val (.int 1), .val (.str "1")])) = .ok (.many [1, 1]) := by rfl
    have h2 : oneByOne mixed.toVector [.val (.int 1), .val (.str "1")] = .ok [0, 1] := by rfl
    unfold Elementwise at h
    rw [h1, h2] at h
    injection h with h
    injection h with h
    exact absurd h (by decide)

/-- **C86, false of the code: choices that are not hashable.** If the choices are dictionaries, `to_vector` of an array returns the
positions of the choices that occur in it: in the order of the choices, each once. -/
theorem C86_unhashable_choices :
    dicts.toVector (.obj (.dict [("x", .int 2)])) = .ok (.one 1)
    ∧ dicts.toVector (.array [.dict [("x", .int 2)], .dict [("x", .int 1)]]) = .ok (.many [0, 1])
    ∧ dicts.toVector (.array [.dict [("x", .int 2)], .dict [("x", .int 2)]]) = .ok (.many [1])
    ∧ ∀ (c : Choices), c.hasLookup = false → c.hasSeq = false → ∀ vs is, c.toVector (.array vs) = .ok (.many is) →
        is.Pairwise (· < ·) := by
  refine ⟨by rfl, by rfl, by rfl, ?_⟩
  intro c hl hs vs is h
  have : c.toVector (.array vs) = (c.toVectorArr vs).map Res.many := rfl
  rw [this] at h
  unfold Choices.toVectorArr at h
  rw [if_neg (by simp [hl]), if_pos (by simp [hs])] at h
  injection h with h
  injection h with h
  subst h
  exact List.Pairwise.filter _ List.pairwise_lt_range

/-- **C86, false of the code: lists in configurations.** A list with one legal value passes the check of configurations and of
assignments, although the list is not a value of the hyperparameter. -/
theorem C86_list_accepted_as_value (n : Name) :
    (∀ (c : Choices) (t : Bool) (w : Val), c.hasSeq = false → c.hasLookup = true → (∃ x ∈ c.items, x.pyEq (.val w) = true) →
      (c.legalValue (.obj (.seq t [.val w]))).bind (acceptRes n) = .ok ()
      ∧ ∀ x ∈ c.items, x.pyEq (.seq t [.val w]) = false)
    ∧ (∀ (k : Kind) (t : Bool) (w : Val), k.legalValue w = true → acceptRes n (k.legalArg (.obj (.seq t [.val w]))) = .ok ()) := by
  have has : ∀ w : Val, asarray [.val w] = [.val w] := by intro w; cases w <;> rfl
  constructor
  · intro c t w hc hl hw
    constructor
    · have : c.legalValue (.obj (.seq t [.val w])) = .ok (.many [(c.index (.val w)).isSome]) := by
        show (if c.hasSeq then _ else _) = _
        rw [if_neg (by simp [hc]), has]
        unfold Choices.legalArr; rw [if_pos hl]
        rfl
      rw [this]
      have hi : (c.index (.val w)).isSome = true := by
        unfold Choices.index; rw [List.findIdx?_isSome]; exact List.any_eq_true.2 hw
      rw [hi]; rfl
    · intro x hx
      have hxs : x.isSeq = false := by
        have := List.any_eq_false.1 (show c.items.any Obj.isSeq = false from hc) x hx
        simpa using this
      cases x with
      | val v => rfl
      | dict d => rfl
      | seq t' xs => simp [Obj.isSeq] at hxs
  · intro k t w hw
    show acceptRes n (.many ((asarray [.val w]).map k.legalObj)) = _
    rw [has]
    show (if k.legalValue w then _ else _) = _
    rw [if_pos hw]

theorem except_mapM_length {α β : Type} (g : α → Except Err β) :
    ∀ (xs : List α) (ys : List β), xs.mapM g = .ok ys → ys.length = xs.length := by
  intro xs
  induction xs with
  | nil => intro ys h; cases h; rfl
  | cons x xs ih =>
    intro ys h
    rw [List.mapM_cons] at h
    cases hx : g x with
    | error e => rw [hx] at h; cases h
    | ok y =>
      rw [hx] at h
      cases hr : xs.mapM g with
      | error e => rw [hr] at h; cases h
      | ok zs => rw [hr] at h; cases h; simp [ih zs hr]

/-- **C86, which lists configurations accept.** Exactly the lists with one element that would be accepted itself; the empty list
and every longer list are refused, whatever they contain. -/
theorem C86_lists_in_configurations (n : Name) :
    (∀ (c : Choices) (t : Bool) (vs : List Obj), c.hasSeq = false → (∀ v ∈ vs, v.isSeq = false) →
      ((c.legalValue (.obj (.seq t vs))).bind (acceptRes n) = .ok ()
        ↔ ∃ v, vs = [v] ∧ (c.legalValue (.obj v)).bind (acceptRes n) = .ok ()))
    ∧ (∀ (k : Kind) (t : Bool) (vs : List Obj), (∀ v ∈ vs, v.isSeq = false) →
      (acceptRes n (k.legalArg (.obj (.seq t vs))) = .ok ()
        ↔ ∃ v, vs = [v] ∧ acceptRes n (k.legalArg (.obj v)) = .ok ())) := by
  have has : ∀ v : Obj, asarray [v] = [v] := by
    intro v
    cases v with
    | val v => cases v <;> rfl
    | seq t xs => rfl
    | dict d => rfl
  have hlen : ∀ vs : List Obj, (asarray vs).length = vs.length := by
    intro vs; unfold asarray; split
    · rfl
    · split
      · simp
      · rfl
  have hone : ∀ (bs : List Bool), acceptRes n (.many bs) = .ok () → bs = [true] := by
    intro bs h
    match bs, h with
    | [], h => simp [acceptRes] at h
    | [b], h => cases b <;> simp [acceptRes] at h ⊢
    | _ :: _ :: _, h => simp [acceptRes] at h
  constructor
  · intro c t vs hc hs
    have hd : c.legalValue (.obj (.seq t vs)) = (c.legalArr (asarray vs)).map .many := by
      show (if c.hasSeq then _ else _) = _
      rw [if_neg (by simp [hc])]
    have hsingle : ∀ v : Obj, v.isSeq = false →
        (((c.legalArr [v]).map Res.many).bind (acceptRes n) = .ok () ↔ (c.legalValue (.obj v)).bind (acceptRes n) = .ok ()) := by
      intro v hv
      have e : c.legalValue (.obj v) = (c.legalArr [v]).bind Res.first := by
        cases v with
        | val v => rfl
        | dict d => rfl
        | seq t' xs => simp [Obj.isSeq] at hv
      rw [e]
      unfold Choices.legalArr
      by_cases hl : c.hasLookup = true
      · rw [if_pos hl]
        by_cases hh : v.hashable = true
        · simp only [List.mapM_cons, List.mapM_nil, hh, if_true]; exact Iff.rfl
        · simp only [List.mapM_cons, List.mapM_nil, if_neg hh]; exact Iff.rfl
      · rw [if_neg hl]; exact Iff.rfl
    rw [hd]
    constructor
    · intro h
      have hl1 : vs.length = 1 := by
        cases hr : c.legalArr (asarray vs) with
        | error e => rw [hr] at h; simp [Except.map, Except.bind] at h
        | ok bs =>
          rw [hr] at h
          have hb := hone bs h
          have : bs.length = (asarray vs).length := by
            obtain ⟨g, hg⟩ := legalArr_each c
            rw [hg] at hr
            exact except_mapM_length g _ _ hr
          rw [hb, hlen] at this
          simpa using this.symm
      obtain ⟨v, rfl⟩ := List.length_eq_one_iff.1 hl1
      rw [has] at h
      exact ⟨v, rfl, (hsingle v (hs v List.mem_cons_self)).1 h⟩
    · rintro ⟨v, rfl, h⟩
      rw [has]
      exact (hsingle v (hs v List.mem_cons_self)).2 h
  · intro k t vs hs
    show acceptRes n (.many ((asarray vs).map k.legalObj)) = .ok () ↔ _
    have hsingle : ∀ v : Obj, v.isSeq = false →
        (acceptRes n (.many [k.legalObj v]) = .ok () ↔ acceptRes n (k.legalArg (.obj v)) = .ok ()) := by
      intro v hv
      cases v with
      | val v => exact Iff.rfl
      | dict d => exact Iff.rfl
      | seq t' xs => simp [Obj.isSeq] at hv
    constructor
    · intro h
      have hb := congrArg List.length (hone _ h)
      rw [List.length_map, hlen] at hb
      obtain ⟨v, rfl⟩ := List.length_eq_one_iff.1 (by simpa using hb)
      rw [has] at h
      exact ⟨v, rfl, (hsingle v (hs v List.mem_cons_self)).1 h⟩
    · rintro ⟨v, rfl, h⟩
      rw [has]
      exact (hsingle v (hs v List.mem_cons_self)).2 h

/-- A case: the list `["a"]` is accepted like "a", the list `["a", "a"]` is not. -/
example : (mixed.legalValue (.obj (.seq false [.val (.str "a")]))).bind (acceptRes "x") = .ok ()
    ∧ (mixed.legalValue (.obj (.seq false [.val (.str "a"), .val (.str "a")]))).bind (acceptRes "x") = .error .valueError :=
  ⟨by rfl, by rfl⟩

/-- Cases of `C86_arrays_partial`, `C86_lists_partial` and `C86_sequence_is_one_value`: an array of mixed values, a list of texts with
one that is no choice, a tuple of choices that contain tuples. -/
example : mixed.toVector (.array [.val (.int 1), .val (.str "1"), .val (.str "a")]) = .ok (.many [0, 1, 2])
    ∧ mixed.legalValue (.obj (.seq false [.val (.str "1"), .val (.str "b")])) = .ok (.many [true, false])
    ∧ Homogeneous [.val (.str "1"), .val (.str "b")]
    ∧ tuples.hasSeq = true ∧ tuples.legalValue (.obj (.seq true [.val (.int 1), .val (.int 2)])) = .ok (.one true) :=
  ⟨by rfl, by rfl, .inl (by simp [Obj.isStr]), by rfl, by rfl⟩

/-! ## The theorems applied to these cases -/

example := C86_arrays_partial mixed [.val (.int 1), .val (.str "1"), .val (.str "a")] (.inr (by simp [Obj.isSeq]))
example := C86_lists_partial mixed false [.val (.str "1"), .val (.str "b")] (by rfl) (by simp [Obj.isSeq]) (.inl (by simp [Obj.isStr]))
example := (C86_ranges_partial (.int 1 5) false [.val (.int 1), .val (.flt (5 / 2)), .val (.int 9)] (by simp [Obj.isSeq])).1
example := (C86_sequence_is_one_value tuples (by rfl) true [.val (.int 1), .val (.int 2)] true (.inr (by rfl))).1 (by rfl)

end Verif
