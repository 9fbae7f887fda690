import Verif.Spec.ConstArgs
import Verif.Props.Arrays
import Mathlib.Data.List.Forall2
import Mathlib.Tactic.SplitIfs

/-!
# C99: constants with any value, and densities of listed values
-/

set_option autoImplicit false

namespace Verif

open Verif.Spec

mutual
/-- What is equal to a hashable object is hashable. -/
theorem Obj.hashable_of_eq : ∀ x y : Obj, x.pyEq y = true → x.hashable = true → y.hashable = true
  | .val _, .val _, _, _ => rfl
  | .val _, .seq _ _, h, _ => by simp [Obj.pyEq] at h
  | .val _, .dict _, h, _ => by simp [Obj.pyEq] at h
  | .seq true xs, .seq true ys, h, hx => by
    simp only [Obj.pyEq, Bool.and_eq_true] at h
    simp only [Obj.hashable] at hx ⊢
    exact Obj.allHashable_of_eq xs ys h.2 hx
  | .seq true _, .seq false _, h, _ => by simp [Obj.pyEq] at h
  | .seq true _, .val _, h, _ => by simp [Obj.pyEq] at h
  | .seq true _, .dict _, h, _ => by simp [Obj.pyEq] at h
  | .seq false _, _, _, hx => by simp [Obj.hashable] at hx
  | .dict _, _, _, hx => by simp [Obj.hashable] at hx
theorem Obj.allHashable_of_eq : ∀ xs ys : List Obj, Obj.listEq xs ys = true → Obj.allHashable xs = true →
    Obj.allHashable ys = true
  | [], [], _, _ => rfl
  | [], _ :: _, h, _ => by simp [Obj.listEq] at h
  | _ :: _, [], h, _ => by simp [Obj.listEq] at h
  | x :: xs, y :: ys, h, hx => by
    simp only [Obj.listEq, Bool.and_eq_true] at h
    simp only [Obj.allHashable, Bool.and_eq_true] at hx ⊢
    exact ⟨Obj.hashable_of_eq x y h.1 hx.1, Obj.allHashable_of_eq xs ys h.2 hx.2⟩
end

theorem Choices.index_iff (c : Choices) (v : Obj) (i : Nat) : c.index v = some i ↔ ChoiceAt c.items i v := by
  unfold Choices.index ChoiceAt
  rw [List.findIdx?_eq_some_iff_getElem]
  constructor
  · rintro ⟨h, hi, hj⟩
    refine ⟨⟨_, List.getElem?_eq_getElem h, hi⟩, fun j hji y hy => ?_⟩
    have := hj j hji
    obtain ⟨_, rfl⟩ := List.getElem?_eq_some_iff.1 hy
    simpa using this
  · rintro ⟨⟨x, hx, hv⟩, hj⟩
    obtain ⟨h, rfl⟩ := List.getElem?_eq_some_iff.1 hx
    refine ⟨h, hv, fun j hji => ?_⟩
    have := hj j hji _ (List.getElem?_eq_getElem (by omega))
    simpa using this

theorem mapM_forall₂ {α β : Type} (g : α → Except Err β) :
    ∀ (xs : List α) (ys : List β), xs.mapM g = .ok ys ↔ List.Forall₂ (fun x y => g x = .ok y) xs ys := by
  intro xs
  induction xs with
  | nil =>
    intro ys
    constructor
    · intro h; cases h; exact .nil
    · intro h; cases h; rfl
  | cons x xs ih =>
    intro ys
    rw [List.mapM_cons]
    constructor
    · intro h
      cases hx : g x with
      | error e => rw [hx] at h; cases h
      | ok y =>
        rw [hx] at h
        cases hr : xs.mapM g with
        | error e => rw [hr] at h; cases h
        | ok zs => rw [hr] at h; cases h; exact .cons hx ((ih zs).1 hr)
    · intro h
      cases h with
      | cons h1 h2 => rw [h1, (ih _).2 h2]; rfl

theorem toVectorArr_iff (c : Choices) (h : c.hasLookup = true ∨ c.hasSeq = true) (vs : List Obj) (is : List Nat) :
    c.toVectorArr vs = .ok is ↔ List.Forall₂ (fun v i => ChoiceAt c.items i v) vs is := by
  unfold Choices.toVectorArr
  by_cases hl : c.hasLookup = true
  · rw [if_pos hl, mapM_forall₂]
    have : ∀ v i, c.lookup v = .ok i ↔ ChoiceAt c.items i v := by
      intro v i
      rw [← Choices.index_iff]
      unfold Choices.lookup
      constructor
      · intro h
        split_ifs at h with hh
        cases hi : c.index v with
        | none => rw [hi] at h; cases h
        | some j => rw [hi] at h; cases h; rfl
      · intro hi
        have hat := (Choices.index_iff c v i).1 hi
        obtain ⟨⟨x, hx, hv⟩, -⟩ := hat
        have hxh : x.hashable = true := (List.all_eq_true.1 hl) x (List.mem_of_getElem? hx)
        rw [if_pos (Obj.hashable_of_eq x v hv hxh), hi]
    simp only [this]
  · have hs : c.hasSeq = true := h.resolve_left hl
    rw [if_neg hl, if_neg (by simp [hs]), mapM_forall₂]
    have : ∀ v i, (match c.index v with
        | some i => Except.ok i
        | none => Except.error Err.valueError) = Except.ok i ↔ ChoiceAt c.items i v := by
      intro v i
      rw [← Choices.index_iff]
      cases c.index v with
      | none => simp
      | some j => simp
    exact ⟨fun h => h.imp (fun v i hv => (this v i).1 hv), fun h => h.imp (fun v i hv => (this v i).2 hv)⟩

theorem handed_eq (hasSeq : Bool) (a : ListArg) (h : Unmixed hasSeq a) : a.handed hasSeq = a.values := by
  cases a with
  | array vs => rfl
  | seq t vs =>
    show (if hasSeq then vs else asarray vs) = vs
    rcases h with h | h
    · rw [if_pos h]
    · rw [asarray_hom vs h]; split <;> rfl

/-- **C99, densities of choices.** `pdf_values` of a categorical or ordinal hyperparameter returns densities exactly if every
listed value is a choice, and then one for each value, in order.  Guards: the choices are hashable or one of them is a sequence, and
a list does not mix texts and numbers (unless some choice is a sequence). -/
theorem C99_densities_partial (c : Choices) (p : Nat → Rat) (hc : c.hasLookup = true ∨ c.hasSeq = true) (a : ListArg)
    (ha : Unmixed c.hasSeq a) (ds : List Rat) :
    c.pdfValues p a = .ok ds ↔ RightDensities c.items p a.values ds := by
  unfold Choices.pdfValues RightDensities
  rw [handed_eq _ a ha]
  constructor
  · intro h
    cases hv : c.toVectorArr a.values with
    | error e => rw [hv] at h; cases h
    | ok is =>
      rw [hv] at h; cases h
      have := (toVectorArr_iff c hc _ _).1 hv
      rw [List.forall₂_map_right_iff]
      exact this.imp (fun v i h => ⟨i, h, rfl⟩)
  · intro h
    have : ∃ is, List.Forall₂ (fun v i => ChoiceAt c.items i v) a.values is ∧ ds = is.map p := by
      generalize a.values = vs at h
      induction h with
      | nil => exact ⟨[], .nil, rfl⟩
      | cons h1 _ ih =>
        obtain ⟨i, hi, rfl⟩ := h1
        obtain ⟨is, his, rfl⟩ := ih
        exact ⟨i :: is, .cons hi his, rfl⟩
    obtain ⟨is, his, rfl⟩ := this
    rw [(toVectorArr_iff c hc _ _).2 his]; rfl

/-- **C99, constants.** For an array, and for a list that reaches the hyperparameter as written, `legal_value`, `to_vector` and
`pdf_values` of a constant never raise, and answer for each value, in order, whether it is the value of the constant: true or false,
entry one or zero, density one or zero. -/
theorem C99_constant_arrays (k : Konst) (vs : List Obj) :
    (∃ bs, k.legalValue (.array vs) = .ok (.many bs) ∧ List.Forall₂ (fun v b => b = true ↔ v.pyEq k.value = true) vs bs)
    ∧ (∃ xs : List Rat, k.toVector (.array vs) = .ok (.many xs)
        ∧ List.Forall₂ (fun v x => (x = 0 ∨ x = 1) ∧ (x = 1 ↔ v.pyEq k.value = true)) vs xs)
    ∧ ∀ a : ListArg, a.values = vs → Unmixed k.hasSeq a →
        List.Forall₂ (fun v d => (d = 0 ∨ d = 1) ∧ (d = 1 ↔ v.pyEq k.value = true)) vs (k.pdfValues a) := by
  have one : ∀ b : Bool, ((if b then (1 : Rat) else 0) = 0 ∨ (if b then (1 : Rat) else 0) = 1)
      ∧ ((if b then (1 : Rat) else 0) = 1 ↔ b = true) := by
    intro b; cases b <;> simp
  refine ⟨⟨_, rfl, ?_⟩, ⟨_, rfl, ?_⟩, fun a ha hu => ?_⟩
  · unfold Konst.legalArr
    rw [List.forall₂_map_right_iff]
    exact List.forall₂_same.2 (fun v _ => Iff.rfl)
  · unfold Konst.toVectorArr
    rw [List.forall₂_map_right_iff]
    exact List.forall₂_same.2 (fun v _ => one _)
  · unfold Konst.pdfValues Konst.toVectorArr
    rw [handed_eq _ a hu, ha, List.forall₂_map_right_iff, List.forall₂_map_right_iff]
    refine List.forall₂_same.2 (fun v _ => ?_)
    unfold Konst.pdfVector Konst.legalVector
    cases v.pyEq k.value <;> simp

/-- **C99, one value.** An object that is not a list, and any list or tuple if the value of the constant is one, is taken for one value:
it is legal exactly if it is equal to the value of the constant, and then its entry is the only legal one and is turned back into the
value of the constant. -/
theorem C99_constant_one (k : Konst) (o : Obj) (ho : o.isSeq = false ∨ k.hasSeq = true) :
    ∃ (b : Bool) (x : Rat), k.legalValue (.obj o) = .ok (.one b) ∧ k.toVector (.obj o) = .ok (.one x)
      ∧ (b = true ↔ o.pyEq k.value = true) ∧ (k.legalVector x = b) ∧ k.toValueArr [x] = [k.value] := by
  have hd : ∀ {α : Type} (f : List Obj → List α), k.dispatch f (.obj o) = Res.first (f [o]) := by
    intro α f
    cases o with
    | val v => rfl
    | dict d => rfl
    | seq t xs =>
      have hs : k.hasSeq = true := ho.resolve_left (by simp [Obj.isSeq])
      show (if k.hasSeq then _ else _) = _
      rw [if_pos hs]
  refine ⟨o.pyEq k.value, if o.pyEq k.value then 1 else 0, ?_, ?_, Iff.rfl, ?_, rfl⟩
  · unfold Konst.legalValue; rw [hd]; rfl
  · unfold Konst.toVector; rw [hd]; rfl
  · unfold Konst.legalVector; cases o.pyEq k.value <;> simp

/-- **C99, lists.** A list of values for a constant whose value is no sequence is answered element by element if it does not mix
texts and numbers. -/
theorem C99_constant_lists_partial (k : Konst) (t : Bool) (vs : List Obj) (hk : k.hasSeq = false) (hh : Homogeneous vs) :
    k.legalValue (.obj (.seq t vs)) = k.legalValue (.array vs) ∧ k.toVector (.obj (.seq t vs)) = k.toVector (.array vs) := by
  have : ∀ {α : Type} (f : List Obj → List α), k.dispatch f (.obj (.seq t vs)) = k.dispatch f (.array vs) := by
    intro α f
    show (if k.hasSeq then _ else _) = _
    rw [if_neg (by simp [hk]), asarray_hom vs hh]; rfl
  exact ⟨this _, this _⟩

def ExG.pair : Konst := ⟨.seq true [.val (.int 1), .val (.int 2)]⟩
def ExG.five : Konst := ⟨.val (.int 5)⟩
def ExG.weights : Nat → Rat := fun i => if i = 0 then 1 / 4 else 3 / 4

open ExG

/-- **C99, false of the code: mixed lists.** In a list that contains a text a constant number is not found any more: it is illegal and
has density zero. -/
theorem C99_mixed_lists :
    five.legalValue (.array [.val (.int 5), .val (.str "a")]) = .ok (.many [true, false])
    ∧ five.legalValue (.obj (.seq false [.val (.int 5), .val (.str "a")])) = .ok (.many [false, false])
    ∧ five.pdfValues (.array [.val (.int 5), .val (.str "a")]) = [1, 0]
    ∧ five.pdfValues (.seq false [.val (.int 5), .val (.str "a")]) = [0, 0]
    ∧ ∀ (k : Konst) (n : Int) (t : Bool) (vs : List Obj), k.value = .val (.int n) → (∀ v ∈ vs, ∃ w, v = .val w) →
        (∃ v ∈ vs, v.isStr = true) → ∀ d ∈ k.pdfValues (.seq t vs), d = 0 := by
  refine ⟨by rfl, by rfl, by decide +kernel, by decide +kernel, ?_⟩
  intro k n t vs hk hv ⟨s, hs, hs'⟩ d hd
  have hseq : k.hasSeq = false := by unfold Konst.hasSeq; rw [hk]; rfl
  have has : asarray vs = vs.map Obj.toText := by
    unfold asarray
    rw [if_neg, if_pos (List.any_eq_true.2 ⟨s, hs, hs'⟩)]
    intro h
    obtain ⟨v, hvm, hvd⟩ := List.any_eq_true.1 h
    obtain ⟨w, rfl⟩ := hv v hvm
    cases hvd
  unfold Konst.pdfValues Konst.toVectorArr at hd
  rw [show (ListArg.seq t vs).handed k.hasSeq = asarray vs by rw [hseq]; rfl, has, List.map_map, List.map_map,
    List.mem_map] at hd
  obtain ⟨v, hvm, rfl⟩ := hd
  obtain ⟨w, rfl⟩ := hv v hvm
  have : (Obj.val w).toText.pyEq k.value = false := by
    rw [hk]; cases w <;> rfl
  simp [this, Konst.pdfVector]

/-- **C99, false of the code: choices that are not hashable.** `pdf_values` of an array of dictionaries returns the densities in the
order of the choices, and one only for a repeated value. -/
theorem C99_unhashable_choices :
    dicts.pdfValues weights (.array [.dict [("x", .int 1)]]) = .ok [1 / 4]
    ∧ dicts.pdfValues weights (.array [.dict [("x", .int 2)]]) = .ok [3 / 4]
    ∧ dicts.pdfValues weights (.array [.dict [("x", .int 2)], .dict [("x", .int 1)]]) = .ok [1 / 4, 3 / 4]
    ∧ dicts.pdfValues weights (.array [.dict [("x", .int 2)], .dict [("x", .int 2)]]) = .ok [3 / 4] := by
  refine ⟨?_, ?_, ?_, ?_⟩ <;> rfl

/-- Cases of `C99_densities_partial`, `C99_constant_one` and `C99_constant_lists_partial`. -/
example : tuples.hasLookup = true ∧ Unmixed tuples.hasSeq (.seq false [.val (.str "a"), .seq true [.val (.int 1), .val (.int 2)]])
    ∧ tuples.pdfValues weights (.seq false [.val (.str "a"), .seq true [.val (.int 1), .val (.int 2)]]) = .ok [3 / 4, 1 / 4]
    ∧ pair.legalValue (.obj (.seq true [.val (.int 1), .val (.int 2)])) = .ok (.one true)
    ∧ pair.legalValue (.obj (.seq false [.val (.int 1), .val (.int 2)])) = .ok (.one false)
    ∧ five.hasSeq = false ∧ five.toVector (.obj (.seq false [.val (.int 5), .val (.int 6)])) = .ok (.many [1, 0]) :=
  ⟨by rfl, .inl (by rfl), by rfl, by rfl, by rfl, by rfl, by rfl⟩

/-! ## The theorems applied to these cases -/

example := C99_densities_partial tuples weights (.inl (by rfl)) (.seq false [.val (.str "a"), .seq true [.val (.int 1), .val (.int 2)]])
  (.inl (by rfl)) [3 / 4, 1 / 4]
example := C99_constant_one pair (.seq true [.val (.int 1), .val (.int 2)]) (.inr (by rfl))
example := C99_constant_lists_partial five false [.val (.str "5"), .val (.str "b")] (by rfl) (.inl (by simp [Obj.isStr]))

end Verif
