import Verif.Props.Serial

/-!
# C60: what older files say about weights and step widths

Files written by older versions may give the probabilities of choices under the key `probabilities`, and the step width of
a range under the key `q`.  Both keys are accepted, with a warning, and dropped: what they said is lost.
-/

set_option autoImplicit false

namespace Verif
open Verif.Spec

/-- The specification of an old range: `v` is one of `lower, lower + q, lower + 2 q, ...` up to `upper`. -/
def Spec.OnSteps (lower upper q v : Int) : Prop := lower ≤ v ∧ v ≤ upper ∧ ∃ k : Int, v = lower + k * q

theorem compat_append (fs : Fields) (k : String) (p : Json) (hq : k ≠ "q") (hd : k ≠ "default") (hv : k ≠ "default_value") :
    Fields.pop (compat (fs ++ [(k, p)])) k = Fields.pop (compat fs) k := by
  have p1 : Fields.pop [(k, p)] "q" = [(k, p)] := by simp [Fields.pop, hq]
  have p2 : Fields.pop [(k, p)] "default" = [(k, p)] := by simp [Fields.pop, hd]
  have p3 : Fields.pop [(k, p)] "default_value" = [(k, p)] := by simp [Fields.pop, hv]
  have p4 : Fields.pop [(k, p)] k = [] := by simp [Fields.pop]
  have l1 : List.lookup "default" [(k, p)] = none := by
    rw [List.lookup_cons, beq_false_of_ne (Ne.symm hd)]
    rfl
  unfold compat
  simp only [pop_append, p1, p2, List.lookup_append, l1, Option.or_none]
  cases h : List.lookup "default" (fs.pop "q") with
  | none => simp [pop_append, p4]
  | some d =>
    have hn : (k == "default_value") = false := beq_false_of_ne hv
    cases d <;> simp only [pop_append, p3, p4, List.append_nil, List.append_assoc] <;>
      simp [Fields.pop, List.filter_append, List.filter_cons]

/-- **C60.** The key `probabilities` of choices in an older file changes nothing about what is read, whatever it says. -/
theorem C60_old_probabilities_ignored (fs : Fields) (p : Json) :
    decHPFields "categorical" (fs ++ [("probabilities", p)]) = decHPFields "categorical" fs := by
  unfold decHPFields
  simp only [compat_append fs "probabilities" p (by decide) (by decide) (by decide)]
  rfl

/-- **C60.** That what an older file says is kept is false of the code for the probabilities of choices: choices that were
given with any probabilities (and without the newer key `weights`) are read as choices without weights, so that a choice
of probability zero can be drawn, and all are equally likely. -/
theorem C60_old_probabilities_lost (fs : Fields) (p : Json) (hw : ∀ kv ∈ fs, kv.1 ≠ "weights")
    {h : HP} {w : Option (List Rat)} (hd : decHPFields "categorical" (fs ++ [("probabilities", p)]) = .ok (h, w)) :
    w = none := by
  rw [C60_old_probabilities_ignored] at hd
  have hno : List.lookup "weights" (Fields.pop (compat fs) "probabilities") = none := by
    refine lookup_absent fun kv hkv => ?_
    have h1 : kv ∈ compat fs := (List.mem_filter.1 hkv).1
    have h0 : ∀ x, x ∈ (fs.pop "q").pop "default" → x.1 ≠ "weights" :=
      fun x hx => hw _ (List.mem_filter.1 (List.mem_filter.1 hx).1).1
    have h2 : ∀ d x, x ∈ (((fs.pop "q").pop "default").pop "default_value") ++ [("default_value", d)] → x.1 ≠ "weights" := by
      intro d x hx
      rcases List.mem_append.1 hx with hx | hx
      · exact h0 x (List.mem_filter.1 hx).1
      · rw [List.mem_singleton.1 hx]
        exact (by decide : ("default_value" : String) ≠ "weights")
    unfold compat at h1
    dsimp only at h1
    split at h1
    · exact h0 _ h1
    · exact h0 _ h1
    · exact h2 _ _ h1
  unfold decHPFields at hd
  simp only [show ("categorical" : String) ≠ "uniform_float" by decide, show ("categorical" : String) ≠ "uniform_int" by decide,
    if_false, if_true, hno] at hd
  split at hd
  · exact absurd hd (by simp)
  · simp only [bind, Except.bind, asWeights] at hd
    repeat' split at hd
    all_goals first | (cases hd; rfl) | cases hd

/-- The item of an older file: a choice that is never taken, and one that always is. -/
def ExOf.item : Fields := [("name", .str "c"), ("choices", .arr [.val (.str "x"), .val (.str "y")])]

example : ∃ h, decHPFields "categorical" (ExOf.item ++ [("probabilities", .arr [.val (.int 0), .val (.int 1)])]) = .ok (h, none) ∧
    h.kind = .cat [.str "x", .str "y"] := by
  rw [C60_old_probabilities_ignored]
  exact ⟨_, rfl, rfl⟩

/-- **C60.** That what an older file says is kept is false of the code for step widths: a range of integers with a step
width, which admitted only the multiples of the step, is read as the range with all integers in between. -/
theorem C60_old_steps_lost : ∃ (fs : Fields) (h : HP) (v : Int), fs.lookup "q" = some (.val (.int 5)) ∧
    decHPFields "uniform_int" fs = .ok (h, none) ∧ h.kind = .int 0 10 ∧ h.kind.legalValue (.int v) = true ∧
    ¬ Spec.OnSteps 0 10 5 v :=
  ⟨[("name", .str "i"), ("lower", .val (.int 0)), ("upper", .val (.int 10)), ("q", .val (.int 5))], ⟨"i", .int 0 10, .int 5⟩, 3, rfl,
    by decide +kernel, rfl, by decide +kernel, fun ⟨_, _, k, hk⟩ => by omega⟩

/-- **C60.** A file with both keys: the older one decides, unless it is null. -/
theorem C60_both_defaults (t : String) (fs : Fields) (d e : Json) (hd : ∀ kv ∈ fs, kv.1 ≠ "default" ∧ kv.1 ≠ "default_value")
    (hnull : d ≠ .null) :
    decHPFields t (fs ++ [("default_value", e), ("default", d)]) = decHPFields t (fs ++ [("default_value", d)]) ∧
    decHPFields t (fs ++ [("default_value", e), ("default", .null)]) = decHPFields t (fs ++ [("default_value", e)]) := by
  have a1 : ∀ kv ∈ fs.pop "q", kv.1 ≠ "default" := fun kv hkv => (hd kv (List.mem_filter.1 hkv).1).1
  have a2 : ∀ kv ∈ fs.pop "q", kv.1 ≠ "default_value" := fun kv hkv => (hd kv (List.mem_filter.1 hkv).1).2
  have q : ∀ x : Json, compat (fs ++ [("default_value", e), ("default", x)]) =
      match x with
      | .null => fs.pop "q" ++ [("default_value", e)]
      | x => fs.pop "q" ++ [("default_value", x)] := by
    intro x
    have p1 : Fields.pop [("default_value", e), ("default", x)] "q" = [("default_value", e), ("default", x)] := by
      simp [Fields.pop]
    have p2 : Fields.pop [("default_value", e), ("default", x)] "default" = [("default_value", e)] := by simp [Fields.pop]
    have p3 : Fields.pop [("default_value", e)] "default_value" = [] := by simp [Fields.pop]
    have l1 : List.lookup "default" [("default_value", e), ("default", x)] = some x := by simp [List.lookup]
    unfold compat
    simp only [pop_append, p1, p2, p3, pop_absent a1, pop_absent a2, List.append_nil, List.lookup_append,
      lookup_absent a1, Option.none_or, l1]
    cases x <;> rfl
  have r : ∀ x : Json, compat (fs ++ [("default_value", x)]) = fs.pop "q" ++ [("default_value", x)] := by
    intro x
    have p2 : Fields.pop [("default_value", x)] "q" = [("default_value", x)] := by simp [Fields.pop]
    have p4 : Fields.pop [("default_value", x)] "default" = [("default_value", x)] := by simp [Fields.pop]
    have l2 : List.lookup "default" [("default_value", x)] = none := rfl
    unfold compat
    simp only [pop_append, p2, p4, pop_absent a1, List.lookup_append, lookup_absent a1, Option.none_or, l2]
  refine ⟨?_, ?_⟩
  · unfold decHPFields
    rw [q, r]
    cases d <;> first | exact absurd rfl hnull | rfl
  · unfold decHPFields
    rw [q, r]

example := C60_both_defaults "uniform_int" [("name", .str "i"), ("lower", .val (.int 1)), ("upper", .val (.int 10))]
  (.val (.int 4)) (.val (.int 7)) (by simp) (by simp)

end Verif
