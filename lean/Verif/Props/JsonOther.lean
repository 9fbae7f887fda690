import Verif.Props.JsonText

/-!
# C123: values that cannot be written
-/

set_option autoImplicit false

namespace Verif.JText
open Verif Spec

variable {T : PyText}

mutual
/-- The dictionary with `null` in the place of what cannot be written. -/
def fill : Data → Json
  | .null => .null
  | .bool b => .bool b
  | .val v => .val v
  | .other => .null
  | .arr ds => .arr (fillL ds)
  | .obj fs => .obj (fillF fs)
def fillL : List Data → List Json
  | [] => []
  | d :: ds => fill d :: fillL ds
def fillF : List (String × Data) → List (String × Json)
  | [] => []
  | (k, d) :: fs => (k, fill d) :: fillF fs
end

/-- All of a text, or a proper beginning of it. -/
def Part (o : Chars × Bool) (x : Chars) : Prop := (o.2 = true ∧ o.1 = x) ∨ (o.2 = false ∧ o.1 <+: x ∧ o.1 ≠ x)

theorem strict_append {a b : Chars} (x : Chars) (h : a <+: b) (hne : a ≠ b) : a <+: b ++ x ∧ a ≠ b ++ x := by
  refine ⟨h.trans (List.prefix_append _ _), ?_⟩
  intro e
  have h1 := h.length_le
  have h2 := congrArg List.length e
  rw [List.length_append] at h2
  exact hne (h.eq_of_length (by omega))

theorem strict_pre {a b : Chars} (x : Chars) (h : a <+: b ∧ a ≠ b) : x ++ a <+: x ++ b ∧ x ++ a ≠ x ++ b :=
  ⟨(List.prefix_append_right_inj x).2 h.1, fun e => h.2 (List.append_cancel_left e)⟩

/-- Something in front, a value, and something behind. -/
theorem part_seq {o : Chars × Bool} {x y : Chars} {r : Chars × Bool} (pre : Chars) (ho : Part o x) (hr : Part r y) :
    Part (around pre o r) (pre ++ (x ++ y)) := by
  unfold around
  rcases ho with ⟨h1, h2⟩ | ⟨h1, h2, h3⟩
  · rw [if_pos h1, h2]
    rcases hr with ⟨g1, g2⟩ | ⟨g1, g2, g3⟩
    · exact .inl ⟨g1, by rw [g2]⟩
    · refine .inr ⟨g1, ?_⟩
      dsimp only
      rw [← List.append_assoc, ← List.append_assoc]
      exact strict_pre _ ⟨g2, g3⟩
  · rw [if_neg (by rw [h1]; simp)]
    exact .inr ⟨rfl, strict_pre pre (strict_append y h2 h3)⟩

mutual
theorem dump_part (T : PyText) : ∀ d : Data, Part (dump T d) (text T (fill d))
  | .null => by rw [dump, fill, text]; exact .inl ⟨rfl, rfl⟩
  | .bool true => by rw [dump, fill, text]; exact .inl ⟨rfl, rfl⟩
  | .bool false => by rw [dump, fill, text]; exact .inl ⟨rfl, rfl⟩
  | .val v => by rw [dump, fill, text]; exact .inl ⟨rfl, rfl⟩
  | .other => by rw [dump, fill, text]; exact .inr ⟨rfl, List.nil_prefix, by decide⟩
  | .arr [] => by rw [dump, fill, fillL, text]; exact .inl ⟨rfl, rfl⟩
  | .arr (d :: ds) => by
    rw [dump, fill, fillL, text]
    exact part_seq ['['] (dump_part T d) (dumpL_part T ds)
  | .obj [] => by rw [dump, fill, fillF, text]; exact .inl ⟨rfl, rfl⟩
  | .obj ((k, d) :: fs) => by
    rw [dump, fill, fillF, text]
    have := part_seq ('{' :: (strText k ++ [':', ' '])) (dump_part T d) (dumpF_part T fs)
    simpa using this
theorem dumpL_part (T : PyText) : ∀ ds : List Data, Part (dumpL T ds) (textL T (fillL ds))
  | [] => by rw [dumpL, fillL, textL]; exact .inl ⟨rfl, rfl⟩
  | d :: ds => by
    rw [dumpL, fillL, textL]
    exact part_seq [',', ' '] (dump_part T d) (dumpL_part T ds)
theorem dumpF_part (T : PyText) : ∀ fs : List (String × Data), Part (dumpF T fs) (textF T (fillF fs))
  | [] => by rw [dumpF, fillF, textF]; exact .inl ⟨rfl, rfl⟩
  | (k, d) :: fs => by
    rw [dumpF, fillF, textF]
    have := part_seq (',' :: ' ' :: (strText k ++ [':', ' '])) (dump_part T d) (dumpF_part T fs)
    simpa using this
end

theorem flag_around (pre : Chars) (o r : Chars × Bool) : (around pre o r).2 = (o.2 && r.2) := by
  unfold around
  cases h : o.2 <;> simp

mutual
theorem dump_flag (T : PyText) : ∀ d : Data, (dump T d).2 = false ↔ HasOther d
  | .null => by rw [dump]; exact ⟨fun h => (by cases h), fun h => (by cases h)⟩
  | .bool true => by rw [dump]; exact ⟨fun h => (by cases h), fun h => (by cases h)⟩
  | .bool false => by rw [dump]; exact ⟨fun h => (by cases h), fun h => (by cases h)⟩
  | .val v => by rw [dump]; exact ⟨fun h => (by cases h), fun h => (by cases h)⟩
  | .other => by rw [dump]; exact ⟨fun _ => .here, fun _ => rfl⟩
  | .arr [] => by
    rw [dump]
    refine ⟨fun h => (by cases h), fun h => ?_⟩
    cases h with
    | arr hm _ => cases hm
  | .arr (d :: ds) => by
    rw [dump, flag_around, Bool.and_eq_false_iff, dump_flag T d, dumpL_flag T ds]
    constructor
    · rintro (h | ⟨e, he, h⟩)
      · exact .arr (List.mem_cons_self ..) h
      · exact .arr (List.mem_cons_of_mem _ he) h
    · intro h
      cases h with
      | arr hm h =>
        rcases List.mem_cons.1 hm with rfl | hm
        · exact .inl h
        · exact .inr ⟨_, hm, h⟩
  | .obj [] => by
    rw [dump]
    refine ⟨fun h => (by cases h), fun h => ?_⟩
    cases h with
    | obj hm _ => cases hm
  | .obj ((k, d) :: fs) => by
    rw [dump, flag_around, Bool.and_eq_false_iff, dump_flag T d, dumpF_flag T fs]
    constructor
    · rintro (h | ⟨e, he, h⟩)
      · exact .obj (p := (k, d)) (List.mem_cons_self ..) h
      · exact .obj (List.mem_cons_of_mem _ he) h
    · intro h
      cases h with
      | obj hm h =>
        rcases List.mem_cons.1 hm with rfl | hm
        · exact .inl h
        · exact .inr ⟨_, hm, h⟩
theorem dumpL_flag (T : PyText) : ∀ ds : List Data, (dumpL T ds).2 = false ↔ ∃ d ∈ ds, HasOther d
  | [] => by rw [dumpL]; simp
  | d :: ds => by
    rw [dumpL, flag_around, Bool.and_eq_false_iff, dump_flag T d, dumpL_flag T ds]
    simp
theorem dumpF_flag (T : PyText) : ∀ fs : List (String × Data), (dumpF T fs).2 = false ↔ ∃ p ∈ fs, HasOther p.2
  | [] => by rw [dumpF]; simp
  | (k, d) :: fs => by
    rw [dumpF, flag_around, Bool.and_eq_false_iff, dump_flag T d, dumpF_flag T fs]
    simp
end

theorem fillF_fst : ∀ fs : List (String × Data), (fillF fs).map Prod.fst = fs.map Prod.fst
  | [] => by rw [fillF]; rfl
  | (k, d) :: fs => by rw [fillF, List.map_cons, List.map_cons, fillF_fst fs]

mutual
theorem dk_fill : ∀ d : Data, DistinctNames d → DistinctKeys (fill d)
  | .null, _ => by rw [fill]; exact .null
  | .bool b, _ => by rw [fill]; exact .bool b
  | .val v, _ => by rw [fill]; exact .val v
  | .other, _ => by rw [fill]; exact .null
  | .arr ds, h => by
    rw [fill]
    cases h with
    | arr h => exact .arr (dk_fillL ds h)
  | .obj fs, h => by
    rw [fill]
    cases h with
    | obj hn h => exact .obj (by rw [fillF_fst]; exact hn) (dk_fillF fs h)
theorem dk_fillL : ∀ ds : List Data, (∀ d ∈ ds, DistinctNames d) → ∀ j ∈ fillL ds, DistinctKeys j
  | [], _ => by rw [fillL]; simp
  | d :: ds, h => by
    rw [fillL]
    intro j hj
    rcases List.mem_cons.1 hj with rfl | hj
    · exact dk_fill d (h d (by simp))
    · exact dk_fillL ds (fun e he => h e (by simp [he])) j hj
theorem dk_fillF : ∀ fs : List (String × Data), (∀ p ∈ fs, DistinctNames p.2) → ∀ p ∈ fillF fs, DistinctKeys p.2
  | [], _ => by rw [fillF]; simp
  | (k, d) :: fs, h => by
    rw [fillF]
    intro p hp
    rcases List.mem_cons.1 hp with rfl | hp
    · exact dk_fill d (h (k, d) (by simp))
    · exact dk_fillF fs (fun e he => h e (by simp [he])) p hp
end

/-- **C123** is false of the code for the old file when writing fails: if anything in the dictionary cannot be written - a choice that is
no number of Python and no text, or what an encoder of the user returned - then `to_json` raises `TypeError`, and exactly then; but
the file has been opened by then, and what is in it cannot be loaded, whatever was in it before. -/
theorem C123_failed_write_destroys (hT : FloatTexts T) {fs : List (String × Data)} (hd : DistinctNames (.obj fs)) :
    ((dump T (.obj fs)).2 = false ↔ HasOther (.obj fs)) ∧
      ((dump T (.obj fs)).2 = false → fromJson T (dump T (.obj fs)).1 = .jsonError) := by
  refine ⟨dump_flag T _, fun h => ?_⟩
  rcases dump_part T (.obj fs) with ⟨h1, _⟩ | ⟨_, h2, h3⟩
  · rw [h] at h1; cases h1
  · unfold fromJson
    rw [load_cut hT (dk_fill _ hd) (by rw [fill]; trivial) h2 h3]

/-- **C123.** If everything can be written, the file is complete and is read as the dictionary. -/
theorem C123_complete_write (hT : FloatTexts T) {d : Data} (hd : DistinctNames d) (h : ¬ HasOther d) :
    dump T d = (text T (fill d), true) ∧ load T (dump T d).1 = some (fill d) := by
  have hf : (dump T d).2 = true := by
    cases e : (dump T d).2 with
    | true => rfl
    | false => exact absurd ((dump_flag T d).1 e) h
  rcases dump_part T d with ⟨_, h2⟩ | ⟨h1, _⟩
  · refine ⟨Prod.ext h2 hf, ?_⟩
    rw [h2]
    exact load_text hT (dk_fill d hd)
  · rw [hf] at h1; cases h1

namespace ExJt

/-- One choice is an object that cannot be written. -/
def data : List (String × Data) := [("name", .null), ("choices", .arr [.val (.int 1), .other]), ("meta", .null)]

theorem data_distinct : DistinctNames (.obj data) := by
  refine .obj (by decide) ?_
  unfold data
  simp only [List.mem_cons, List.not_mem_nil, or_false, forall_eq_or_imp, forall_eq]
  refine ⟨.null, .arr ?_, .null⟩
  simp only [List.mem_cons, List.not_mem_nil, or_false, forall_eq_or_imp, forall_eq]
  exact ⟨.val _, .other⟩

theorem data_other : HasOther (.obj data) :=
  .obj (p := ("choices", .arr [.val (.int 1), .other])) (by simp [data]) (.arr (by simp) .here)

example : (dump textJ (.obj data)).1 = "{\"name\": null, \"choices\": [1, ".toList := by decide +kernel

example : fromJson textJ (dump textJ (.obj data)).1 = .jsonError :=
  (C123_failed_write_destroys floats data_distinct).2 ((C123_failed_write_destroys floats data_distinct).1.2 data_other)

end ExJt

end Verif.JText
