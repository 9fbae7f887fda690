import Verif.Model.Neighbors
import Verif.Lemmas.Numeric
import Verif.Lemmas.Value

/-!
# Facts about neighbourhoods
-/

set_option autoImplicit false
set_option linter.unusedSectionVars false

namespace Verif.Num

/-- All positions are the pivot and the others. -/
theorem others_perm {size p : Nat} (h : p < size) : (p :: others size p).Perm (List.range size) := by
  unfold others
  have e : List.range size = (List.range size).take p ++ p :: (List.range size).drop (p + 1) := by
    conv_lhs => rw [← List.take_append_drop p (List.range size)]
    congr 1
    rw [List.drop_eq_getElem_cons (by simpa using h)]
    simp
  conv_rhs => rw [e]
  exact List.perm_middle.symm

theorem others_nodup {size p : Nat} (h : p < size) : (others size p).Nodup := by
  have := (others_perm h).nodup_iff.2 List.nodup_range
  exact (List.nodup_cons.1 this).2

theorem mem_others {size p j : Nat} (h : p < size) : j ∈ others size p ↔ j < size ∧ j ≠ p := by
  have hn := (others_perm h).nodup_iff.2 List.nodup_range
  have hm : j ∈ p :: others size p ↔ j < size := by rw [(others_perm h).mem_iff, List.mem_range]
  rw [List.mem_cons] at hm
  constructor
  · intro hj
    refine ⟨hm.1 (.inr hj), ?_⟩
    rintro rfl
    exact (List.nodup_cons.1 hn).1 hj
  · rintro ⟨h1, h2⟩
    exact (hm.2 h1).resolve_left h2

theorem others_length {size p : Nat} (h : p < size) : (others size p).length = size - 1 := by
  have := (others_perm h).length_eq
  simp only [List.length_cons, List.length_range] at this
  omega

section
variable {K : Type} [Field K] [LinearOrder K]

theorem mem_unique {xs : List K} {y : K} : y ∈ unique xs ↔ y ∈ xs := by
  unfold unique
  rw [List.mem_dedup, (List.perm_insertionSort _ xs).mem_iff]

theorem unique_nodup (xs : List K) : (unique xs).Nodup := List.nodup_dedup _

/-- What the rejection sampling returns: `n` distinct values of the quantiser on the interval, none of them the centre. -/
theorem neighborLoop_spec {quant : K → K} {lower upper : K} {n : Nat} {q : K} {P : K → Prop}
    (hP : ∀ c, lower ≤ c → c ≤ upper → P (quant c)) : ∀ (draws : List (List K)) (found r : List K),
    found.Nodup → (∀ y ∈ found, P y ∧ y ≠ q) → neighborLoop quant lower upper n q draws found = some r →
    r.length = n ∧ r.Nodup ∧ ∀ y ∈ r, P y ∧ y ≠ q
  | [], _, _, _, _, h => by cases h
  | batch :: rest, found, r, hn, hf, h => by
    rw [neighborLoop] at h
    generalize hnew : (unique ((batch.filter (fun c => decide (lower ≤ c) && decide (c ≤ upper))).map quant)).filter
      (fun c => decide (c ∉ q :: found)) = new at h
    have hmem : ∀ y ∈ new, P y ∧ y ≠ q ∧ y ∉ found := by
      intro y hy
      rw [← hnew, List.mem_filter, mem_unique, List.mem_map] at hy
      obtain ⟨⟨c, hc, rfl⟩, h2⟩ := hy
      rw [List.mem_filter] at hc
      simp only [Bool.and_eq_true, decide_eq_true_eq] at hc
      simp only [decide_eq_true_eq, List.mem_cons, not_or] at h2
      exact ⟨hP c hc.2.1 hc.2.2, h2.1, h2.2⟩
    have hnewn : new.Nodup := by rw [← hnew]; exact (unique_nodup _).filter _
    have hn' : (found ++ new).Nodup := by
      rw [List.nodup_append']
      exact ⟨hn, hnewn, fun y hy hy' => (hmem y hy').2.2 hy⟩
    have hf' : ∀ y ∈ found ++ new, P y ∧ y ≠ q := by
      intro y hy
      rcases List.mem_append.1 hy with hy | hy
      · exact hf y hy
      · exact ⟨(hmem y hy).1, (hmem y hy).2.1⟩
    split at h
    · rename_i hle
      cases h
      refine ⟨?_, hn'.sublist (List.take_sublist _ _), fun y hy => hf' y (List.mem_of_mem_take hy)⟩
      rw [List.length_take]; omega
    · exact neighborLoop_spec hP rest _ r hn' hf' h

theorem continuousLoop_spec {lower upper : K} {n : Nat} : ∀ (draws : List (List K)) (found r : List K),
    (∀ y ∈ found, lower ≤ y ∧ y ≤ upper) → continuousLoop lower upper n draws found = some r →
    r.length = n ∧ ∀ y ∈ r, lower ≤ y ∧ y ≤ upper
  | [], _, _, _, h => by cases h
  | batch :: rest, found, r, hf, h => by
    rw [continuousLoop] at h
    have hf' : ∀ y ∈ found ++ batch.filter (fun c => decide (lower ≤ c) && decide (c ≤ upper)), lower ≤ y ∧ y ≤ upper := by
      intro y hy
      rcases List.mem_append.1 hy with hy | hy
      · exact hf y hy
      · rw [List.mem_filter] at hy
        simpa using hy.2
    split at h
    · rename_i hle
      cases h
      refine ⟨?_, fun y hy => hf' y (List.mem_of_mem_take hy)⟩
      rw [List.length_take]; omega
    · exact continuousLoop_spec rest _ r hf' h

end

end Verif.Num
