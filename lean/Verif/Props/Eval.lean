import Verif.Model.Forb
import Verif.Examples

/-!
# C11, C12: evaluation of a matrix column by column
-/

set_option autoImplicit false

namespace Verif

namespace Spec
/-- Column `j` of a matrix given as a list of rows. -/
def column (m : Mat) (j : Nat) : Vec := m.map (fun row => row.getD j none)

/-- All rows have `w` entries. -/
def Rect (m : Mat) (w : Nat) : Prop := ∀ row ∈ m, row.length = w
end Spec
open Verif.Spec

theorem zipWith_map_same {α β γ δ : Type} (f : β → γ → δ) (a : α → β) (b : α → γ) (l : List α) :
    List.zipWith f (l.map a) (l.map b) = l.map (fun x => f (a x) (b x)) := by
  induction l with
  | nil => rfl
  | cons x xs ih => simp [ih]

/-- A row of a rectangular matrix, entry by entry. -/
theorem row_eq {m : Mat} {w i : Nat} (hr : Rect m w) (hi : i < m.length) :
    m.row i = (List.range w).map (fun j => (column m j).at i) := by
  have hrow : m.row i = m[i] := by simp [Mat.row, hi]
  have hlen : (m.row i).length = w := by rw [hrow]; exact hr _ (List.getElem_mem hi)
  apply List.ext_getElem
  · simp [hlen]
  · intro j h1 h2
    have hj : j < w := by simpa using h2
    have hj' : j < (m[i]).length := by rw [← hrow, hlen]; exact hj
    simp [Vec.at, column, hi, hrow, hj']

mutual
theorem satArr_col {idx : Name → Nat} {m : Mat} {w : Nat} (hr : Rect m w) : ∀ (c : Cond),
    (∀ p ∈ c.parents, idx p < m.length) →
    c.satArr idx w m = (List.range w).map (fun j => c.satVec idx (column m j))
  | .lit l, h => by
    have hl : idx l.parent.name < m.length := h _ (by simp [Cond.parents, Cond.dlcs])
    simp only [Cond.satArr, Cond.satVec]
    rw [row_eq hr hl, List.map_map]
    rfl
  | .and cs, h => by
    simp only [Cond.satArr, Cond.satVec]
    have h0 : List.replicate w true = (List.range w).map (fun _ => true) := by
      simp [List.map_const']
    rw [h0, satArrAll_col hr cs (fun _ => true)
      (fun c hc p hp => h p (by
        simp only [Cond.parents, Cond.dlcs, List.mem_map] at hp ⊢
        obtain ⟨l, hl, e⟩ := hp
        exact ⟨l, dlcs_sub hc hl, e⟩))]
    simp
  | .or cs, h => by
    simp only [Cond.satArr, Cond.satVec]
    have h0 : List.replicate w false = (List.range w).map (fun _ => false) := by
      simp [List.map_const']
    rw [h0, satArrAny_col hr cs (fun _ => false)
      (fun c hc p hp => h p (by
        simp only [Cond.parents, Cond.dlcs, List.mem_map] at hp ⊢
        obtain ⟨l, hl, e⟩ := hp
        exact ⟨l, dlcs_sub hc hl, e⟩))]
    simp
theorem satArrAll_col {idx : Name → Nat} {m : Mat} {w : Nat} (hr : Rect m w) : ∀ (cs : List Cond)
    (a : Nat → Bool), (∀ c ∈ cs, ∀ p ∈ c.parents, idx p < m.length) →
    Cond.satArrAll idx w m ((List.range w).map a) cs
      = (List.range w).map (fun j => a j && Cond.satVecAll idx (column m j) cs)
  | [], a, _ => by simp [Cond.satArrAll, Cond.satVecAll]
  | c :: cs, a, h => by
    simp only [Cond.satArrAll, Cond.satVecAll]
    rw [satArr_col hr c (h c (by simp)), zipWith_map_same,
      satArrAll_col hr cs _ (fun d hd => h d (by simp [hd]))]
    simp [Bool.and_assoc]
theorem satArrAny_col {idx : Name → Nat} {m : Mat} {w : Nat} (hr : Rect m w) : ∀ (cs : List Cond)
    (a : Nat → Bool), (∀ c ∈ cs, ∀ p ∈ c.parents, idx p < m.length) →
    Cond.satArrAny idx w m ((List.range w).map a) cs
      = (List.range w).map (fun j => a j || Cond.satVecAny idx (column m j) cs)
  | [], a, _ => by simp [Cond.satArrAny, Cond.satVecAny]
  | c :: cs, a, h => by
    simp only [Cond.satArrAny, Cond.satVecAny]
    rw [satArr_col hr c (h c (by simp)), zipWith_map_same,
      satArrAny_col hr cs _ (fun d hd => h d (by simp [hd]))]
    simp [Bool.or_assoc]
theorem dlcs_sub : ∀ {cs : List Cond} {c : Cond}, c ∈ cs → ∀ {l : Lit}, l ∈ c.dlcs →
    l ∈ Cond.dlcsL cs
  | [], _, h, _, _ => by simp at h
  | c' :: cs, c, h, l, hl => by
    rw [Cond.dlcsL, List.mem_append]
    rcases List.mem_cons.1 h with rfl | h
    · exact .inl hl
    · exact .inr (dlcs_sub h hl)
end

/-- **C11.** The vectorised evaluation of a condition gives, in position `j`, the evaluation on column
`j`; `idx` is any assignment of row indices that are inside the matrix for the parents. -/
theorem C11_condition_array_eq_single (c : Cond) (idx : Name → Nat) (m : Mat) (w : Nat)
    (hr : Rect m w) (hidx : ∀ p ∈ c.parents, idx p < m.length) :
    (c.satArr idx w m).length = w ∧
    ∀ j < w, (c.satArr idx w m)[j]? = some (c.satVec idx (column m j)) := by
  rw [satArr_col hr c hidx]
  refine ⟨by simp, ?_⟩
  intro j hj
  simp [hj]

/-- Two columns, the second one with an inactive `k`. -/
example : (Ex.condX.satArr Ex.sp1.idx 2 [[some 0, some 0], [some 1, some 1], [some (2/9), none],
    [some 1, some 1], [some (1/2), none]]) = [true, false] := by decide +kernel

mutual
theorem onArr_col {idx : Name → Nat} {m : Mat} {w : Nat} (hr : Rect m w) : ∀ (f : Forb),
    (∀ p ∈ f.names, idx p < m.length) →
    f.onArr idx w m = (List.range w).map (fun j => f.onVec idx (column m j))
  | .eq h v x, hn => by
    have hl : idx h.name < m.length := hn _ (by simp [Forb.names])
    simp only [Forb.onArr, Forb.onVec]
    rw [row_eq hr hl, List.map_map]
    rfl
  | .isIn h vs xs, hn => by
    have hl : idx h.name < m.length := hn _ (by simp [Forb.names])
    simp only [Forb.onArr, Forb.onVec]
    rw [row_eq hr hl, List.map_map]
    rfl
  | .rel op l r, hn => by
    have h1 : idx l.name < m.length := hn _ (by simp [Forb.names])
    have h2 : idx r.name < m.length := hn _ (by simp [Forb.names])
    simp only [Forb.onArr, Forb.onVec]
    rw [row_eq hr h1, row_eq hr h2, zipWith_map_same]
  | .and cs, hn => by
    simp only [Forb.onArr, Forb.onVec]
    have h0 : List.replicate w true = (List.range w).map (fun _ => true) := by
      simp [List.map_const']
    rw [h0, onArrAll_col hr cs (fun _ => true) (by simpa [Forb.names] using hn)]
    simp
theorem onArrAll_col {idx : Name → Nat} {m : Mat} {w : Nat} (hr : Rect m w) : ∀ (cs : List Forb)
    (a : Nat → Bool), (∀ p ∈ Forb.namesL cs, idx p < m.length) →
    Forb.onArrAll idx w m ((List.range w).map a) cs
      = (List.range w).map (fun j => a j && Forb.onVecAll idx (column m j) cs)
  | [], a, _ => by simp [Forb.onArrAll, Forb.onVecAll]
  | c :: cs, a, h => by
    simp only [Forb.onArrAll, Forb.onVecAll]
    rw [onArr_col hr c (fun p hp => h p (by simp [Forb.namesL, hp])), zipWith_map_same,
      onArrAll_col hr cs _ (fun p hp => h p (by simp [Forb.namesL, hp]))]
    simp [Bool.and_assoc]
end

/-- **C12.** The vectorised evaluation of a forbidden clause gives, in position `j`, the evaluation on
column `j`. -/
theorem C12_forbidden_array_eq_single (f : Forb) (idx : Name → Nat) (m : Mat) (w : Nat)
    (hr : Rect m w) (hidx : ∀ p ∈ f.names, idx p < m.length) :
    (f.onArr idx w m).length = w ∧
    ∀ j < w, (f.onArr idx w m)[j]? = some (f.onVec idx (column m j)) := by
  rw [onArr_col hr f hidx]
  refine ⟨by simp, ?_⟩
  intro j hj
  simp [hj]

example : (Ex.forb1.onArr Ex.sp1.idx 3 [[some 0, some 1, some 1], [some 1, some 1, some 1],
    [none, none, none], [some 2, some 2, none], [none, none, none]]) = [false, true, false] := by
  decide +kernel

/-- The theorems applied to these columns. -/
example := C11_condition_array_eq_single Ex.condX Ex.sp1.idx [[some 0, some 0], [some 1, some 1], [some (2/9), none],
  [some 1, some 1], [some (1/2), none]] 2 (by unfold Rect; decide) (by decide +kernel)
example := C12_forbidden_array_eq_single Ex.forb1 Ex.sp1.idx [[some 0, some 1, some 1], [some 1, some 1, some 1],
  [none, none, none], [some 2, some 2, none], [none, none, none]] 3 (by unfold Rect; decide) (by decide +kernel)

end Verif
