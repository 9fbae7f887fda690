import Verif.Model.Size
import Verif.Spec.Count
import Verif.Lemmas.Rebuild
import Verif.Lemmas.GridCheck
import Verif.Props.Graph
import Mathlib.Data.List.Nodup
import Mathlib.Data.List.Perm.Subperm

/-!
# Counting vectors
-/

set_option autoImplicit false

namespace Verif
open Verif.Spec

variable {calls : List Call} {s : Space}

/-- All choices of one entry of each list. -/
def prods : List (List Rat) → List (List Rat)
  | [] => [[]]
  | p :: ps => p.flatMap (fun q => (prods ps).map (q :: ·))

theorem mem_prods : ∀ {ps : List (List Rat)} {v : List Rat}, v ∈ prods ps ↔ List.Forall₂ (fun q p => q ∈ p) v ps
  | [], v => by
    simp only [prods, List.mem_singleton]
    constructor
    · rintro rfl; exact .nil
    · intro h; cases h; rfl
  | p :: ps, v => by
    simp only [prods, List.mem_flatMap, List.mem_map]
    constructor
    · rintro ⟨q, hq, v', hv', rfl⟩
      exact .cons hq (mem_prods.1 hv')
    · intro h
      cases h with
      | cons hq hv' => exact ⟨_, hq, _, mem_prods.2 hv', rfl⟩

theorem length_prods : ∀ ps : List (List Rat), (prods ps).length = (ps.map List.length).prod
  | [] => rfl
  | p :: ps => by
    rw [prods, List.length_flatMap]
    simp only [List.length_map, List.map_cons, List.prod_cons, ← length_prods ps]
    induction p with
    | nil => simp
    | cons q p ih => simp [ih, Nat.add_mul, Nat.add_comm]

theorem nodup_prods : ∀ {ps : List (List Rat)}, (∀ p ∈ ps, p.Nodup) → (prods ps).Nodup
  | [], _ => by simp [prods]
  | p :: ps, h => by
    have ih := nodup_prods (ps := ps) fun x hx => h x (by simp [hx])
    have hp := h p (by simp)
    rw [prods, List.nodup_flatMap]
    refine ⟨fun q _ => ih.map fun a b e => by cases e; rfl, ?_⟩
    refine hp.imp ?_
    intro a b hne v hv hv'
    simp only [List.mem_map] at hv hv'
    obtain ⟨x, _, rfl⟩ := hv
    obtain ⟨y, _, e⟩ := hv'
    cases e
    exact hne rfl

/-- The entries of a kind; for floats, `N` of them. -/
def entries (N : Nat) : Kind → List Rat
  | .cat cs => (List.range cs.length).map (fun i : Nat => (i : Rat))
  | .ord cs => (List.range cs.length).map (fun i : Nat => (i : Rat))
  | .const _ => [1]
  | .int l u => (List.range (u - l + 1).toNat).map (fun i : Nat => normalizeQ ((l + i : Int) : Rat) l u)
  | .flt _ _ => (List.range N).map (fun i : Nat => (i : Rat) / (N : Rat))

theorem length_entries (N : Nat) {k : Kind} {n : Nat} (h : k.size = some n) : (entries N k).length = n := by
  cases k <;> simp only [Kind.size, Option.some.injEq] at h <;> simp [entries, h] <;> try exact h
  cases h

theorem wf_int_lt {h : HP} (hw : h.wf = true) {l u : Int} (hk : h.kind = .int l u) : l < u := by
  unfold HP.wf at hw
  rw [hk] at hw
  simp only [Bool.and_eq_true, decide_eq_true_eq] at hw
  exact hw.1.1

theorem wf_flt_lt {h : HP} (hw : h.wf = true) {l u : Rat} (hk : h.kind = .flt l u) : l < u := by
  unfold HP.wf at hw
  rw [hk] at hw
  simp only [Bool.and_eq_true, decide_eq_true_eq] at hw
  exact hw.1.1.1

theorem nodup_entries {h : HP} (hw : h.wf = true) (N : Nat) : (entries N h.kind).Nodup := by
  cases hk : h.kind with
  | cat cs => exact List.nodup_range.map fun a b e => by simpa using e
  | ord cs => exact List.nodup_range.map fun a b e => by simpa using e
  | const v => simp [entries]
  | int l u =>
    have hlt : (l : Rat) < u := by exact_mod_cast wf_int_lt hw hk
    refine List.nodup_range.map fun a b e => ?_
    have := (normalize_inj hlt).1 e
    have : l + (a : Int) = l + b := by exact_mod_cast this
    omega
  | flt l u =>
    by_cases hN : N = 0
    · subst hN; simp [entries]
    · refine List.nodup_range.map fun a b e => ?_
      have hN' : (N : Rat) ≠ 0 := by exact_mod_cast hN
      have : (a : Rat) = b := by
        have e : (a : Rat) / N = b / N := e
        field_simp at e
        exact e
      exact_mod_cast this

theorem entryOf_seq {h : HP} (hw : h.wf = true) {cs : List Val} (hk : h.kind = .cat cs ∨ h.kind = .ord cs) {q : Rat} :
    q ∈ (List.range cs.length).map (fun i : Nat => (i : Rat)) ↔ EntryOf h q := by
  have hd := (HP.wf_distinct hw hk).2
  have hv : ∀ w, h.kind.legalValue w = w.pyIn cs := by rcases hk with hk | hk <;> intro w <;> rw [hk] <;> rfl
  have ht : ∀ w, h.kind.toVec w = (seqIndex cs w).map (fun i : Nat => (i : Rat)) := by
    rcases hk with hk | hk <;> intro w <;> rw [hk] <;> rfl
  have he : ∀ w, ExactInt h.kind w := by
    rcases hk with hk | hk <;> intro w l u e <;> rw [hk] at e <;> cases e
  simp only [List.mem_map, List.mem_range]
  constructor
  · rintro ⟨i, hi, rfl⟩
    have hg : cs[i]? = some cs[i] := List.getElem?_eq_getElem hi
    refine ⟨cs[i], ?_, he _, ?_⟩
    · rw [hv, Val.pyIn, List.any_eq_true]
      exact ⟨cs[i], List.getElem_mem hi, by simp [Val.pyEq_refl]⟩
    · rw [ht, seqIndex_getElem hd hg]; rfl
  · rintro ⟨w, _, _, h3⟩
    rw [ht] at h3
    cases hs : seqIndex cs w with
    | none => rw [hs] at h3; cases h3
    | some i =>
      rw [hs] at h3
      obtain ⟨x, hx, _⟩ := seqIndex_some hs
      exact ⟨i, (List.getElem?_eq_some_iff.1 hx).1, by simpa using h3⟩

/-- The entries of a finite kind are those of its values. -/
theorem mem_entries {h : HP} (hw : h.wf = true) (N : Nat) {n : Nat} (hn : h.kind.size = some n) {q : Rat} :
    q ∈ entries N h.kind ↔ EntryOf h q := by
  cases hk : h.kind with
  | cat cs => exact entryOf_seq hw (.inl hk)
  | ord cs => exact entryOf_seq hw (.inr hk)
  | const v =>
    simp only [entries, List.mem_singleton, EntryOf, hk]
    constructor
    · rintro rfl
      exact ⟨v, Val.pyEq_refl v, fun l u e => (by cases e), by simp [Kind.toVec, Val.pyEq_refl]⟩
    · rintro ⟨w, h1, _, h3⟩
      have h1 : w.pyEq v = true := h1
      simpa [Kind.toVec, h1] using h3.symm
  | int l u =>
    simp only [entries, List.mem_map, List.mem_range, EntryOf, hk]
    constructor
    · rintro ⟨i, hi, rfl⟩
      refine ⟨.int (l + i), ?_, ?_, rfl⟩
      · simp only [Kind.legalValue, Val.num?, rint_int, closeToInt_int, Bool.and_true, Bool.and_eq_true, decide_eq_true_eq]
        omega
      · intro _ _ _
        exact ⟨l + i, rfl⟩
    · rintro ⟨w, h1, h2, h3⟩
      obtain ⟨m, hm⟩ := h2 l u rfl
      simp only [Kind.legalValue, hm, rint_int, Bool.and_eq_true, decide_eq_true_eq] at h1
      simp only [Kind.toVec, hm, Option.map_some, Option.some.injEq] at h3
      refine ⟨(m - l).toNat, by omega, ?_⟩
      rw [← h3]
      congr 1
      have : l + ((m - l).toNat : Int) = m := by omega
      rw [this]
  | flt l u => rw [hk] at hn; cases hn

theorem entries_entryOf {h : HP} (hw : h.wf = true) {N : Nat} {q : Rat} (hq : q ∈ entries N h.kind) : EntryOf h q := by
  cases hs : h.kind.size with
  | some n => exact (mem_entries hw N hs).1 hq
  | none =>
    cases hk : h.kind with
    | flt l u =>
      have hlt := wf_flt_lt hw hk
      rw [hk] at hq
      simp only [entries, List.mem_map, List.mem_range] at hq
      obtain ⟨i, hi, rfl⟩ := hq
      have hN : (0 : Rat) < N := by exact_mod_cast (show 0 < N by omega)
      have h0 : (0 : Rat) ≤ (i : Rat) / N := by positivity
      have h1 : (i : Rat) / N ≤ 1 := by
        rw [div_le_one hN]
        exact_mod_cast hi.le
      refine ⟨.flt (scaleQ ((i : Rat) / N) l u), ?_, ?_, ?_⟩
      · rw [hk]
        simp only [Kind.legalValue, Val.num?, Bool.and_eq_true, decide_eq_true_eq, scaleQ]
        constructor <;> nlinarith
      · intro _ _ e
        rw [hk] at e
        cases e
      · rw [hk]
        simp only [Kind.toVec, Val.num?, Option.map_some, normalize_scale hlt]
    | _ => rw [hk] at hs; cases hs

theorem entryOf_legal {h : HP} (hw : h.wf = true) {q : Rat} (hq : EntryOf h q) : h.kind.legalVec q = true := by
  obtain ⟨w, h1, h2, h3⟩ := hq
  exact toVec_legal hw h1 h3 h2

theorem foldl_none : ∀ l : List (Option Nat), l.foldl timesSize none = none
  | [] => rfl
  | x :: l => by simpa [timesSize] using foldl_none l

theorem foldl_size : ∀ (l : List (Option Nat)) (a : Nat), l.foldl timesSize (some a) =
    (if none ∈ l then none else some (a * (l.map (fun x => x.getD 0)).prod))
  | [], a => by simp
  | none :: l, a => by simp [timesSize, foldl_none]
  | some x :: l, a => by
    rw [List.foldl_cons]
    simp only [timesSize]
    rw [foldl_size l]
    simp [Nat.mul_assoc]

theorem size_pos {h : HP} (hw : h.wf = true) {n : Nat} (hn : h.kind.size = some n) : 0 < n := by
  cases hk : h.kind with
  | cat cs =>
    rw [hk] at hn; cases hn
    exact List.length_pos_iff.2 (HP.wf_distinct hw (.inl hk)).1
  | ord cs =>
    rw [hk] at hn; cases hn
    exact List.length_pos_iff.2 (HP.wf_distinct hw (.inr hk)).1
  | const v => rw [hk] at hn; cases hn; decide
  | int l u =>
    have := wf_int_lt hw hk
    rw [hk] at hn; cases hn
    omega
  | flt l u => rw [hk] at hn; cases hn

end Verif
