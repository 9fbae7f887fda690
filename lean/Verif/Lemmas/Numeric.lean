import Verif.Model.Numeric
import Mathlib.Tactic.Linarith
import Mathlib.Tactic.FieldSimp
import Mathlib.Tactic.Ring
import Mathlib.Tactic.Positivity
import Mathlib.Tactic.GCongr

/-!
# Facts about the numeric helpers
-/

set_option autoImplicit false
set_option linter.unusedSectionVars false

namespace Verif.Num

/-! ## Ranges -/

theorem ceilDiv_le {a b c : Int} (hb : 0 < b) : ceilDiv a b ≤ c ↔ a ≤ c * b := by
  unfold ceilDiv
  rw [neg_le, Int.le_ediv_iff_mul_le hb]
  constructor <;> intro h <;> linarith

theorem lt_ceilDiv {a b c : Int} (hb : 0 < b) : c < ceilDiv a b ↔ c * b < a := by
  rw [← not_le, ceilDiv_le hb, not_le]

theorem ceilDiv_one (a : Int) : ceilDiv a 1 = a := by simp [ceilDiv]

theorem mem_arange {a b s x : Int} (hs : 0 < s) :
    x ∈ arange a b s ↔ ∃ k : Nat, x = a + k * s ∧ x < b := by
  unfold arange
  simp only [List.mem_map, List.mem_range, Int.lt_toNat, lt_ceilDiv hs]
  constructor
  · rintro ⟨k, hk, rfl⟩; exact ⟨k, rfl, by linarith⟩
  · rintro ⟨k, rfl, h⟩; exact ⟨k, by linarith, rfl⟩

theorem mem_arangeDown {a b s x : Int} (hs : 0 < s) :
    x ∈ arangeDown a b s ↔ ∃ k : Nat, x = a - k * s ∧ b < x := by
  unfold arangeDown
  simp only [List.mem_map, List.mem_range, Int.lt_toNat, lt_ceilDiv hs]
  constructor
  · rintro ⟨k, hk, rfl⟩; exact ⟨k, rfl, by linarith⟩
  · rintro ⟨k, rfl, h⟩; exact ⟨k, by linarith, rfl⟩

theorem arange_strict {a b s : Int} (hs : 0 < s) : (arange a b s).Pairwise (· < ·) := by
  unfold arange
  rw [List.pairwise_map]
  refine List.Pairwise.imp ?_ List.pairwise_lt_range
  intro i j hij
  have : (i : Int) < j := by exact_mod_cast hij
  have := mul_lt_mul_of_pos_right this hs
  linarith

theorem arangeDown_strict {a b s : Int} (hs : 0 < s) : (arangeDown a b s).Pairwise (fun x y => y < x) := by
  unfold arangeDown
  rw [List.pairwise_map]
  refine List.Pairwise.imp ?_ List.pairwise_lt_range
  intro i j hij
  have : (i : Int) < j := by exact_mod_cast hij
  have := mul_lt_mul_of_pos_right this hs
  linarith

/-! ## Alternating two lists -/

theorem roundrobin_perm {α : Type} : ∀ (as bs : List α), (roundrobin as bs).Perm (as ++ bs)
  | [], bs => by simp [roundrobin]
  | a :: as, bs => by
    rw [roundrobin, List.cons_append]
    exact List.Perm.cons a ((roundrobin_perm bs as).trans List.perm_append_comm)
termination_by as bs => as.length + bs.length
decreasing_by simp only [List.length_cons]; omega

theorem roundrobin_map {α β : Type} (f : α → β) : ∀ (as bs : List α),
    (roundrobin as bs).map f = roundrobin (as.map f) (bs.map f)
  | [], bs => by simp [roundrobin]
  | a :: as, bs => by
    rw [roundrobin, List.map_cons, List.map_cons, roundrobin, roundrobin_map f bs as]
termination_by as bs => as.length + bs.length
decreasing_by simp only [List.length_cons]; omega

/-- Alternating `x, x+1, …` with `x, x+1, …` or `x+1, x+2, …` gives a sorted list. -/
theorem roundrobin_sorted : ∀ (m n x y : Nat), (y = x ∨ y = x + 1) →
    (roundrobin (List.range' x m) (List.range' y n)).Pairwise (· ≤ ·) ∧
      ∀ z ∈ roundrobin (List.range' x m) (List.range' y n), x ≤ z := by
  intro m n
  induction hk : m + n generalizing m n with
  | zero =>
    intro x y _
    have hm : m = 0 := by omega
    have hn : n = 0 := by omega
    subst hm hn
    simp [roundrobin]
  | succ k ih =>
    intro x y hxy
    cases m with
    | zero =>
      simp only [List.range'_zero, roundrobin]
      refine ⟨(List.pairwise_lt_range' (s := y) (n := n)).imp (fun h => Nat.le_of_lt h), ?_⟩
      intro z hz
      have := List.mem_range'_1.1 hz
      omega
    | succ m =>
      simp only [List.range'_succ, roundrobin]
      have hy : x + 1 = y ∨ x + 1 = y + 1 := by omega
      obtain ⟨h1, h2⟩ := ih n m (by omega) y (x + 1) hy
      have h3 : ∀ z ∈ roundrobin (List.range' y n) (List.range' (x + 1) m), x ≤ z := by
        intro z hz
        have := h2 z hz
        omega
      refine ⟨List.pairwise_cons.2 ⟨h3, h1⟩, ?_⟩
      intro z hz
      rcases List.mem_cons.1 hz with rfl | hz
      · exact Nat.le_refl _
      · exact h3 z hz

theorem key_mul (s : Int) (hs : 0 < s) (i : Nat) : (((i : Int) + 1) * s).natAbs / s.natAbs = 1 + i := by
  have h : 0 < s.natAbs := by omega
  rw [Int.natAbs_mul, Nat.mul_div_cancel _ h]
  omega

theorem map_key_down (c s : Int) (hs : 0 < s) (m : Nat) :
    ((List.range m).map (fun i : Nat => c - s - i * s)).map (fun x => (x - c).natAbs / s.natAbs) =
      List.range' 1 m := by
  rw [List.map_map, List.range'_eq_map_range]
  refine List.map_congr_left fun i _ => ?_
  simp only [Function.comp]
  rw [show c - s - i * s - c = -(((i : Int) + 1) * s) by ring, Int.natAbs_neg, key_mul s hs]

theorem map_key_up (c s : Int) (hs : 0 < s) (m : Nat) :
    ((List.range m).map (fun i : Nat => c + s + i * s)).map (fun x => (x - c).natAbs / s.natAbs) =
      List.range' 1 m := by
  rw [List.map_map, List.range'_eq_map_range]
  refine List.map_congr_left fun i _ => ?_
  simp only [Function.comp]
  rw [show c + s + i * s - c = (((i : Int) + 1) * s) by ring, key_mul s hs]

/-! ## Chunks -/

theorem arange_length (a b s : Int) : (arange a b s).length = (ceilDiv (b - a) s).toNat := by
  simp [arange]

theorem arange_append {a b c : Int} (h1 : a ≤ b) (h2 : b ≤ c) : arange a b 1 ++ arange b c 1 = arange a c 1 := by
  unfold arange
  simp only [ceilDiv_one, mul_one]
  obtain ⟨m, rfl⟩ : ∃ m : Nat, b = a + m := ⟨(b - a).toNat, by omega⟩
  obtain ⟨n, rfl⟩ : ∃ n : Nat, c = a + m + n := ⟨(c - (a + m)).toNat, by omega⟩
  rw [show (a + m - a).toNat = m by omega, show (a + m + n - (a + m)).toNat = n by omega,
    show (a + m + n - a).toNat = m + n by omega, List.range_add, List.map_append, List.map_map]
  congr 1
  refine List.map_congr_left fun i _ => ?_
  simp only [Function.comp]
  push_cast; ring

theorem arange_nil {a b : Int} (h : b ≤ a) : arange a b 1 = [] := by
  unfold arange
  rw [ceilDiv_one, show (b - a).toNat = 0 by omega]; rfl

/-- The first `n` chunks together are the range up to the end of the last one. -/
theorem chunks_flatten (a b c : Int) (hc : 0 < c) (hab : a ≤ b) : ∀ n : Nat,
    ((List.range n).map (fun k : Nat => arange (a + k * c) (min (a + k * c + c) b) 1)).flatten =
      arange a (min (a + n * c) b) 1
  | 0 => by simp [arange_nil, hab]
  | n + 1 => by
    rw [List.range_succ, List.map_append, List.flatten_append, chunks_flatten a b c hc hab n]
    simp only [List.map_cons, List.map_nil, List.flatten_cons, List.flatten_nil, List.append_nil]
    have hn : (0 : Int) ≤ n * c := mul_nonneg (by omega) (by omega)
    have e : a + ((n + 1 : Nat) : Int) * c = a + n * c + c := by push_cast; ring
    rw [e]
    rcases le_total (a + n * c) b with h | h
    · rw [min_eq_left h, arange_append (by linarith) (by rw [le_min_iff]; constructor <;> linarith)]
    · rw [min_eq_right h, min_eq_right (by linarith), arange_nil h, List.append_nil]

/-! ## Scaling -/

section
variable {K : Type} [Field K] [LinearOrder K]

theorem normalize_def (x l u : K) : normalize x l u = (x - l) / (u - l) := by
  unfold normalize
  split
  · rename_i h; obtain ⟨rfl, rfl⟩ := h; simp
  · rfl

variable [IsStrictOrderedRing K]

theorem scale_normalize {x l u : K} (h : l < u) : scale (normalize x l u) l u = x := by
  rw [normalize_def, scale, div_mul_cancel₀ _ (sub_ne_zero.2 h.ne')]; ring

theorem normalize_scale {x l u : K} (h : l < u) : normalize (scale x l u) l u = x := by
  rw [normalize_def, scale, add_sub_cancel_right, mul_div_cancel_right₀ _ (sub_ne_zero.2 h.ne')]

theorem scale_strict {l u x y : K} (h : l < u) : scale x l u < scale y l u ↔ x < y := by
  have h' : 0 < u - l := sub_pos.2 h
  unfold scale
  rw [add_lt_add_iff_right, mul_lt_mul_iff_left₀ h']

theorem normalize_strict {l u x y : K} (h : l < u) : normalize x l u < normalize y l u ↔ x < y := by
  rw [← scale_strict h, scale_normalize h, scale_normalize h]

theorem scale_zero (l u : K) : scale 0 l u = l := by simp [scale]

theorem scale_one (l u : K) : scale 1 l u = u := by simp [scale]

theorem scale_mem {l u x : K} (h : l < u) : (l ≤ scale x l u ∧ scale x l u ≤ u) ↔ (0 ≤ x ∧ x ≤ 1) := by
  conv_lhs => rw [← scale_zero l u]
  have h1 : scale 0 l u ≤ scale x l u ↔ 0 ≤ x := by
    rw [← not_lt, scale_strict h, not_lt]
  have h2 : scale x l u ≤ scale 1 l u ↔ x ≤ 1 := by
    rw [← not_lt, scale_strict h, not_lt]
  rw [scale_one] at h2
  rw [scale_zero] at h1 ⊢
  exact and_congr h1 h2

theorem clip_id {x l u : K} (h1 : l ≤ x) (h2 : x ≤ u) : clip x l u = x := by
  unfold clip
  rw [if_neg (not_lt.2 h1), if_neg (not_lt.2 h2)]

theorem clip_mem {x l u : K} (h : l ≤ u) : l ≤ clip x l u ∧ clip x l u ≤ u := by
  unfold clip
  split
  · exact ⟨le_refl _, h⟩
  · split
    · exact ⟨h, le_refl _⟩
    · exact ⟨not_lt.1 ‹_›, not_lt.1 ‹_›⟩

theorem clip_mono {x y l u : K} (h : l ≤ u) (hxy : x ≤ y) : clip x l u ≤ clip y l u := by
  rcases lt_or_ge x l with h1 | h1
  · rw [show clip x l u = l by simp [clip, h1]]; exact (clip_mem h).1
  · rcases lt_or_ge u y with h2 | h2
    · rw [show clip y l u = u by simp [clip, h2, not_lt.2 (h.trans h2.le)]]; exact (clip_mem h).2
    · rw [clip_id h1 (hxy.trans h2), clip_id (h1.trans hxy) h2]; exact hxy

variable [FloorRing K]

/-- The level of a point: the bin it falls in, as an integer. -/
theorem clip_floor (z : Int) (n : Nat) : ∃ k : Nat, k ≤ n ∧ clip ((z : Int) : K) 0 (n : K) = (k : K) ∧
    (0 ≤ z → z ≤ n → (k : Int) = z) ∧ ((n : Int) ≤ z → k = n) ∧ (z ≤ 0 → k = 0) := by
  rcases lt_or_ge z 0 with h1 | h1
  · refine ⟨0, Nat.zero_le _, ?_, by omega, by omega, fun _ => rfl⟩
    have : ((z : Int) : K) < 0 := by exact_mod_cast h1
    simp [clip, this]
  · rcases lt_or_ge (n : Int) z with h2 | h2
    · refine ⟨n, le_refl _, ?_, by omega, fun _ => rfl, by omega⟩
      have h3 : ¬ ((z : Int) : K) < 0 := not_lt.2 (by exact_mod_cast h1)
      have h4 : (n : K) < ((z : Int) : K) := by exact_mod_cast h2
      simp only [clip, h3, h4, if_true, if_false]
    · refine ⟨z.toNat, by omega, ?_, by omega, by omega, by omega⟩
      have e : ((z.toNat : Nat) : K) = ((z : Int) : K) := by
        rw [← Int.cast_natCast, Int.toNat_of_nonneg h1]
      rw [clip_id (by exact_mod_cast h1) (by exact_mod_cast h2), e]

theorem quantize_eq (x l u : K) (n : Nat) :
    quantize x l u (n + 1) =
      clip ((⌊(x - l) / (u - l) * ((n + 1 : Nat) : K)⌋ : Int) : K) 0 (n : K) / n * (u - l) + l := by
  have e : (((n + 1 : Nat) : K) - 1) = n := by push_cast; ring
  unfold quantize
  simp only [e]
  by_cases h : l = 0 ∧ u = 1
  · obtain ⟨rfl, rfl⟩ := h
    simp
  · simp only [if_neg h]

/-- Rounding to the nearest integer. -/
theorem rintK_int (n : Int) : rintK ((n : Int) : K) = n := by
  unfold rintK
  simp

theorem rintK_dist (q : K) : |q - (rintK q : K)| ≤ 1 / 2 := by
  have h1 := Int.floor_le q
  have h2 := Int.lt_floor_add_one q
  rw [abs_le]
  unfold rintK
  simp only
  split
  · constructor <;> linarith
  · split
    · push_cast; constructor <;> linarith
    · split
      · constructor <;> linarith
      · push_cast; constructor <;> linarith

theorem rintK_mem {l u : Int} {q : K} (h1 : (l : K) ≤ q) (h2 : q ≤ u) : l ≤ rintK q ∧ rintK q ≤ u := by
  have hf1 : l ≤ ⌊q⌋ := Int.le_floor.2 h1
  have hf2 : ⌊q⌋ ≤ u := by
    have : (⌊q⌋ : K) ≤ u := (Int.floor_le q).trans h2
    exact_mod_cast this
  have hup : 0 < q - (⌊q⌋ : K) → ⌊q⌋ + 1 ≤ u := by
    intro h
    have : (⌊q⌋ : K) < u := by linarith
    have : ⌊q⌋ < u := by exact_mod_cast this
    omega
  unfold rintK
  simp only
  split
  · exact ⟨hf1, hf2⟩
  · have := hup (by
      have : (0:K) < 1/2 := by norm_num
      linarith [not_lt.1 ‹_›])
    split
    · omega
    · split <;> omega

theorem closeToIntK_int (n : Int) : closeToIntK ((n : Int) : K) := by
  unfold closeToIntK
  rw [rintK_int, sub_self, abs_zero]
  positivity

end

end Verif.Num
