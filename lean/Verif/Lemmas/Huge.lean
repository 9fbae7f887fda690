import Verif.Model.Huge
import Verif.Spec.Huge
import Verif.Lemmas.Numeric
import Mathlib.MeasureTheory.Integral.IntervalIntegral.Basic
import Mathlib.Tactic.Linarith
import Mathlib.Tactic.FieldSimp
import Mathlib.Tactic.Positivity

/-!
# Lemmas: sums of a function with one peak over equally spaced points
-/

set_option autoImplicit false

namespace Verif.Huge

open Verif.Num Verif.Dens Verif.Spec MeasureTheory

variable {f : ℝ → ℝ} {M m : ℝ}

theorem integrable_peak (h1 : MonotoneOn f (Set.Iic m)) (h2 : AntitoneOn f (Set.Ici m)) (a b : ℝ) :
    IntervalIntegrable f volume a b := by
  have key : ∀ a, IntervalIntegrable f volume a m := by
    intro a
    rcases le_total a m with h | h
    · refine MonotoneOn.intervalIntegrable ?_
      rw [Set.uIcc_of_le h]
      exact h1.mono fun x hx => hx.2
    · refine AntitoneOn.intervalIntegrable ?_
      rw [Set.uIcc_of_ge h]
      exact h2.mono fun x hx => hx.1
  exact (key a).trans (key b).symm

theorem cell_le (h1 : MonotoneOn f (Set.Iic m)) (h2 : AntitoneOn f (Set.Ici m)) {a b c : ℝ} (hab : a ≤ b)
    (hc : ∀ x, a ≤ x → x ≤ b → f x ≤ c) : ∫ x in a..b, f x ≤ (b - a) * c := by
  have := intervalIntegral.integral_mono_on hab (integrable_peak h1 h2 a b)
    (intervalIntegrable_const (c := c)) (fun x hx => hc x hx.1 hx.2)
  simpa using this

theorem le_cell (h1 : MonotoneOn f (Set.Iic m)) (h2 : AntitoneOn f (Set.Ici m)) {a b c : ℝ} (hab : a ≤ b)
    (hc : ∀ x, a ≤ x → x ≤ b → c ≤ f x) : (b - a) * c ≤ ∫ x in a..b, f x := by
  have := intervalIntegral.integral_mono_on hab (intervalIntegrable_const (c := c)) (integrable_peak h1 h2 a b)
    (fun x hx => hc x hx.1 hx.2)
  simpa using this

/-- The points. -/
def pts (s h : ℝ) (n : Nat) : List ℝ := (List.range n).map fun k : Nat => s + k * h

theorem pts_succ (s h : ℝ) (n : Nat) : pts s h (n + 1) = pts s h n ++ [s + n * h] := by
  simp [pts, List.range_succ]

theorem sum_succ (s h : ℝ) (n : Nat) : ((pts s h (n + 1)).map f).sum = ((pts s h n).map f).sum + f (s + n * h) := by
  rw [pts_succ]
  simp

theorem split_cell (h1 : MonotoneOn f (Set.Iic m)) (h2 : AntitoneOn f (Set.Ici m)) (s h : ℝ) (n : Nat) :
    ∫ x in s..(s + (n + 1 : Nat) * h), f x = (∫ x in s..(s + n * h), f x) + ∫ x in (s + n * h)..(s + (n + 1 : Nat) * h), f x :=
  (intervalIntegral.integral_add_adjacent_intervals (integrable_peak h1 h2 _ _) (integrable_peak h1 h2 _ _)).symm

open Classical in
/-- The integral is at most the sum over the left ends and one more cell. -/
theorem integral_le_aux (h1 : MonotoneOn f (Set.Iic m)) (h2 : AntitoneOn f (Set.Ici m)) (h0 : ∀ x, 0 ≤ f x)
    (hM : ∀ x, f x ≤ M) {s h : ℝ} (hh : 0 ≤ h) (n : Nat) :
    ∫ x in s..(s + n * h), f x ≤ h * ((pts s h n).map f).sum + h * (if s + n * h ≤ m then f (s + n * h) else M) := by
  induction n with
  | zero =>
    simp only [Nat.cast_zero, zero_mul, add_zero, intervalIntegral.integral_same, pts, List.range_zero, List.map_nil,
      List.sum_nil, mul_zero, zero_add]
    split
    · exact mul_nonneg hh (h0 _)
    · exact mul_nonneg hh ((h0 0).trans (hM 0))
  | succ n ih =>
    have hle : s + n * h ≤ s + (n + 1 : Nat) * h := by push_cast; nlinarith
    have hw : s + (n + 1 : Nat) * h - (s + n * h) = h := by push_cast; ring
    rw [split_cell h1 h2, sum_succ]
    by_cases c1 : s + (n + 1 : Nat) * h ≤ m
    · rw [if_pos c1]
      rw [if_pos (hle.trans c1)] at ih
      have := cell_le h1 h2 hle (c := f (s + (n + 1 : Nat) * h)) fun x _ hx => h1 (Set.mem_Iic.2 (hx.trans c1)) c1 hx
      rw [hw] at this
      nlinarith
    · rw [if_neg c1]
      by_cases c2 : s + n * h ≤ m
      · rw [if_pos c2] at ih
        have := cell_le h1 h2 hle (c := M) fun x _ _ => hM x
        rw [hw] at this
        nlinarith
      · rw [if_neg c2] at ih
        have := cell_le h1 h2 hle (c := f (s + n * h)) fun x hx _ =>
          h2 (Set.mem_Ici.2 (not_le.1 c2).le) (Set.mem_Ici.2 ((not_le.1 c2).le.trans hx)) hx
        rw [hw] at this
        nlinarith

open Classical in
/-- The sum over all ends of cells is at most the integral and one more cell. -/
theorem sum_le_aux (h1 : MonotoneOn f (Set.Iic m)) (h2 : AntitoneOn f (Set.Ici m)) (hM : ∀ x, f x ≤ M)
    {s h : ℝ} (hh : 0 ≤ h) (n : Nat) :
    h * ((pts s h (n + 1)).map f).sum ≤ (∫ x in s..(s + n * h), f x) + h * (if s + n * h ≤ m then f (s + n * h) else M) := by
  induction n with
  | zero =>
    simp only [Nat.cast_zero, zero_mul, add_zero, intervalIntegral.integral_same, pts, zero_add, List.range_one, List.map_cons,
      List.map_nil, List.sum_cons, List.sum_nil]
    split
    · exact le_refl _
    · exact mul_le_mul_of_nonneg_left (hM _) hh
  | succ n ih =>
    have hle : s + n * h ≤ s + (n + 1 : Nat) * h := by push_cast; nlinarith
    have hw : s + (n + 1 : Nat) * h - (s + n * h) = h := by push_cast; ring
    rw [split_cell h1 h2, sum_succ]
    by_cases c1 : s + (n + 1 : Nat) * h ≤ m
    · rw [if_pos c1]
      rw [if_pos (hle.trans c1)] at ih
      have := le_cell h1 h2 hle (c := f (s + n * h)) fun x hx hx' => h1 (hle.trans c1) (Set.mem_Iic.2 (hx'.trans c1)) hx
      rw [hw] at this
      nlinarith
    · rw [if_neg c1]
      by_cases c2 : s + n * h ≤ m
      · rw [if_pos c2] at ih
        have := le_cell h1 h2 hle (c := min (f (s + n * h)) (f (s + (n + 1 : Nat) * h))) fun x hx hx' => by
          rcases le_total x m with hm | hm
          · exact (min_le_left _ _).trans (h1 c2 hm hx)
          · exact (min_le_right _ _).trans (h2 hm (Set.mem_Ici.2 (not_le.1 c1).le) hx')
        rw [hw] at this
        have hmm : f (s + n * h) + f (s + (n + 1 : Nat) * h) ≤ min (f (s + n * h)) (f (s + (n + 1 : Nat) * h)) + M := by
          rcases min_cases (f (s + n * h)) (f (s + (n + 1 : Nat) * h)) with ⟨e, _⟩ | ⟨e, _⟩ <;> rw [e]
          · linarith [hM (s + (n + 1 : Nat) * h)]
          · linarith [hM (s + n * h)]
        nlinarith [mul_le_mul_of_nonneg_left hmm hh]
      · rw [if_neg c2] at ih
        have := le_cell h1 h2 hle (c := f (s + (n + 1 : Nat) * h)) fun x hx hx' =>
          h2 (Set.mem_Ici.2 ((not_le.1 c2).le.trans hx)) (Set.mem_Ici.2 (not_le.1 c1).le) hx'
        rw [hw] at this
        nlinarith

theorem OnePeak.integrable (p : OnePeak f M) (a b : ℝ) : IntervalIntegrable f volume a b := by
  obtain ⟨m, h1, h2⟩ := p.peak
  exact integrable_peak h1 h2 a b

theorem integral_le_sum (p : OnePeak f M) {s h : ℝ} (hh : 0 ≤ h) (n : Nat) :
    ∫ x in s..(s + n * h), f x ≤ h * (((pts s h n).map f).sum + M) := by
  obtain ⟨m, h1, h2⟩ := p.peak
  have := integral_le_aux h1 h2 p.nonneg p.le (s := s) hh n
  split at this
  · nlinarith [mul_le_mul_of_nonneg_left (p.le (s + n * h)) hh]
  · linarith

theorem sum_le_integral (p : OnePeak f M) {s h : ℝ} (hh : 0 ≤ h) (n : Nat) :
    h * ((pts s h (n + 1)).map f).sum ≤ (∫ x in s..(s + n * h), f x) + h * M := by
  obtain ⟨m, h1, h2⟩ := p.peak
  have := sum_le_aux h1 h2 p.le (s := s) hh n
  split at this
  · nlinarith [mul_le_mul_of_nonneg_left (p.le (s + n * h)) hh]
  · linarith

/-! ## The points of the code -/

theorem chunks_sum (g : Nat → ℝ) (N C k : Nat) :
    ((List.range k).map fun c => ((List.range (min C (N - c * C))).map fun i => g (c * C + i)).sum).sum =
      ((List.range (min (k * C) N)).map g).sum := by
  induction k with
  | zero => simp
  | succ k ih =>
    rw [List.range_succ, List.map_append, List.sum_append, ih]
    simp only [List.map_cons, List.map_nil, List.sum_cons, List.sum_nil, add_zero]
    rcases le_total N (k * C) with h | h
    · have e1 : N - k * C = 0 := by omega
      have e2 : min ((k + 1) * C) N = min (k * C) N := by
        rw [Nat.add_mul]
        omega
      rw [e1, e2]
      simp
    · have e1 : min ((k + 1) * C) N = k * C + min C (N - k * C) := by
        rw [Nat.add_mul]
        omega
      rw [e1, List.range_add, List.map_append, List.sum_append, min_eq_left h, List.map_map]
      rfl

/-- What is summed: equally spaced points from the start on, `⌈num⌉` or, if they fit into one chunk, `⌊num⌋` of them. -/
theorem linspaceReal_sum {start stop num : ℝ} {C : Nat} (hn : 1 ≤ num) (hC : 0 < C) (h : start < stop) :
    ∃ cs, linspaceReal start stop num C = some cs ∧ ∃ n : Nat, ∃ d : ℝ, 0 < d ∧ num - 1 < d ∧ d ≤ num ∧ d ≤ n ∧ (n : ℝ) < d + 1 ∧
      (cs.map fun c => (c.map f).sum).sum = ((pts start ((stop - start) / d) n).map f).sum := by
  have hn0 : 0 < num := by linarith
  by_cases hc : num ≤ C
  · have hfl : (1 : Int) ≤ ⌊num⌋ := Int.le_floor.2 (by simpa using hn)
    have hcast : ((⌊num⌋.toNat : Nat) : ℝ) = (⌊num⌋ : ℝ) := by
      have : ((⌊num⌋.toNat : Int)) = ⌊num⌋ := Int.toNat_of_nonneg (by omega)
      exact_mod_cast congrArg (Int.cast (R := ℝ)) this
    refine ⟨[linspace start stop ⌊num⌋.toNat false], ?_, ⌊num⌋.toNat, ⌊num⌋, ?_, ?_, ?_, ?_, ?_, ?_⟩
    · unfold linspaceReal
      rw [if_pos ⟨hn0, hC, h⟩, if_pos hc]
    · exact_mod_cast (by omega : 0 < ⌊num⌋)
    · have := Int.lt_floor_add_one num
      linarith
    · exact Int.floor_le num
    · rw [hcast]
    · rw [hcast]; linarith
    · simp only [List.map_cons, List.map_nil, List.sum_cons, List.sum_nil, add_zero]
      congr 2
      unfold linspace pts
      simp only [Bool.false_eq_true, if_false]
      apply List.map_congr_left
      intro i _
      rw [if_neg (by omega), hcast]
  · have hce : (0 : Int) < ⌈num⌉ := Int.ceil_pos.2 hn0
    obtain ⟨N, hN⟩ : ∃ N : Nat, ⌈num⌉ = (N : Int) := ⟨⌈num⌉.toNat, (Int.toNat_of_nonneg hce.le).symm⟩
    have hNr : ((⌈num⌉ : Int) : ℝ) = N := by rw [hN]; simp
    have hC' : (0 : ℝ) < C := by exact_mod_cast hC
    have heq : linspaceReal start stop num C = some ((List.range ⌈((⌈num⌉ : Int) : ℝ) / C⌉.toNat).map fun c : Nat =>
        (List.range ⌈min ((c : ℝ) * C + C) num - c * C⌉.toNat).map fun i : Nat =>
          (((c : ℝ) * C + i) / num) * (stop - start) + start) := by
      unfold linspaceReal
      rw [if_pos ⟨hn0, hC, h⟩, if_neg hc]
    refine ⟨_, heq, N, num, hn0, by linarith, le_refl _, ?_, ?_, ?_⟩
    · rw [← hNr]; exact Int.le_ceil num
    · rw [← hNr]; exact Int.ceil_lt_add_one num
    · rw [List.map_map]
      have e : ∀ c : Nat, ⌈min ((c : ℝ) * C + C) num - c * C⌉.toNat = min C (N - c * C) := by
        intro c
        rcases le_total ((c : ℝ) * C + C) num with h' | h'
        · rw [min_eq_left h', add_sub_cancel_left]
          have : c * C + C ≤ N := by
            have : ((c * C + C : Nat) : ℝ) ≤ N := by
              push_cast
              exact h'.trans (by rw [← hNr]; exact Int.le_ceil num)
            exact_mod_cast this
          have e1 : ⌈(C : ℝ)⌉ = (C : Int) := by simp
          rw [e1]
          omega
        · rw [min_eq_right h']
          have e1 : ⌈num - (c : ℝ) * C⌉ = (N : Int) - (c * C : Nat) := by
            have : num - (c : ℝ) * C = num - (((c * C : Nat) : Int) : ℝ) := by push_cast; ring
            rw [this, Int.ceil_sub_intCast, hN]
          rw [e1]
          have : N ≤ c * C + C := by
            have : ⌈num⌉ ≤ ((c * C + C : Nat) : Int) := Int.ceil_le.2 (by push_cast; exact h')
            omega
          omega
      have e2 : ((fun c => (List.map f c).sum) ∘ fun c : Nat =>
          (List.range ⌈min ((c : ℝ) * C + C) num - c * C⌉.toNat).map fun i : Nat =>
            (((c : ℝ) * C + i) / num) * (stop - start) + start) =
          fun c => ((List.range (min C (N - c * C))).map fun i => (fun j : Nat => f (start + j * ((stop - start) / num))) (c * C + i)).sum := by
        funext c
        simp only [Function.comp, e, List.map_map]
        congr 1
        apply List.map_congr_left
        intro i _
        simp only [Function.comp]
        congr 1
        push_cast
        field_simp
        ring
      rw [e2, chunks_sum (fun j : Nat => f (start + j * ((stop - start) / num)))]
      have e3 : min (⌈((⌈num⌉ : Int) : ℝ) / C⌉.toNat * C) N = N := by
        apply min_eq_right
        have h1 : (N : ℝ) / C ≤ (⌈((⌈num⌉ : Int) : ℝ) / C⌉ : ℝ) := by rw [hNr]; exact Int.le_ceil _
        have h2 : ((⌈((⌈num⌉ : Int) : ℝ) / C⌉ : Int) : ℝ) ≤ (⌈((⌈num⌉ : Int) : ℝ) / C⌉.toNat : ℝ) := by
          exact_mod_cast Int.self_le_toNat _
        have h3 : (N : ℝ) ≤ (⌈((⌈num⌉ : Int) : ℝ) / C⌉.toNat : ℝ) * C := (div_le_iff₀ hC').1 (h1.trans h2)
        exact_mod_cast h3
      rw [e3]
      unfold pts
      rw [List.map_map]
      rfl

theorem quantize_near {x : ℝ} (h0 : 0 ≤ x) (h1 : x ≤ 1) {S : Nat} (hS : 2 ≤ S) :
    |quantize x 0 1 S - x| ≤ 1 / ((S : ℝ) - 1) ∧ 0 ≤ quantize x 0 1 S ∧ quantize x 0 1 S ≤ 1 := by
  have hS' : (2 : ℝ) ≤ S := by exact_mod_cast hS
  have hpos : (0 : ℝ) < (S : ℝ) - 1 := by linarith
  unfold quantize
  simp only [and_self, if_true]
  have hcl := clip_mem (x := ((⌊x * S⌋ : Int) : ℝ)) (l := 0) (u := (S : ℝ) - 1) hpos.le
  refine ⟨?_, div_nonneg hcl.1 hpos.le, (div_le_one hpos).2 hcl.2⟩
  have f1 := Int.floor_le (x * S)
  have f2 := Int.lt_floor_add_one (x * S)
  have hv : x * S - 1 ≤ clip ((⌊x * S⌋ : Int) : ℝ) 0 ((S : ℝ) - 1) ∧ clip ((⌊x * S⌋ : Int) : ℝ) 0 ((S : ℝ) - 1) ≤ x * S := by
    have hxS : 0 ≤ x * S := mul_nonneg h0 (by linarith)
    have hfl : (0 : ℝ) ≤ (⌊x * S⌋ : Int) := by exact_mod_cast Int.floor_nonneg.2 hxS
    unfold clip
    rw [if_neg (by linarith)]
    split
    · constructor <;> nlinarith
    · constructor <;> linarith
  generalize clip ((⌊x * S⌋ : Int) : ℝ) 0 ((S : ℝ) - 1) = v at hv
  have e : v / ((S : ℝ) - 1) - x = (v - x * S + x) / ((S : ℝ) - 1) := by field_simp; ring
  rw [e, abs_div, abs_of_pos hpos]
  exact div_le_div_of_nonneg_right (abs_le.2 ⟨by linarith [hv.1], by linarith [hv.2]⟩) hpos.le

end Verif.Huge
