import Verif.Model.F64Neighbors
import Verif.Lemmas.F64Sample
import Verif.Lemmas.Neighbors
import Verif.Props.F64Sample

/-!
# Lemmas: neighbours in double precision
-/

set_option autoImplicit false

namespace Verif.F64
open Verif Verif.Num

section
variable {K : Type} [Field K] [LinearOrder K] [IsStrictOrderedRing K] [FloorRing K]

theorem rd_cast {n : Int} (h : |n| ≤ 2 ^ 53) : rd (n : K) = (n : K) := rd_int h

/-- Consecutive integers without the last. -/
theorem linspace_open {a : Int} {num : Nat} (ha : 0 ≤ a) (hb : a + num ≤ 2 ^ 53) :
    linspace (a : K) ((a + num : Int) : K) num false = (List.range num).map (fun i : Nat => ((a + i : Int) : K)) := by
  unfold linspace
  simp only [Bool.false_and, Bool.false_eq_true, if_false]
  apply List.map_congr_left
  intro i hi
  rw [List.mem_range] at hi
  have hn : num ≠ 0 := by omega
  have e1 : ((a + num : Int) : K) - (a : K) = ((num : Int) : K) := by push_cast; ring
  have e2 : rd ((num : Int) : K) = ((num : Int) : K) := rd_int (by rw [abs_le]; norm_num at *; omega)
  have e3 : rd (((num : Int) : K) / (num : K)) = 1 := by
    rw [Int.cast_natCast, div_self (by exact_mod_cast hn)]
    exact rd_one
  have e4 : rd ((i : K) * 1) = ((i : Int) : K) := by
    rw [mul_one, ← Int.cast_natCast i]
    exact rd_int (by rw [abs_le]; norm_num at *; omega)
  rw [if_neg hn, e1, e2, e3, if_neg one_ne_zero, e4, ← Int.cast_add, add_comm]
  exact rd_int (by rw [abs_le]; norm_num at *; omega)

/-- Consecutive integers with the last. -/
theorem linspace_closed {a b : Int} {num : Nat} (ha : 0 ≤ a) (hb : b = a + num - 1) (hb' : a + num ≤ 2 ^ 53) :
    linspace (a : K) (b : K) num true = (List.range num).map (fun i : Nat => ((a + i : Int) : K)) := by
  subst hb
  unfold linspace
  simp only [Bool.true_and, if_true]
  apply List.map_congr_left
  intro i hi
  rw [List.mem_range] at hi
  by_cases h1 : num = 1
  · subst h1
    obtain rfl : i = 0 := by omega
    have e0 : rd (0 : K) = 0 := rd_zero
    simp [e0]
    exact rd_int (by rw [abs_le]; norm_num at *; omega)
  by_cases hl : i = num - 1
  · rw [if_pos (by simp; omega)]
    congr 1
    omega
  · rw [if_neg (by simp; omega), if_neg (by omega)]
    have e1 : ((a + num - 1 : Int) : K) - (a : K) = ((num - 1 : Nat) : K) := by
      rw [Nat.cast_sub (by omega)]; push_cast; ring
    have e2 : rd ((num - 1 : Nat) : K) = ((num - 1 : Nat) : K) := by
      rw [← Int.cast_natCast]
      exact rd_int (by rw [abs_le]; norm_num at *; omega)
    have e3 : rd (((num - 1 : Nat) : K) / ((num - 1 : Nat) : K)) = 1 := by
      rw [div_self (by exact_mod_cast (by omega : num - 1 ≠ 0))]
      exact rd_one
    have e4 : rd ((i : K) * 1) = ((i : Int) : K) := by
      rw [mul_one, ← Int.cast_natCast i]
      exact rd_int (by rw [abs_le]; norm_num at *; omega)
    rw [e1, e2, e3, if_neg one_ne_zero, e4, ← Int.cast_add, add_comm]
    exact rd_int (by rw [abs_le]; norm_num at *; omega)

/-- What the rejection sampling returns, for quantisers on the interval, whatever is drawn. -/
theorem loop_spec {quant : K → K} {n : Nat} {q : K} {P : K → Prop} (hP : ∀ c, P (quant c)) {draws : List (List K)} {r : List K}
    (h : neighborLoop quant 0 1 n q draws [] = some r) : r.length = n ∧ r.Nodup ∧ ∀ y ∈ r, P y ∧ y ≠ q :=
  neighborLoop_spec (fun c _ _ => hP c) draws [] r List.nodup_nil (by simp) h

end

noncomputable section

variable {lg ex : ℝ → ℝ} {l u : Int}

/-- The integers of `l..u` other than `m`. -/
def otherInts (l u m : Int) : List Int :=
  (List.range (m - l).toNat).map (fun i : Nat => l + i) ++ (List.range (u - m).toNat).map (fun i : Nat => m + 1 + i)

theorem mem_otherInts {m k : Int} (h1 : l ≤ m) (h2 : m ≤ u) : k ∈ otherInts l u m ↔ l ≤ k ∧ k ≤ u ∧ k ≠ m := by
  unfold otherInts
  rw [List.mem_append, List.mem_map, List.mem_map]
  constructor
  · rintro (⟨i, hi, rfl⟩ | ⟨i, hi, rfl⟩) <;> rw [List.mem_range] at hi <;> omega
  · rintro ⟨a, b, c⟩
    by_cases hk : k < m
    · exact Or.inl ⟨(k - l).toNat, by rw [List.mem_range]; omega, by omega⟩
    · exact Or.inr ⟨(k - m - 1).toNat, by rw [List.mem_range]; omega, by omega⟩

theorem otherInts_nodup {m : Int} (h1 : l ≤ m) (h2 : m ≤ u) : (otherInts l u m).Nodup := by
  unfold otherInts
  rw [List.nodup_append']
  refine ⟨?_, ?_, ?_⟩
  · exact List.nodup_range.map (fun a b h => by omega)
  · exact List.nodup_range.map (fun a b h => by omega)
  · intro k hk hk'
    rw [List.mem_map] at hk hk'
    obtain ⟨i, hi, rfl⟩ := hk
    obtain ⟨j, hj, e⟩ := hk'
    rw [List.mem_range] at hi hj
    omega

/-- The branch that lists all neighbours on a logarithmic scale. -/
theorem logIntNeighbors_all (h1 : 1 ≤ l) (hu : u ≤ 2 ^ 39) {x : ℝ} {n : Nat} (hn : n < 1000000) (hn' : (u - l).toNat ≤ n)
    {m : Int} (hm : toValLogInt lg ex l u (drawnLogInt lg ex l u x) = m) (hm1 : l ≤ m) (hm2 : m ≤ u) (hlu : l < u) (draws : List (List ℝ)) :
    logIntNeighbors lg ex l u x n draws = some ((otherInts l u m).map (toVecLogInt lg l u)) := by
  have hb : ∀ k : Int, 0 ≤ k → k ≤ 2 ^ 40 → rd (k : ℝ) = (k : ℝ) := fun k k0 k1 =>
    rd_int (by rw [abs_le]; norm_num at *; omega)
  unfold logIntNeighbors
  have hu39 : u ≤ 549755813888 := by norm_num at hu; exact hu
  have es : rd (rd ((u - l : Int) : ℝ) / rd ((u - l : Int) : ℝ)) = 1 := by
    rw [hb _ (by omega) (by norm_num; omega), div_self (by exact_mod_cast (by omega : u - l ≠ 0))]
    exact rd_one
  have et : ⌊rd (rd ((m - l : Int) : ℝ) / 1)⌋.toNat = (m - l).toNat := by
    rw [div_one, hb (m - l) (by omega) (by norm_num; omega), hb (m - l) (by omega) (by norm_num; omega), Int.floor_intCast]
  have e1 : rd (rd (m : ℝ) + 1) = ((m + 1 : Int) : ℝ) := by
    rw [hb m (by omega) (by norm_num; omega), ← hb (m + 1) (by omega) (by norm_num; omega)]
    push_cast
    rfl
  simp only [if_neg (by omega : ¬ 1000000 ≤ n), hm, es, et, e1]
  rw [if_pos (by omega)]
  congr 1
  unfold otherInts
  rw [List.map_append, List.map_map, List.map_map]
  congr 1
  · by_cases hz : m = l
    · subst hz
      simp
    · rw [if_neg (by omega), show (m - l).toNat + 1 - 1 = (m - l).toNat by omega, hb l (by omega) (by norm_num; omega),
        hb m (by omega) (by norm_num; omega),
        show ((m : Int) : ℝ) = ((l + (m - l).toNat : Int) : ℝ) by congr 1; omega,
        linspace_open (by omega) (by norm_num; omega), List.map_map]
      apply List.map_congr_left
      intro i hi
      rw [List.mem_range] at hi
      simp only [Function.comp_apply]
      unfold toVecLogInt
      rw [hb (l + i) (by omega) (by norm_num; omega), hb l (by omega) (by norm_num; omega)]
  · rw [hb u (by omega) (by norm_num; omega), show (u - l + 1).toNat - ((m - l).toNat + 1) = (u - m).toNat by omega,
      linspace_closed (by omega) (by omega) (by norm_num; omega), List.map_map]
    apply List.map_congr_left
    intro i hi
    rw [List.mem_range] at hi
    simp only [Function.comp_apply]
    unfold toVecLogInt
    rw [hb (m + 1 + i) (by omega) (by norm_num; omega), hb u (by omega) (by norm_num; omega)]

/-- The level of a number is clipped. -/
theorem quantizeOrig_clip (h1 : 1 ≤ l) (h : l < u) (hu : u ≤ 2 ^ 40) {x : ℝ} {f j : Int}
    (hf : ⌊rd (rd (rd (x - rd (l : ℝ)) / rd ((u - l : Int) : ℝ)) * rd ((u - l + 1 : Int) : ℝ))⌋ = f) (hj0 : 0 ≤ j) (hj : j ≤ u - l)
    (hfj : f = j ∨ (f < 0 ∧ j = 0) ∨ (u - l < f ∧ j = u - l)) : quantizeOrig l u x = atLevel l u ((j : Int) : ℝ) := by
  unfold quantizeOrig
  rw [hf, rd_size h1 h hu]
  congr 1
  unfold clip
  rcases hfj with rfl | ⟨h2, rfl⟩ | ⟨h2, rfl⟩
  · rw [if_neg (by push Not; exact_mod_cast hj0), if_neg (by push Not; exact_mod_cast hj)]
  · rw [if_pos (by exact_mod_cast h2), Int.cast_zero]
  · rw [if_neg (by push Not; exact_mod_cast (by omega : 0 ≤ f)), if_pos (by exact_mod_cast h2)]

/-- An entry that is read as a number close to the integer `m` is quantised to the level of `m`. -/
theorem requantized (ha : Accurate lg ex) (h1 : 1 ≤ l) (h : l < u) (hu : u ≤ 2 ^ 39) (hs : (u - l) * u ≤ 2 ^ 37) {m : Int} (hm1 : l ≤ m)
    (hm2 : m ≤ u) {x : ℝ} (hx : |unsafeLog lg ex (rd (l : ℝ)) (rd (u : ℝ)) x - m| ≤ m / 2 ^ 40) :
    drawnLogInt lg ex l u x = drawnLogInt lg ex l u (toVecLogInt lg l u m) ∧
      drawnLogInt lg ex l u x = toVecLog lg (rd (l : ℝ)) (rd (u : ℝ)) (atLevel l u ((m - l : Int) : ℝ)) := by
  have hu' : u ≤ 2 ^ 40 := hu.trans (by norm_num)
  have key : ∀ {w : ℝ}, |w - m| ≤ m / 2 ^ 40 → quantizeOrig l u w = atLevel l u ((m - l : Int) : ℝ) := by
    intro w hw
    have hmR : ((m : Int) : ℝ) ≤ u := by exact_mod_cast hm2
    have hlR : (1 : ℝ) ≤ l := by exact_mod_cast h1
    have hsR : ((u - l : Int) : ℝ) * u ≤ 137438953472 := by
      have : (((u - l) * u : Int) : ℝ) ≤ ((2 ^ 37 : Int) : ℝ) := by exact_mod_cast hs
      push_cast at this ⊢
      refine this.trans ?_
      norm_num
    have hM1 : (1 : ℝ) ≤ ((u - l : Int) : ℝ) := by exact_mod_cast (by omega : 1 ≤ u - l)
    have hMu : ((u - l : Int) : ℝ) + 1 ≤ u := by push_cast; linarith
    have hmu1 : ((u - l + 1 : Int) : ℝ) = ((u - l : Int) : ℝ) + 1 := by push_cast; ring
    have hj0 : (0 : ℝ) ≤ ((m - l : Int) : ℝ) := by exact_mod_cast (by omega : 0 ≤ m - l)
    have hjM : ((m - l : Int) : ℝ) ≤ ((u - l : Int) : ℝ) := by exact_mod_cast (by omega : m - l ≤ u - l)
    have hjw : |w - l - ((m - l : Int) : ℝ)| ≤ u / 1099511627776 := by
      have : w - l - ((m - l : Int) : ℝ) = w - m := by push_cast; ring
      rw [this]
      refine hw.trans ?_
      norm_num
      linarith
    have near : |rd (rd (rd (w - rd (l : ℝ)) / rd ((u - l : Int) : ℝ)) * rd ((u - l + 1 : Int) : ℝ)) -
        (((m - l : Int) : ℝ) + ((m - l : Int) : ℝ) / ((u - l : Int) : ℝ))| < 1 / ((u - l : Int) : ℝ) := by
      rw [rd_int40 h1 (h.le.trans hu'), rd_size h1 h hu', rd_int40 (n := u - l + 1) (by omega) (by norm_num at *; omega), hmu1]
      have huB : (u : ℝ) ≤ 1099511627776 := by
        have : (u : ℝ) ≤ ((2 ^ 40 : Int) : ℝ) := by exact_mod_cast hu'
        refine this.trans ?_
        norm_num
      have hη := eta_tiny
      generalize hη0 : (2 : ℝ) ^ (-400 : Int) = η at hη
      have hηs : η ≤ 1 / 1267650600228229401496703205376 := by
        refine hη.2.trans ?_
        norm_num
      clear hη
      generalize ((m - l : Int) : ℝ) = j at *
      generalize ((u - l : Int) : ℝ) = M at *
      generalize (u : ℝ) = U at *
      have hM0 : 0 < M := by linarith
      have d1 := rd_err' (w - l)
      rw [hη0] at d1
      have w1 : |w - l| ≤ M + 1 := by
        have : U / 1099511627776 ≤ 1 := by linarith
        rw [abs_le] at *
        constructor <;> linarith
      generalize rd (w - (l : ℝ)) = r1 at *
      have f1 : |r1 - j| ≤ U / 549755813888 := by
        rw [abs_le] at hjw d1 ⊢
        constructor <;> linarith
      have d2 := rd_err' (r1 / M)
      rw [hη0] at d2
      have hr1 : |r1 / M - j / M| ≤ U / 549755813888 / M := by
        rw [← sub_div, abs_div, abs_of_pos hM0]
        exact div_le_div_of_nonneg_right f1 hM0.le
      have hjM1 : j / M ≤ 1 := (div_le_one hM0).2 hjM
      have hjM0 : 0 ≤ j / M := div_nonneg hj0 hM0.le
      have hUM : U / 549755813888 / M ≤ 1 := by
        rw [div_le_one hM0]
        nlinarith
      have w2 : |r1 / M| ≤ 2 := by
        rw [abs_le] at hr1 ⊢
        constructor <;> linarith
      generalize rd (r1 / M) = r2 at *
      have f2 : |r2 - j / M| ≤ U / 549755813888 / M + 1 / 2251799813685248 := by
        rw [abs_le] at hr1 d2 ⊢
        constructor <;> linarith
      have f3 : |r2 * (M + 1) - (j + j / M)| ≤ U / 274877906944 + U / 2251799813685248 := by
        have e : j + j / M = j / M * (M + 1) := by field_simp
        rw [e, ← sub_mul, abs_mul, abs_of_pos (by linarith : 0 < M + 1)]
        refine (mul_le_mul_of_nonneg_right f2 (by linarith)).trans ?_
        have e2 : U / 549755813888 / M * (M + 1) ≤ U / 274877906944 := by
          rw [div_mul_eq_mul_div, div_le_iff₀ hM0]
          nlinarith
        rw [add_mul]
        have e3 : 1 / 2251799813685248 * (M + 1) ≤ U / 2251799813685248 := by linarith
        linarith
      have d3 := rd_err' (r2 * (M + 1))
      rw [hη0] at d3
      have w3 : |r2 * (M + 1)| ≤ 8 * U := by
        rw [abs_le] at f3 ⊢
        constructor <;> linarith
      generalize rd (r2 * (M + 1)) = r3 at *
      have f4 : |r3 - (j + j / M)| < U / 137438953472 := by
        rw [abs_le] at f3 d3
        rw [abs_lt]
        constructor <;> linarith
      refine f4.trans_le ?_
      rw [div_le_div_iff₀ (by norm_num) hM0]
      linarith
    generalize hr : rd (rd (rd (w - rd (l : ℝ)) / rd ((u - l : Int) : ℝ)) * rd ((u - l + 1 : Int) : ℝ)) = r at near
    refine quantizeOrig_clip (f := ⌊r⌋) h1 h hu' (by rw [hr]) (by omega) (by omega) ?_
    have hM0 : (0 : ℝ) < ((u - l : Int) : ℝ) := by linarith
    have hinv : 1 / ((u - l : Int) : ℝ) ≤ 1 := (div_le_one hM0).2 hM1
    rw [abs_lt] at near
    by_cases c0 : m = l
    · subst c0
      simp only [sub_self, Int.cast_zero, zero_div, add_zero] at near
      by_cases hr0 : r < 0
      · exact Or.inr (Or.inl ⟨by rw [Int.floor_lt]; exact_mod_cast hr0, by omega⟩)
      · refine Or.inl ?_
        rw [sub_self, Int.floor_eq_iff]
        push_cast
        constructor <;> linarith
    · by_cases c1 : m = u
      · subst c1
        rw [div_self hM0.ne'] at near
        by_cases hr1 : r < ((m - l : Int) : ℝ) + 1
        · refine Or.inl ?_
          rw [Int.floor_eq_iff]
          constructor <;> linarith
        · refine Or.inr (Or.inr ⟨?_, rfl⟩)
          have : m - l + 1 ≤ ⌊r⌋ := by
            rw [Int.le_floor]
            push_cast at hr1 ⊢
            linarith
          omega
      · refine Or.inl ?_
        have g1 : 1 / ((u - l : Int) : ℝ) ≤ ((m - l : Int) : ℝ) / ((u - l : Int) : ℝ) :=
          div_le_div_of_nonneg_right (by exact_mod_cast (by omega : 1 ≤ m - l)) hM0.le
        have g2 : ((m - l : Int) : ℝ) / ((u - l : Int) : ℝ) + 1 / ((u - l : Int) : ℝ) ≤ 1 := by
          rw [← add_div, div_le_one hM0]
          exact_mod_cast (by omega : m - l + 1 ≤ u - l)
        rw [Int.floor_eq_iff]
        constructor <;> linarith
  have both : ∀ {y : ℝ}, |unsafeLog lg ex (rd (l : ℝ)) (rd (u : ℝ)) y - m| ≤ m / 2 ^ 40 →
      drawnLogInt lg ex l u y = toVecLog lg (rd (l : ℝ)) (rd (u : ℝ)) (atLevel l u ((m - l : Int) : ℝ)) := by
    intro y hy
    have hk := key hy
    unfold unsafeLog at hk
    unfold drawnLogInt toVecLog
    rw [hk]
    have hb := atLevel_near h1 h hu' (k := m - l) (by omega) (by omega)
    have hlR : (1 : ℝ) ≤ l := by exact_mod_cast h1
    have hv : IsF64 (normalize (lg (atLevel l u ((m - l : Int) : ℝ))) (lg (rd (l : ℝ))) (lg (rd (u : ℝ)))) := by
      unfold normalize
      split_ifs
      · exact ha.isF64 _ (by linarith [hb.2.1])
      · exact isF64_rd _
    unfold scale
    rw [sub_zero, rd_one, mul_one, add_zero, rd_of_isF64 hv, rd_of_isF64 hv]
  refine ⟨?_, both hx⟩
  have hn := unsafeLog_near ha h1 h hu' hm1 hm2
  have hm0 : (0 : ℝ) ≤ m := by exact_mod_cast (by omega : 0 ≤ m)
  rw [both hx, both (hn.trans (by norm_num; linarith))]

end

end Verif.F64
