import Verif.Lemmas.RandomRun
import Mathlib.Probability.Independence.Basic

/-!
# Lemmas: `get_random_neighbor` with random draws
-/

set_option autoImplicit false

namespace Verif.Walk
open Verif Verif.Spec MeasureTheory ProbabilityTheory

/-! ## Events that depend on some of the variables -/

section
variable {Ω α ι : Type} [MeasurableSpace Ω] [MeasurableSpace α]

/-- The event `E` depends on the variables in `I` only. -/
def On (Y : ι → Ω → α) (I : Finset ι) (E : Set Ω) : Prop := ∀ ω ω', (∀ i ∈ I, Y i ω = Y i ω') → ω ∈ E → ω' ∈ E

theorem on_preimage {Y : ι → Ω → α} {I : Finset ι} {E : Set Ω} (h : On Y I E) :
    E = (fun ω (i : I) => Y i ω) ⁻¹' {z | ∃ ω ∈ E, ∀ i : I, Y i ω = z i} := by
  ext ω
  constructor
  · intro hω
    exact ⟨ω, hω, fun _ => rfl⟩
  · rintro ⟨ω', h1, h2⟩
    exact h ω' ω (fun i hi => h2 ⟨i, hi⟩) h1

variable [Countable α] [MeasurableSingletonClass α]

theorem on_measurable {Y : ι → Ω → α} (hm : ∀ i, Measurable (Y i)) {I : Finset ι} {E : Set Ω} (h : On Y I E) : MeasurableSet E := by
  rw [on_preimage h]
  exact (measurable_pi_iff.2 (fun i : I => hm i)) (Set.to_countable _).measurableSet

theorem on_indep {P : Measure Ω} {Y : ι → Ω → α} (hm : ∀ i, Measurable (Y i)) (hind : iIndepFun Y P) {I J : Finset ι} (hd : Disjoint I J)
    {E F : Set Ω} (hE : On Y I E) (hF : On Y J F) : P (E ∩ F) = P E * P F := by
  have h := hind.indepFun_finset I J hd hm
  have := h.measure_inter_preimage_eq_mul _ _ (Set.to_countable {z | ∃ ω ∈ E, ∀ i : I, Y i ω = z i}).measurableSet
    (Set.to_countable {z | ∃ ω ∈ F, ∀ i : J, Y i ω = z i}).measurableSet
  rw [← on_preimage hE, ← on_preimage hF] at this
  exact this

end

/-! ## The random calls as one family -/

variable {calls : List Call} {s : Space} {v : Vec} {d : Dict} {Ω : Type} [MeasurableSpace Ω] {P : Measure Ω} {R : Nat → Ω → Nat} {N : Nat → Ω → Vec}

/-- What one random call gives: a number or proposals. -/
def Outcome : Type := Nat ⊕ Vec

instance : MeasurableSpace Outcome := ⊤
instance : MeasurableSingletonClass Outcome := ⟨fun _ => MeasurableSpace.measurableSet_top⟩
instance : Countable Outcome := inferInstanceAs (Countable (Nat ⊕ List (Option Rat)))

/-- All random calls. -/
def family (R : Nat → Ω → Nat) (N : Nat → Ω → Vec) : Nat ⊕ Nat → Ω → Outcome
  | .inl t, ω => .inl (R t ω)
  | .inr k, ω => .inr (N k ω)

theorem family_measurable (h : RandomCalls s P R N) : ∀ i, Measurable (family R N i)
  | .inl t => fun A _ => by
    have : MeasurableSet {r : Nat | (Sum.inl r : Outcome) ∈ A} := MeasurableSpace.measurableSet_top
    exact h.measurableR t this
  | .inr k => fun A _ => by
    have : MeasurableSet {r : Vec | (Sum.inr r : Outcome) ∈ A} := MeasurableSpace.measurableSet_top
    exact h.measurableN k this

theorem walk_prob (h : RandomCalls s P R N) : IsProbabilityMeasure P := ⟨by
  have := h.indep 0 (fun _ => Set.univ) (fun _ => Set.univ)
  simpa using this⟩

theorem family_indep (h : RandomCalls s P R N) : iIndepFun (family R N) P := by
  classical
  have hP := walk_prob h
  rw [iIndepFun_iff_measure_inter_preimage_eq_mul]
  intro S sets _
  obtain ⟨m, hm⟩ : ∃ m, ∀ i ∈ S, (∀ t, i = .inl t → t < m) ∧ ∀ k, i = .inr k → k < m := by
    refine ⟨(S.sup (fun i => Sum.elim id id i)) + 1, fun i hi => ⟨?_, ?_⟩⟩
    · rintro t rfl
      exact Nat.lt_succ_of_le (Finset.le_sup (f := fun i : Nat ⊕ Nat => Sum.elim id id i) hi)
    · rintro t rfl
      exact Nat.lt_succ_of_le (Finset.le_sup (f := fun i : Nat ⊕ Nat => Sum.elim id id i) hi)
  let A : Nat → Set Nat := fun t => if Sum.inl t ∈ S then {r | (Sum.inl r : Outcome) ∈ sets (.inl t)} else Set.univ
  let B : Nat → Set Vec := fun k => if Sum.inr k ∈ S then {r | (Sum.inr r : Outcome) ∈ sets (.inr k)} else Set.univ
  have key := h.indep m A B
  have e1 : (⋂ i ∈ S, family R N i ⁻¹' sets i) = {ω | (∀ t < m, R t ω ∈ A t) ∧ ∀ k < m, N k ω ∈ B k} := by
    ext ω
    simp only [Set.mem_iInter, Set.mem_ofPred_eq, Set.mem_preimage, A, B]
    constructor
    · intro hω
      refine ⟨fun t _ => ?_, fun k _ => ?_⟩
      · split
        · rename_i hi
          exact hω _ hi
        · trivial
      · split
        · rename_i hi
          exact hω _ hi
        · trivial
    · rintro ⟨h1, h2⟩ i hi
      cases i with
      | inl t =>
        have := h1 t ((hm _ hi).1 t rfl)
        rw [if_pos hi] at this
        exact this
      | inr k =>
        have := h2 k ((hm _ hi).2 k rfl)
        rw [if_pos hi] at this
        exact this
  have e2 : ∏ i ∈ S, P (family R N i ⁻¹' sets i) =
      (∏ t ∈ Finset.range m, P (R t ⁻¹' A t)) * ∏ k ∈ Finset.range m, P (N k ⁻¹' B k) := by
    have hS : S ⊆ (Finset.range m).disjSum (Finset.range m) := by
      intro i hi
      cases i with
      | inl t => exact Finset.inl_mem_disjSum.2 (Finset.mem_range.2 ((hm _ hi).1 t rfl))
      | inr k => exact Finset.inr_mem_disjSum.2 (Finset.mem_range.2 ((hm _ hi).2 k rfl))
    let f : Nat ⊕ Nat → ENNReal := Sum.elim (fun t => P (R t ⁻¹' A t)) (fun k => P (N k ⁻¹' B k))
    rw [show (∏ t ∈ Finset.range m, P (R t ⁻¹' A t)) * ∏ k ∈ Finset.range m, P (N k ⁻¹' B k) =
      ∏ i ∈ (Finset.range m).disjSum (Finset.range m), f i from (Finset.prod_disjSum _ _ f).symm]
    refine Eq.trans (Finset.prod_congr rfl (fun i hi => ?_)) (Finset.prod_subset hS (f := f) (fun i _ hi => ?_))
    · cases i with
      | inl t =>
        simp only [f, A, Sum.elim_inl, if_pos hi]
        rfl
      | inr k =>
        simp only [f, B, Sum.elim_inr, if_pos hi]
        rfl
    · cases i with
      | inl t => simp only [f, A, Sum.elim_inl, if_neg hi, Set.preimage_univ, measure_univ]
      | inr k => simp only [f, B, Sum.elim_inr, if_neg hi, Set.preimage_univ, measure_univ]
  rw [e1, e2, key]

/-! ## One pass -/

theorem drawn_mod {rand : Nat → Nat} {t : Nat} (hl : 0 < s.len) : drawn s rand t = rand t % s.len := by
  unfold drawn
  split
  · rfl
  · rw [show s.len = 1 from by omega, Nat.mod_one]

/-- The numbers that lead to no usable hyperparameter. -/
def badNumbers (s : Space) (v : Vec) : Set Nat := {r | usable s v (r % s.len) = false}

/-- The proportion of positions that are not usable. -/
noncomputable def beta (s : Space) (v : Vec) : ENNReal := ((Finset.range s.len).filter (fun l => usable s v l = false)).card * (s.len : ENNReal)⁻¹

theorem bad_prob (h : RandomCalls s P R N) (hl : 0 < s.len) (t : Nat) : P (R t ⁻¹' badNumbers s v) = beta s v := by
  have e : R t ⁻¹' badNumbers s v = ⋃ l ∈ (Finset.range s.len).filter (fun l => usable s v l = false), {ω | R t ω % s.len = l} := by
    ext ω
    simp only [badNumbers, Set.mem_preimage, Set.mem_ofPred_eq, Set.mem_iUnion, Finset.mem_filter, Finset.mem_range, exists_prop]
    constructor
    · intro hb
      exact ⟨_, ⟨Nat.mod_lt _ hl, hb⟩, rfl⟩
    · rintro ⟨l, ⟨-, hb⟩, rfl⟩
      exact hb
  rw [e, measure_biUnion_finset]
  · rw [Finset.sum_congr rfl (fun l hl => h.uniform t l (Finset.mem_range.1 (Finset.mem_filter.1 hl).1)), Finset.sum_const, beta, nsmul_eq_mul]
  · intro a _ b _ hab
    refine Set.disjoint_left.2 (fun ω h1 h2 => hab ?_)
    rw [← show R t ω % s.len = a from h1, ← show R t ω % s.len = b from h2]
  · intro l _
    have : MeasurableSet {r : Nat | r % s.len = l} := MeasurableSpace.measurableSet_top
    exact h.measurableR t this

theorem on_R (t : Nat) (A : Set Nat) : On (family R N) {.inl t} (R t ⁻¹' A) := by
  intro ω ω' h hω
  have := h _ (Finset.mem_singleton_self _)
  have e : R t ω = R t ω' := Sum.inl.inj this
  show R t ω' ∈ A
  rw [← e]
  exact hω

theorem on_N (k : Nat) (B : Set Vec) : On (family R N) {.inr k} (N k ⁻¹' B) := by
  intro ω ω' h hω
  have := h _ (Finset.mem_singleton_self _)
  have e : N k ω = N k ω' := Sum.inr.inj this
  show N k ω' ∈ B
  rw [← e]
  exact hω

theorem on_inter {ι α : Type} {Y : ι → Ω → α} {I J K : Finset ι} {E F : Set Ω} (hE : On Y I E) (hF : On Y J F) (hI : I ⊆ K) (hJ : J ⊆ K) :
    On Y K (E ∩ F) := fun ω ω' h hω => ⟨hE ω ω' (fun i hi => h i (hI hi)) hω.1, hF ω ω' (fun i hi => h i (hJ hi)) hω.2⟩

/-- The draws `t`, ..., `t + i - 1`. -/
def drawsOf (t i : Nat) : Finset (Nat ⊕ Nat) := (Finset.Ico t (t + i)).map ⟨Sum.inl, Sum.inl_injective⟩

theorem mem_drawsOf {t i : Nat} {x : Nat ⊕ Nat} : x ∈ drawsOf t i ↔ ∃ j, t ≤ j ∧ j < t + i ∧ x = .inl j := by
  simp only [drawsOf, Finset.mem_map, Finset.mem_Ico, Function.Embedding.coeFn_mk]
  constructor
  · rintro ⟨j, ⟨h1, h2⟩, rfl⟩
    exact ⟨j, h1, h2, rfl⟩
  · rintro ⟨j, h1, h2, rfl⟩
    exact ⟨j, ⟨h1, h2⟩, rfl⟩

/-- The first `i` draws from `t` on lead to nothing usable. -/
def Misses (s : Space) (v : Vec) (R : Nat → Ω → Nat) (t i : Nat) : Set Ω := {ω | ∀ j < i, R (t + j) ω ∈ badNumbers s v}

theorem on_misses (t i : Nat) : On (family R N) (drawsOf t i) (Misses s v R t i) := by
  intro ω ω' h hω j hj
  have e : R (t + j) ω = R (t + j) ω' := Sum.inl.inj (h (.inl (t + j)) (mem_drawsOf.2 ⟨t + j, by omega, by omega, rfl⟩))
  rw [← e]
  exact hω j hj

theorem misses_prob (h : RandomCalls s P R N) (hl : 0 < s.len) (t : Nat) : ∀ i, P (Misses s v R t i) = beta s v ^ i
  | 0 => by
    have hP := walk_prob h
    rw [show Misses s v R t 0 = Set.univ from Set.eq_univ_of_forall (fun ω j hj => by omega), measure_univ, pow_zero]
  | i + 1 => by
    have e : Misses s v R t (i + 1) = Misses s v R t i ∩ R (t + i) ⁻¹' badNumbers s v := by
      ext ω
      constructor
      · intro hω
        exact ⟨fun j hj => hω j (by omega), hω i (by omega)⟩
      · rintro ⟨h1, h2⟩ j hj
        rcases Nat.lt_succ_iff_lt_or_eq.1 hj with hj | rfl
        · exact h1 j hj
        · exact h2
    have hd : Disjoint (drawsOf t i) {.inl (t + i)} := by
      rw [Finset.disjoint_singleton_right, mem_drawsOf]
      rintro ⟨j, h1, h2, e⟩
      cases e
      omega
    rw [e, on_indep (family_measurable h) (family_indep h) hd (on_misses t i) (on_R _ _), misses_prob h hl t i, bad_prob h hl, pow_succ]

/-- The proposals with which position `l` leads into `S`. -/
def intoSet (s : Space) (v : Vec) (d : Dict) (S : Set Config) (l : Nat) : Set Vec :=
  {u | usable s v l = true ∧ ∃ c ∈ S, Pass s d l u (.found c)}

/-- The pass from `t`, `k` misses `i` times, then draws `l`, and leads into `S`. -/
def Hit (s : Space) (v : Vec) (d : Dict) (S : Set Config) (R : Nat → Ω → Nat) (N : Nat → Ω → Vec) (t k i l : Nat) : Set Ω :=
  (Misses s v R t i ∩ R (t + i) ⁻¹' {r | r % s.len = l}) ∩ N k ⁻¹' intoSet s v d S l

/-- The calls made in the pass from `t`, `k`. -/
def callsOf (t k m : Nat) : Finset (Nat ⊕ Nat) := insert (.inr k) (drawsOf t m)

theorem drawsOf_mono {t i m : Nat} (hi : i ≤ m) : drawsOf t i ⊆ drawsOf t m := by
  intro x hx
  obtain ⟨j, h1, h2, rfl⟩ := mem_drawsOf.1 hx
  exact mem_drawsOf.2 ⟨j, h1, by omega, rfl⟩

theorem on_miss_draw (t i l : Nat) : On (family R N) (drawsOf t (i + 1)) (Misses s v R t i ∩ R (t + i) ⁻¹' {r | r % s.len = l}) :=
  on_inter (on_misses t i) (on_R _ _) (drawsOf_mono (by omega)) (by
    rw [Finset.singleton_subset_iff, mem_drawsOf]
    exact ⟨t + i, by omega, by omega, rfl⟩)

theorem on_hit {S : Set Config} {t k i l m : Nat} (hi : i < m) : On (family R N) (callsOf t k m) (Hit s v d S R N t k i l) :=
  on_inter (on_miss_draw t i l) (on_N _ _) (fun _ hx => Finset.mem_insert_of_mem (drawsOf_mono (by omega) hx))
    (by rw [Finset.singleton_subset_iff]; exact Finset.mem_insert_self _ _)

theorem hit_prob (h : RandomCalls s P R N) {S : Set Config} {t k i l : Nat} (hl : l < s.len) :
    P (Hit s v d S R N t k i l) = beta s v ^ i * (s.len : ENNReal)⁻¹ * P (N 0 ⁻¹' intoSet s v d S l) := by
  have hd : Disjoint (drawsOf t i) {.inl (t + i)} := by
    rw [Finset.disjoint_singleton_right, mem_drawsOf]
    rintro ⟨j, h1, h2, e⟩
    cases e
    omega
  have hd2 : Disjoint (drawsOf t (i + 1)) {.inr k} := by
    rw [Finset.disjoint_singleton_right, mem_drawsOf]
    rintro ⟨j, h1, h2, e⟩
    cases e
  unfold Hit
  rw [on_indep (family_measurable h) (family_indep h) hd2 (on_miss_draw t i l) (on_N _ _),
    on_indep (family_measurable h) (family_indep h) hd (on_misses t i) (on_R _ _), misses_prob h (by omega), h.alike k]
  congr 2
  exact h.uniform _ _ hl

/-- The number of draws of a pass. -/
def tries : Nat := 10000

theorem tries_eq : tries = 10000 := rfl

attribute [irreducible] tries

theorem finds_eq {S : Set Config} {t k : Nat} (hl : 0 < s.len) : {ω | Finds s v d S (fun t => R t ω) (fun k => N k ω) t k} =
    ⋃ p ∈ (Finset.range tries) ×ˢ (Finset.range s.len), Hit s v d S R N t k p.1 p.2 := by
  ext ω
  simp only [Set.mem_iUnion, Finset.mem_product, Finset.mem_range, Set.mem_ofPred_eq, Finds, Hit, Misses, intoSet, Set.mem_inter_iff,
    Set.mem_preimage, badNumbers, drawn_mod hl, exists_prop, Prod.exists, tries_eq]
  constructor
  · rintro ⟨i, hi, h1, h2, c, hc, h3⟩
    exact ⟨i, R (t + i) ω % s.len, ⟨hi, Nat.mod_lt _ hl⟩, ⟨h1, rfl⟩, h2, c, hc, h3⟩
  · rintro ⟨i, l, ⟨hi, -⟩, ⟨h1, rfl⟩, h2, c, hc, h3⟩
    exact ⟨i, hi, h1, h2, c, hc, h3⟩

/-- The probability that a pass, looking at its number of missed draws, succeeds. -/
noncomputable def gain (s : Space) (v : Vec) : ENNReal := (∑ i ∈ Finset.range tries, beta s v ^ i) * (s.len : ENNReal)⁻¹

theorem hit_disjoint {S S' : Set Config} {t k : Nat} {p q : Nat × Nat} (hpq : p ≠ q) :
    Disjoint (Hit s v d S R N t k p.1 p.2) (Hit s v d S' R N t k q.1 q.2) := by
  refine Set.disjoint_left.2 ?_
  rintro ω ⟨⟨a1, a2⟩, a3⟩ ⟨⟨b1, b2⟩, b3⟩
  have e1 : R (t + p.1) ω % s.len = p.2 := a2
  have e2 : R (t + q.1) ω % s.len = q.2 := b2
  have u1 : usable s v p.2 = true := a3.1
  have u2 : usable s v q.2 = true := b3.1
  rcases Nat.lt_trichotomy p.1 q.1 with hlt | heq | hlt
  · have : usable s v (R (t + p.1) ω % s.len) = false := b1 _ hlt
    rw [e1, u1] at this
    cases this
  · refine hpq (Prod.ext heq ?_)
    rw [← e1, ← e2, heq]
  · have : usable s v (R (t + q.1) ω % s.len) = false := a1 _ hlt
    rw [e2, u2] at this
    cases this

theorem finds_prob (h : RandomCalls s P R N) (hl : 0 < s.len) {S : Set Config} {t k : Nat} :
    P {ω | Finds s v d S (fun t => R t ω) (fun k => N k ω) t k} =
      gain s v * ∑ l ∈ Finset.range s.len, P (N 0 ⁻¹' intoSet s v d S l) := by
  rw [finds_eq hl, measure_biUnion_finset]
  · rw [Finset.sum_product, gain, Finset.sum_mul, Finset.sum_mul]
    refine Finset.sum_congr rfl (fun i _ => ?_)
    rw [Finset.mul_sum]
    exact Finset.sum_congr rfl (fun l hl => hit_prob h (Finset.mem_range.1 hl))
  · exact fun p _ q _ hpq => hit_disjoint hpq
  · intro p hp
    exact on_measurable (family_measurable h) (on_hit (m := p.1 + 1) (by omega))

theorem on_finds {S : Set Config} (hl : 0 < s.len) (t k : Nat) :
    On (family R N) (callsOf t k tries) {ω | Finds s v d S (fun t => R t ω) (fun k => N k ω) t k} := by
  intro ω ω' h hω
  rw [finds_eq hl] at hω ⊢
  simp only [Set.mem_iUnion, exists_prop] at hω ⊢
  obtain ⟨p, hp, hω⟩ := hω
  exact ⟨p, hp, on_hit (Finset.mem_range.1 (Finset.mem_product.1 hp).1) ω ω' h hω⟩

/-! ## All passes -/

/-- After `n` rejected passes, `t` draws are made. -/
def Runs (s : Space) (v : Vec) (d : Dict) (R : Nat → Ω → Nat) (N : Nat → Ω → Vec) (n t : Nat) : Set Ω :=
  {ω | run s v d (fun t => R t ω) (fun k => N k ω) n = some t}

/-- The calls made before pass `n` if `t` draws are made. -/
def callsBefore (t n : Nat) : Finset (Nat ⊕ Nat) := (Finset.range t).disjSum (Finset.range n)

theorem on_runs (n t : Nat) : On (family R N) (callsBefore t n) (Runs s v d R N n t) := by
  intro ω ω' h hω
  refine run_congr (fun j hj => ?_) (fun k hk => ?_) hω
  · exact Sum.inl.inj (h (.inl j) (Finset.inl_mem_disjSum.2 (Finset.mem_range.2 hj)))
  · exact Sum.inr.inj (h (.inr k) (Finset.inr_mem_disjSum.2 (Finset.mem_range.2 hk)))

theorem before_disjoint (t n m : Nat) : Disjoint (callsBefore t n) (callsOf t n m) := by
  rw [Finset.disjoint_left]
  intro x hx hy
  rcases Finset.mem_insert.1 hy with rfl | hy
  · exact absurd (Finset.mem_range.1 (Finset.inr_mem_disjSum.1 hx)) (by omega)
  · obtain ⟨j, h1, h2, rfl⟩ := mem_drawsOf.1 hy
    exact absurd (Finset.mem_range.1 (Finset.inl_mem_disjSum.1 hx)) (by omega)

/-- The expected number of passes. -/
noncomputable def passes (s : Space) (v : Vec) (d : Dict) (P : Measure Ω) (R : Nat → Ω → Nat) (N : Nat → Ω → Vec) : ENNReal :=
  ∑' p : Nat × Nat, P (Runs s v d R N p.1 p.2)

theorem finds_ends {S : Set Config} {rand : Nat → Nat} {u : Nat → Vec} {t k : Nat} (h : Finds s v d S rand u t k) : step s v d rand u t k = none := by
  cases hs : step s v d rand u t k with
  | none => rfl
  | some t' =>
    exfalso
    obtain ⟨i, hi, rfl, h1, h2, h3⟩ := step_iff.1 hs
    obtain ⟨i', hi', k1, k2, c, hc, k3⟩ := h
    have : i = i' := by
      rcases Nat.lt_trichotomy i i' with hlt | heq | hlt
      · rw [k1 i hlt] at h2
        cases h2
      · exact heq
      · rw [h1 i' hlt] at k2
        cases k2
    subst this
    cases k3 with
    | mk a b e f =>
      unfold again at h3
      simp only [a, b, e, f] at h3
      cases h3

theorem run_stays {rand : Nat → Nat} {u : Nat → Vec} {n : Nat} (h : run s v d rand u n = none) : ∀ m, run s v d rand u (n + m) = none
  | 0 => h
  | m + 1 => by
    rw [← Nat.add_assoc, run, run_stays h m]
    rfl

/-- The loop finds a configuration in `S`. -/
theorem found_prob (h : RandomCalls s P R N) (hl : 0 < s.len) {S : Set Config} :
    P {ω | ∃ n t, run s v d (fun t => R t ω) (fun k => N k ω) n = some t ∧ Finds s v d S (fun t => R t ω) (fun k => N k ω) t n} =
      passes s v d P R N * (gain s v * ∑ l ∈ Finset.range s.len, P (N 0 ⁻¹' intoSet s v d S l)) := by
  have e : {ω | ∃ n t, run s v d (fun t => R t ω) (fun k => N k ω) n = some t ∧ Finds s v d S (fun t => R t ω) (fun k => N k ω) t n} =
      ⋃ p : Nat × Nat, Runs s v d R N p.1 p.2 ∩ {ω | Finds s v d S (fun t => R t ω) (fun k => N k ω) p.2 p.1} := by
    ext ω
    simp only [Set.mem_ofPred_eq, Set.mem_iUnion, Set.mem_inter_iff, Prod.exists, Runs]
  rw [e, measure_iUnion]
  · rw [passes, ← ENNReal.tsum_mul_right]
    refine tsum_congr (fun p => ?_)
    rw [on_indep (family_measurable h) (family_indep h) (before_disjoint p.2 p.1 tries) (on_runs _ _) (on_finds hl _ _), finds_prob h hl]
  · rintro ⟨n, t⟩ ⟨n', t'⟩ hne
    refine Set.disjoint_left.2 ?_
    rintro ω ⟨a1, a2⟩ ⟨b1, b2⟩
    have a1 : run s v d (fun t => R t ω) (fun k => N k ω) n = some t := a1
    have b1 : run s v d (fun t => R t ω) (fun k => N k ω) n' = some t' := b1
    have stop : ∀ {n t n' t' : Nat}, run s v d (fun t => R t ω) (fun k => N k ω) n = some t →
        Finds s v d S (fun t => R t ω) (fun k => N k ω) t n → run s v d (fun t => R t ω) (fun k => N k ω) n' = some t' → ¬ n < n' := by
      intro n t n' t' h1 h2 h3 hlt
      have : run s v d (fun t => R t ω) (fun k => N k ω) (n + 1) = none := by
        rw [run, h1]
        exact finds_ends h2
      have := run_stays this (n' - (n + 1))
      rw [show n + 1 + (n' - (n + 1)) = n' from by omega, h3] at this
      cases this
    have e : n = n' := by
      have := stop a1 a2 b1
      have := stop b1 b2 a1
      omega
    subst e
    rw [a1] at b1
    cases b1
    exact hne rfl
  · intro p
    exact (on_measurable (family_measurable h) (on_runs _ _)).inter (on_measurable (family_measurable h) (on_finds hl _ _))

theorem one_le_passes (h : RandomCalls s P R N) : 1 ≤ passes s v d P R N := by
  have hP := walk_prob h
  refine le_trans ?_ (ENNReal.le_tsum (0, 0))
  rw [show Runs s v d R N (0, 0).1 (0, 0).2 = Set.univ from Set.eq_univ_of_forall (fun ω => rfl), measure_univ]

theorem gain_pos (hl : 0 < s.len) : gain s v ≠ 0 := by
  unfold gain
  refine mul_ne_zero ?_ (ENNReal.inv_ne_zero.2 (ENNReal.natCast_ne_top _))
  have : (1 : ENNReal) ≤ ∑ i ∈ Finset.range tries, beta s v ^ i := by
    refine le_trans ?_ (Finset.single_le_sum (f := fun i => beta s v ^ i) (fun _ _ => zero_le) (Finset.mem_range.2 (show 0 < tries by rw [tries_eq]; omega)))
    simp
  exact fun e => absurd this (by rw [e]; simp)

/-- If a pass succeeds with positive probability, the loop does not run forever. -/
theorem forever_zero (h : RandomCalls s P R N) (hl : 0 < s.len) (hq : ∑ l ∈ Finset.range s.len, P (N 0 ⁻¹' intoSet s v d Set.univ l) ≠ 0) :
    P {ω | ∀ n, ∃ t, run s v d (fun t => R t ω) (fun k => N k ω) n = some t} = 0 := by
  have hP := walk_prob h
  have hfin : passes s v d P R N ≠ ⊤ := by
    intro e
    have h1 := found_prob (v := v) (d := d) h hl (S := Set.univ)
    rw [e, ENNReal.top_mul (mul_ne_zero (gain_pos hl) hq)] at h1
    exact absurd (h1 ▸ prob_le_one) (by simp)
  unfold passes at hfin
  rw [ENNReal.tsum_prod (f := fun n t => P (Runs s v d R N n t))] at hfin
  have hlim := ENNReal.tendsto_atTop_zero_of_tsum_ne_top hfin
  refine le_antisymm (ge_of_tendsto' hlim (fun n => ?_)) zero_le
  refine le_trans (measure_mono (t := ⋃ t, Runs s v d R N n t) (fun ω hω => ?_)) (measure_iUnion_le _)
  obtain ⟨t, ht⟩ := hω n
  exact Set.mem_iUnion.2 ⟨t, ht⟩

/-! ## Giving up -/

theorem pickActive_none_iff {rand : Nat → Nat} : ∀ {m t : Nat}, pickActive s v rand m t = none → ∀ j < m, usable s v (drawn s rand (t + j)) = false := by
  intro m t h j hj
  by_contra hu
  have hu : usable s v (drawn s rand (t + j)) = true := by simpa using hu
  have hex : ∃ i, usable s v (drawn s rand (t + i)) = true := ⟨j, hu⟩
  classical
  have h2 := Nat.find_spec hex
  have hle : Nat.find hex ≤ j := Nat.find_min' hex hu
  have : ∃ x, s.com[drawn s rand (t + Nat.find hex)]? = some x := by
    unfold usable at h2
    split at h2
    · cases h2
    · exact ⟨_, by assumption⟩
  obtain ⟨x, hx⟩ := this
  rw [pickActive_iff.2 ⟨Nat.find hex, by omega, rfl, fun k hk => by simpa using Nat.find_min hex hk, h2, hx⟩] at h
  cases h

theorem randomLoop_stuck {rand : Nat → Nat} {u : Nat → Vec} : ∀ (fuel t k : Nat), randomLoop s v d rand (proposals s u) fuel t k = some .stuck →
    ∃ n t', runFrom s v d rand u n t k = some t' ∧ ∀ j < 10000, usable s v (drawn s rand (t' + j)) = false
  | 0, t, k, h => by cases h
  | fuel + 1, t, k, h => by
    rw [randomLoop_succ] at h
    cases hp : pickActive s v rand 10000 t with
    | none => exact ⟨0, t, rfl, pickActive_none_iff hp⟩
    | some p =>
      obtain ⟨x, t1⟩ := p
      rw [hp] at h
      simp only at h
      obtain ⟨i, hi, rfl, h1, h2, h3⟩ := pickActive_iff.1 hp
      cases hu : (u k).at (s.idx x.name) with
      | none => rw [hu] at h; cases h
      | some q =>
        rw [hu] at h
        simp only at h
        cases ht : x.hp.kind.toVal q with
        | none => rw [ht] at h; cases h
        | some w =>
          rw [ht] at h
          simp only at h
          cases hc : Config.ofValues s (dictSet d x.name (some w)) with
          | ok c => rw [hc] at h; cases h
          | error e =>
            rw [hc] at h
            simp only at h
            split at h
            · rename_i hv
              obtain ⟨n, t', k1, k2⟩ := randomLoop_stuck fuel _ _ h
              refine ⟨n + 1, t', ?_, k2⟩
              rw [runFrom, step_iff.2 ⟨i, hi, rfl, h1, h2, by unfold again; simp only [h3, hu, ht, hc, hv]⟩]
              exact k1
            · cases h

theorem stuck_prob (h : RandomCalls s P R N) (hl : 0 < s.len) :
    P {ω | ∃ n t, run s v d (fun t => R t ω) (fun k => N k ω) n = some t ∧ ω ∈ Misses s v R t tries} ≤ passes s v d P R N * beta s v ^ tries := by
  have e : {ω | ∃ n t, run s v d (fun t => R t ω) (fun k => N k ω) n = some t ∧ ω ∈ Misses s v R t tries} =
      ⋃ p : Nat × Nat, Runs s v d R N p.1 p.2 ∩ Misses s v R p.2 tries := by
    ext ω
    simp only [Set.mem_ofPred_eq, Set.mem_iUnion, Set.mem_inter_iff, Prod.exists, Runs]
  rw [e, passes, ← ENNReal.tsum_mul_right]
  refine le_trans (measure_iUnion_le _) (ENNReal.tsum_le_tsum (fun p => ?_))
  rw [on_indep (family_measurable h) (family_indep h) (before_disjoint p.2 p.1 tries) (on_runs _ _)
    (fun ω ω' hω => on_misses p.2 tries ω ω' (fun i hi => hω i (Finset.mem_insert_of_mem hi))), misses_prob h hl]

theorem beta_le {l : Nat} (hl : l < s.len) (hu : usable s v l = true) : beta s v ≤ 1 - (s.len : ENNReal)⁻¹ := by
  refine ENNReal.le_sub_of_add_le_right (ENNReal.inv_ne_top.2 (by simp; omega)) ?_
  have hcard : ((Finset.range s.len).filter (fun l => usable s v l = false)).card + 1 ≤ s.len := by
    have : ((Finset.range s.len).filter (fun l => usable s v l = false)).card < (Finset.range s.len).card := by
      refine Finset.card_lt_card (Finset.filter_ssubset.2 ⟨l, Finset.mem_range.2 hl, by simp [hu]⟩)
    rw [Finset.card_range] at this
    exact this
  unfold beta
  calc _ = (((((Finset.range s.len).filter (fun l => usable s v l = false)).card + 1 : Nat)) : ENNReal) * (s.len : ENNReal)⁻¹ := by
        rw [Nat.cast_add, Nat.cast_one, add_mul, one_mul]
    _ ≤ (s.len : ENNReal) * (s.len : ENNReal)⁻¹ := by gcongr
    _ = 1 := ENNReal.mul_inv_cancel (by simp; omega) (ENNReal.natCast_ne_top _)

theorem inv_le_gain : (s.len : ENNReal)⁻¹ ≤ gain s v := by
  unfold gain
  have : (1 : ENNReal) ≤ ∑ i ∈ Finset.range tries, beta s v ^ i := by
    refine le_trans ?_ (Finset.single_le_sum (f := fun i => beta s v ^ i) (fun _ _ => zero_le) (Finset.mem_range.2 (show 0 < tries by rw [tries_eq]; omega)))
    simp
  calc (s.len : ENNReal)⁻¹ = 1 * (s.len : ENNReal)⁻¹ := (one_mul _).symm
    _ ≤ _ := by gcongr

theorem stuck_bound (h : RandomCalls s P R N) {l : Nat} (hl : l < s.len) (hu : usable s v l = true) :
    P {ω | ∃ n t, run s v d (fun t => R t ω) (fun k => N k ω) n = some t ∧ ω ∈ Misses s v R t tries} *
      ∑ l ∈ Finset.range s.len, P (N 0 ⁻¹' intoSet s v d Set.univ l) ≤ s.len * (1 - (s.len : ENNReal)⁻¹) ^ tries := by
  have hP := walk_prob h
  have hlen : (s.len : ENNReal) ≠ 0 := by simp; omega
  have h1 := found_prob (v := v) (d := d) h (by omega) (S := Set.univ)
  have h2 : passes s v d P R N * ((s.len : ENNReal)⁻¹ * ∑ l ∈ Finset.range s.len, P (N 0 ⁻¹' intoSet s v d Set.univ l)) ≤ 1 := by
    refine le_trans ?_ (h1 ▸ prob_le_one)
    gcongr
    exact inv_le_gain
  have h3 : passes s v d P R N * ∑ l ∈ Finset.range s.len, P (N 0 ⁻¹' intoSet s v d Set.univ l) ≤ s.len := by
    calc _ = (s.len : ENNReal) * (passes s v d P R N * ((s.len : ENNReal)⁻¹ * ∑ l ∈ Finset.range s.len, P (N 0 ⁻¹' intoSet s v d Set.univ l))) := by
          rw [mul_left_comm, ← mul_assoc (s.len : ENNReal), ENNReal.mul_inv_cancel hlen (ENNReal.natCast_ne_top _), one_mul]
      _ ≤ (s.len : ENNReal) * 1 := by gcongr
      _ = _ := mul_one _
  calc _ ≤ (passes s v d P R N * beta s v ^ tries) * ∑ l ∈ Finset.range s.len, P (N 0 ⁻¹' intoSet s v d Set.univ l) := by
        gcongr
        exact stuck_prob h (by omega)
    _ = (passes s v d P R N * ∑ l ∈ Finset.range s.len, P (N 0 ⁻¹' intoSet s v d Set.univ l)) * beta s v ^ tries := by
        rw [mul_right_comm]
    _ ≤ s.len * (1 - (s.len : ENNReal)⁻¹) ^ tries := by
        gcongr
        exact beta_le hl hu

end Verif.Walk
