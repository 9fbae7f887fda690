import Verif.Lemmas.Fair
import Mathlib.Probability.Independence.InfinitePi

/-!
# Lemmas: random draws exist, for any distributions of the hyperparameters
-/

set_option autoImplicit false

namespace Verif.Fair
open Verif Verif.Spec MeasureTheory ProbabilityTheory

variable {calls : List Call} {s : Space}

noncomputable section

/-- The vector with the given entries. -/
def vecOf {n : Nat} (g : Fin n → Rat) : Vec := List.ofFn (fun i => some (g i))

theorem vecOf_at {n : Nat} (g : Fin n → Rat) (i : Fin n) : (vecOf g).at i = some (g i) := by
  simp [vecOf, Vec.at]

theorem vecOf_ge {n : Nat} (g : Fin n → Rat) {i : Nat} (h : n ≤ i) : (vecOf g).at i = none := by
  rw [Vec.at, List.getD_eq_getElem?_getD, List.getElem?_eq_none (by simpa [vecOf] using h)]
  rfl

variable (n : Nat) (ν : Fin n → Measure Rat)

/-- Infinitely many rows of `n` independent values. -/
def lawOf [∀ i, IsProbabilityMeasure (ν i)] : Measure (Nat × Nat → (Fin n → Rat)) := Measure.infinitePi (fun _ => Measure.pi ν)

variable [∀ i, IsProbabilityMeasure (ν i)]

theorem law_one (A : Set (Fin n → Rat)) (p : Nat × Nat) : lawOf n ν ((fun ω => ω p) ⁻¹' A) = Measure.pi ν A := by
  have h := Measure.infinitePi_map_eval (fun _ : Nat × Nat => Measure.pi ν) p
  rw [← h, Measure.map_apply (measurable_pi_apply p) (Set.to_countable A).measurableSet]
  rfl

variable (fix : Fin n → Rat → Rat)

/-- One entry. -/
theorem entry_law (i : Fin n) (S : Set Rat) : Measure.pi ν {g | fix i (g i) ∈ S} = ν i {q | fix i q ∈ S} := by
  have h := (measurePreserving_eval ν i).map_eq
  conv_rhs => rw [← h]
  rw [Measure.map_apply (measurable_pi_apply i) (Set.to_countable _).measurableSet]
  rfl

theorem entries_indep : IndependentEntries (Measure.pi ν) (fun g => vecOf (fun i => fix i (g i))) := by
  intro I w
  have hind : iIndepFun (fun (i : Fin n) (g : Fin n → Rat) => fix i (g i)) (Measure.pi ν) :=
    iIndepFun_pi (fun i => (measurable_of_countable _).aemeasurable)
  by_cases hbad : ∃ i ∈ I, n ≤ i ∧ w i ≠ none
  · obtain ⟨i, hi, hn, hw⟩ := hbad
    have e : {g : Fin n → Rat | (vecOf (fun i => fix i (g i))).at i = w i} = ∅ := by
      ext g
      simp only [Set.mem_ofPred_eq, Set.mem_empty_iff_false, iff_false, vecOf_ge _ hn]
      exact fun h => hw h.symm
    rw [Finset.prod_eq_zero hi (by rw [e, measure_empty])]
    refine measure_mono_null (t := ∅) (fun g hg => ?_) measure_empty
    rw [← e]
    exact hg i hi
  · push Not at hbad
    have hone : ∀ i ∈ I, ¬ i < n → Measure.pi ν {g : Fin n → Rat | (vecOf (fun i => fix i (g i))).at i = w i} = 1 := by
      intro i hi hn
      have e : {g : Fin n → Rat | (vecOf (fun i => fix i (g i))).at i = w i} = Set.univ := by
        ext g
        simp only [Set.mem_ofPred_eq, Set.mem_univ, iff_true, vecOf_ge _ (not_lt.1 hn), hbad i hi (not_lt.1 hn)]
      rw [e, measure_univ]
    rw [← Finset.prod_filter_mul_prod_filter_not I (fun i => i < n)]
    rw [Finset.prod_eq_one (s := I.filter (fun i => ¬ i < n)) (fun i hi => hone i (Finset.mem_filter.1 hi).1 (Finset.mem_filter.1 hi).2), mul_one]
    let J : Finset (Fin n) := Finset.univ.filter (fun k => k.1 ∈ I)
    have hJ : I.filter (fun i => i < n) = J.map Fin.valEmbedding := by
      ext i
      simp only [Finset.mem_filter, Finset.mem_map, J, Finset.mem_univ, true_and, Fin.valEmbedding_apply]
      constructor
      · rintro ⟨h1, h2⟩
        exact ⟨⟨i, h2⟩, h1, rfl⟩
      · rintro ⟨k, hk, rfl⟩
        exact ⟨hk, k.2⟩
    rw [hJ, Finset.prod_map]
    have := hind.measure_inter_preimage_eq_mul J (sets := fun k => {q | some q = w k}) (fun k _ => (Set.to_countable _).measurableSet)
    refine Eq.trans ?_ (this.trans (Finset.prod_congr rfl (fun k _ => ?_)))
    · congr 1
      ext g
      simp only [Set.mem_ofPred_eq, Set.mem_iInter, Set.mem_preimage]
      constructor
      · intro h k hk
        rw [← h k (Finset.mem_filter.1 hk).2, vecOf_at]
      · intro h i hi
        by_cases hn : i < n
        · rw [← h ⟨i, hn⟩ (Finset.mem_filter.2 ⟨Finset.mem_univ _, hi⟩), vecOf_at _ ⟨i, hn⟩]
        · rw [vecOf_ge _ (not_lt.1 hn), hbad i hi (not_lt.1 hn)]
    · congr 1
      ext g
      simp [vecOf_at]

end

theorem draws_exist (h : Reach calls s) (μ : HP → Measure Rat) (hp : ∀ x ∈ allHps calls, IsProbabilityMeasure (μ x))
    (hl : ∀ x ∈ allHps calls, μ x {q | ¬ x.kind.legalVec q = true} = 0) :
    ∃ (Ω : Type) (_ : MeasurableSpace Ω) (P : Measure Ω) (X : Nat × Nat → Ω → Vec), IidDraws calls s P X ∧
      IndependentEntries P (X (0, 0)) ∧
      ∀ x ∈ allHps calls, ∀ i, At s.names i x.name → ∀ q, P {ω | (X (0, 0) ω).at i = some q} = μ x {q} := by
  let ν : Fin s.com.length → Measure Rat := fun i => μ s.com[i].hp
  have hpν : ∀ i, IsProbabilityMeasure (ν i) := fun i => hp _ (node_hp h (List.getElem_mem i.2))
  let fix : Fin s.com.length → Rat → Rat := fun i q => if s.com[i].hp.kind.legalVec q = true then q else s.com[i].hp.defVec
  have hfix : ∀ (i : Fin s.com.length) (q : Rat), (s.com[i] : Node).hp.kind.legalVec (fix i q) = true := by
    intro i q
    simp only [fix]
    split
    · assumption
    · exact defVec_legal (node_wf h (List.getElem_mem i.2))
  let X : Nat × Nat → (Nat × Nat → (Fin s.com.length → Rat)) → Vec := fun p ω => vecOf (fun i => fix i (ω p i))
  have hmX : Measurable (fun g : Fin s.com.length → Rat => vecOf (fun i => fix i (g i))) := measurable_of_countable _
  have hlaw : ∀ p (A : Set (Fin s.com.length → Rat)), lawOf s.com.length ν ((fun ω => ω p) ⁻¹' A) = Measure.pi ν A := fun p A =>
    law_one _ ν A p
  have hpos : ∀ x ∈ allHps calls, ∀ i, At s.names i x.name → ∃ hi : i < s.com.length, s.com[i].hp = x := by
    intro x hx i hat
    have hidx : s.idx x.name = i := idx_unique (reach_ninv h).nodup hat
    obtain ⟨y, hy, e, -⟩ := Scaled.com_at h hx
    rw [hidx] at hy
    obtain ⟨hi, rfl⟩ := List.getElem?_eq_some_iff.1 hy
    exact ⟨hi, e⟩
  refine ⟨_, inferInstance, lawOf s.com.length ν, X, ⟨fun p => hmX.comp (measurable_pi_apply p), ?_, ?_, ?_⟩, ?_, ?_⟩
  · exact iIndepFun_infinitePi (X := fun _ (g : Fin s.com.length → Rat) => vecOf (fun i => fix i (g i))) (fun _ => hmX)
  · intro p q S
    rw [show X p ⁻¹' S = (fun ω => ω p) ⁻¹' ((fun g : Fin s.com.length → Rat => vecOf (fun i => fix i (g i))) ⁻¹' S) from rfl,
      show X q ⁻¹' S = (fun ω => ω q) ⁻¹' ((fun g : Fin s.com.length → Rat => vecOf (fun i => fix i (g i))) ⁻¹' S) from rfl, hlaw, hlaw]
  · refine fun p ω => ⟨by simp [X, vecOf, (sinv_of_reach h).len], fun x hx i hat => ?_⟩
    obtain ⟨hi, rfl⟩ := hpos x hx i hat
    exact ⟨_, vecOf_at _ ⟨i, hi⟩, hfix ⟨i, hi⟩ _⟩
  · intro I w
    have e := entries_indep s.com.length ν fix I w
    rw [← hlaw (0, 0)] at e
    refine e.trans (Finset.prod_congr rfl (fun i _ => ?_))
    rw [← hlaw (0, 0)]
    rfl
  · intro x hx i hat q
    obtain ⟨hi, rfl⟩ := hpos x hx i hat
    have e := entry_law s.com.length ν fix ⟨i, hi⟩ {q}
    rw [← hlaw (0, 0)] at e
    have e2 : {ω | (X (0, 0) ω).at i = some q} = (fun ω : Nat × Nat → (Fin s.com.length → Rat) => ω (0, 0)) ⁻¹' {g | fix ⟨i, hi⟩ (g ⟨i, hi⟩) ∈ ({q} : Set Rat)} := by
      ext ω
      simp only [Set.mem_ofPred_eq, Set.mem_preimage, Set.mem_singleton_iff, X, vecOf_at _ ⟨i, hi⟩, Option.some.injEq]
    rw [e2, e]
    refine measure_congr ?_
    refine Filter.eventuallyEq_set.2 ?_
    have hnull : ∀ᵐ r ∂(μ s.com[i].hp), s.com[i].hp.kind.legalVec r = true := by
      rw [ae_iff]
      exact hl _ hx
    filter_upwards [hnull] with r hr
    simp only [fix, Set.mem_singleton_iff, Fin.getElem_fin]
    rw [if_pos hr]

end Verif.Fair
