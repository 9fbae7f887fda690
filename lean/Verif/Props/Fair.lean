import Verif.Lemmas.FairLaw
import Verif.Lemmas.FairExist

/-!
# C95, C96, C97: which configurations are sampled how often, and whether sampling ends

The draws of the random generator are random variables: independent, with the same distribution, and legal.  Nothing else is assumed
about their distribution (within a draw the values of different hyperparameters need not even be independent).
-/

set_option autoImplicit false

namespace Verif.Fair
open Verif Verif.Spec MeasureTheory ProbabilityTheory

variable {calls : List Call} {s : Space} {Ω : Type} [MeasurableSpace Ω] {P : Measure Ω} {X : Nat × Nat → Ω → Vec}

theorem made_makes (calls : List Call) (s : Space) : Makes calls s (fun T => {u | okCol s u = true ∧ maskCol s u ∈ T}) := fun _ _ _ => Iff.rfl

/-- **C95.**  Whatever the space and the distribution of the draws are: the `n` configurations that a call returns are independent, and
each of them is distributed like the configuration that is returned by a call for one: for any sets `S 0`, `S 1`, ... the probability
that the call returns results in these sets is the product of the probabilities that a call for one configuration returns one in
`S 0`, in `S 1`, ... -/
theorem C95_independent_and_alike (h : Reach calls s) (hX : IidDraws calls s P X) (size : Option Int) (S : Nat → Set Vec) :
    P {ω | Delivers s (fun p => X p ω) size S} =
      ∏ k ∈ Finset.range (size.getD 1).toNat, P {ω | Delivers s (fun p => X p ω) none (fun _ => S k)} := by
  have hP : IsProbabilityMeasure P := hX.indep.isProbabilityMeasure
  have hM := made_makes calls s
  by_cases hQ : P {ω | X (0, 0) ω ∈ {u | okCol s u = true ∧ maskCol s u ∈ (Set.univ : Set Vec)}} = 0
  · by_cases hn : 1 ≤ size.getD 1
    · rw [never_ends h hX hM size hn hQ S]
      exact (Finset.prod_eq_zero (Finset.mem_range.2 (show 0 < (size.getD 1).toNat by omega))
        (never_ends h hX hM none (by decide) hQ _)).symm
    · have hz : (size.getD 1).toNat = 0 := by omega
      rw [hz, Finset.prod_range_zero]
      rw [show {ω | Delivers s (fun p => X p ω) size S} = Set.univ by
        ext ω
        simp only [Set.mem_ofPred_eq, Set.mem_univ, iff_true]
        obtain ⟨r, hr, -⟩ := sure_return (s := s) (size := size) (.inr (by omega)) (t := fun p => X p ω) (fuel := 0)
        refine ⟨0, r, hr, fun k v hv => ?_⟩
        have hl := vectors_length h (fun p => (hX.legal p ω).1) hr
        rw [hz] at hl
        rw [List.length_eq_zero_iff.1 hl] at hv
        simp at hv, measure_univ]
  · rw [distribution h hX hM size hQ S]
    refine Finset.prod_congr rfl (fun k _ => ?_)
    rw [distribution h hX hM none hQ]
    simp

/-- **C96.**  Whatever the space and the distribution of the draws are: either every call of `sample_configuration` returns with
probability one, or every call for at least one configuration runs for ever with probability one. -/
theorem C96_zero_or_one (h : Reach calls s) (hX : IidDraws calls s P X) :
    (∀ size : Option Int, P {ω | ¬ Delivers s (fun p => X p ω) size (fun _ => Set.univ)} = 0 ∧
      P {ω | Delivers s (fun p => X p ω) size (fun _ => Set.univ)} = 1) ∨
    (∀ size : Option Int, 1 ≤ size.getD 1 → P {ω | Delivers s (fun p => X p ω) size (fun _ => Set.univ)} = 0) := by
  have hM := made_makes calls s
  by_cases hQ : P {ω | X (0, 0) ω ∈ {u | okCol s u = true ∧ maskCol s u ∈ (Set.univ : Set Vec)}} = 0
  · exact .inr (fun size hn => never_ends h hX hM size hn hQ _)
  · exact .inl (fun size => ⟨ends h hX hM size hQ, ends_one h hX hM size hQ⟩)

/-! ## In terms of valid configurations -/

theorem showing_iff (h : Reach calls s) (hsep : Separable calls) (hw : WeaklyLayered calls) {u : Vec} (hu : LegalDraw calls s u) {S : Set Vec} :
    u ∈ Showing calls s S ↔ okCol s u = true ∧ maskCol s u ∈ S := by
  constructor
  · rintro ⟨v, hv, h1⟩
    obtain ⟨h2, rfl⟩ := (made_iff h hsep hw hu).2 h1
    exact ⟨h2, hv⟩
  · rintro ⟨h1, h2⟩
    exact ⟨_, h2, (made_iff h hsep hw hu).1 ⟨h1, rfl⟩⟩

theorem showing_makes (h : Reach calls s) (hsep : Separable calls) (hw : WeaklyLayered calls) : Makes calls s (Showing calls s) :=
  fun _ hu _ => showing_iff h hsep hw hu

/-- **C97** (partial: the guards of C26).  The configurations that a call of `sample_configuration` returns are distributed as if each of
them had been obtained by drawing once, on the condition that the draw shows a valid configuration, and independently of the others:
for any sets `S 0`, `S 1`, ... the probability that the call returns with results in these sets, times the probability that `n` draws
show valid configurations, is the probability that it returns at all, times the product of the probabilities that a draw shows a valid
configuration in `S 0`, in `S 1`, ... -/
theorem C97_results_fair_partial (h : Reach calls s) (hsep : Separable calls) (hw : WeaklyLayered calls) (hX : IidDraws calls s P X)
    (fuel : Nat) (size : Option Int) (S : Nat → Set Vec) :
    P {ω | Returns s (fun p => X p ω) fuel size S} * P {ω | X (0, 0) ω ∈ Showing calls s Set.univ} ^ (size.getD 1).toNat =
      P {ω | Returns s (fun p => X p ω) fuel size (fun _ => Set.univ)} *
        ∏ k ∈ Finset.range (size.getD 1).toNat, P {ω | X (0, 0) ω ∈ Showing calls s (S k)} :=
  results_fair h hX (showing_makes h hsep hw) fuel size S

/-- **C97** (partial: the guards of C26).  The probability that `n` configurations have not been found after `n * m` batches is at most
`n * (1 - Q) ^ m` if a draw shows a valid configuration with probability `Q`. -/
theorem C97_number_of_batches_partial (h : Reach calls s) (hsep : Separable calls) (hw : WeaklyLayered calls) (hX : IidDraws calls s P X)
    (size : Option Int) (m : Nat) :
    P {ω | ¬ Returns s (fun p => X p ω) ((size.getD 1).toNat * m) size (fun _ => Set.univ)} ≤
      (size.getD 1).toNat * (1 - P {ω | X (0, 0) ω ∈ Showing calls s Set.univ}) ^ m :=
  number_of_batches h hX (showing_makes h hsep hw) size m

/-- **C97** (partial: the guards of C26).  If a draw shows a valid configuration with positive probability, however small, then
`sample_configuration` returns with probability one. -/
theorem C97_ends_partial (h : Reach calls s) (hsep : Separable calls) (hw : WeaklyLayered calls) (hX : IidDraws calls s P X)
    (size : Option Int) (hQ : P {ω | X (0, 0) ω ∈ Showing calls s Set.univ} ≠ 0) :
    P {ω | ¬ Delivers s (fun p => X p ω) size (fun _ => Set.univ)} = 0 :=
  ends h hX (showing_makes h hsep hw) size hQ

/-- **C97** (partial: the guards of C26).  If no draw shows a valid configuration (but for an event of probability zero) then
`sample_configuration` for at least one configuration does not return, with probability one. -/
theorem C97_never_ends_partial (h : Reach calls s) (hsep : Separable calls) (hw : WeaklyLayered calls) (hX : IidDraws calls s P X)
    (size : Option Int) (hn : 1 ≤ size.getD 1) (hQ : P {ω | X (0, 0) ω ∈ Showing calls s Set.univ} = 0) (S : Nat → Set Vec) :
    P {ω | Delivers s (fun p => X p ω) size S} = 0 :=
  never_ends h hX (showing_makes h hsep hw) size hn hQ S

/-- **C97** (partial: the guards of C26).  If a draw shows a valid configuration with positive probability, then the `n` configurations
that are returned are independent and distributed like a draw on the condition that it shows a valid configuration: for any sets `S 0`,
`S 1`, ... the probability of results in these sets is the product of the probabilities, divided by the `n`-th power of the probability
of the condition. -/
theorem C97_distribution_partial (h : Reach calls s) (hsep : Separable calls) (hw : WeaklyLayered calls) (hX : IidDraws calls s P X)
    (size : Option Int) (hQ : P {ω | X (0, 0) ω ∈ Showing calls s Set.univ} ≠ 0) (S : Nat → Set Vec) :
    P {ω | Delivers s (fun p => X p ω) size S} = ∏ k ∈ Finset.range (size.getD 1).toNat,
      P {ω | X (0, 0) ω ∈ Showing calls s (S k)} / P {ω | X (0, 0) ω ∈ Showing calls s Set.univ} :=
  distribution h hX (showing_makes h hsep hw) size hQ S

/-- **C97** (partial: the guards of C26).  Every one of the configurations that a call returns is the valid configuration `v` with the
probability that a draw shows `v`, divided by the probability that a draw shows a valid configuration. -/
theorem C97_each_configuration_partial (h : Reach calls s) (hsep : Separable calls) (hw : WeaklyLayered calls) (hX : IidDraws calls s P X)
    (size : Option Int) {v : Vec} (hv : IsValidVec calls s v) (hQ : P {ω | X (0, 0) ω ∈ Showing calls s Set.univ} ≠ 0) {k : Nat}
    (hk : (k : Int) < size.getD 1) :
    P {ω | ∃ fuel r, s.sampleConfiguration (matrixOf s (fun p => X p ω)) fuel size = some r ∧ (vectors r)[k]? = some v} =
      P {ω | Shows (X (0, 0) ω) v} / P {ω | X (0, 0) ω ∈ Showing calls s Set.univ} := by
  have hP : IsProbabilityMeasure P := hX.indep.isProbabilityMeasure
  have hkn : k < (size.getD 1).toNat := by omega
  let S : Nat → Set Vec := fun j => if j = k then {v} else Set.univ
  have e1 : {ω | ∃ fuel r, s.sampleConfiguration (matrixOf s (fun p => X p ω)) fuel size = some r ∧ (vectors r)[k]? = some v} =
      {ω | Delivers s (fun p => X p ω) size S} := by
    ext ω
    constructor
    · rintro ⟨fuel, r, hr, hkv⟩
      refine ⟨fuel, r, hr, fun j u hu => ?_⟩
      by_cases hj : j = k
      · subst hj
        rw [hkv] at hu
        cases hu
        simp [S]
      · simp [S, hj]
    · rintro ⟨fuel, r, hr, hall⟩
      have hlt : k < (vectors r).length := by rw [vectors_length h (fun p => (hX.legal p ω).1) hr]; exact hkn
      refine ⟨fuel, r, hr, ?_⟩
      have := hall k _ (List.getElem?_eq_getElem hlt)
      simp only [S, if_true, Set.mem_singleton_iff] at this
      rw [List.getElem?_eq_getElem hlt, this]
  have e2 : {ω | X (0, 0) ω ∈ Showing calls s (S k)} = {ω | Shows (X (0, 0) ω) v} := by
    ext ω
    simp only [S, if_true, Showing, Set.mem_ofPred_eq, Set.mem_singleton_iff, exists_eq_left]
    exact ⟨fun h => h.2, fun h => ⟨hv, h⟩⟩
  rw [e1, C97_distribution_partial h hsep hw hX size hQ S, Finset.prod_eq_single k, e2]
  · intro j _ hj
    simp only [S, if_neg hj]
    exact ENNReal.div_self hQ (measure_ne_top _ _)
  · exact fun hno => absurd (Finset.mem_range.2 hkn) hno

/-! ## Draws with independent values -/

theorem shows_iff {u v : Vec} (hl : v.length = u.length) : Shows u v ↔ ∀ i ∈ setAt v, u.at i = v.at i := by
  constructor
  · rintro ⟨-, hs⟩ i hi
    cases hv : v.at i with
    | none => simp [setAt, hv] at hi
    | some q => exact hs i q hv
  · intro hs
    refine ⟨hl, fun i q hq => ?_⟩
    have hi : i ∈ setAt v := by
      simp only [setAt, Finset.mem_filter, Finset.mem_range, hq]
      refine ⟨?_, by simp⟩
      by_contra hlt
      rw [Vec.at, List.getD_eq_getElem?_getD, List.getElem?_eq_none (by omega)] at hq
      cases hq
    rw [hs i hi, hq]

/-- **C97** (partial: the guards of C26).  If the values of different hyperparameters are drawn independently, then the probability of a
valid configuration is the product of the probabilities of its values, over the hyperparameters that are active in it, up to a constant. -/
theorem C97_product_of_values_partial (h : Reach calls s) (hsep : Separable calls) (hw : WeaklyLayered calls) (hX : IidDraws calls s P X)
    (hI : IndependentEntries P (X (0, 0))) (size : Option Int) {v : Vec} (hv : IsValidVec calls s v)
    (hQ : P {ω | X (0, 0) ω ∈ Showing calls s Set.univ} ≠ 0) {k : Nat} (hk : (k : Int) < size.getD 1) :
    P {ω | ∃ fuel r, s.sampleConfiguration (matrixOf s (fun p => X p ω)) fuel size = some r ∧ (vectors r)[k]? = some v} =
      (∏ i ∈ setAt v, P {ω | (X (0, 0) ω).at i = v.at i}) / P {ω | X (0, 0) ω ∈ Showing calls s Set.univ} := by
  rw [C97_each_configuration_partial h hsep hw hX size hv hQ hk, ← hI]
  congr 2
  ext ω
  obtain ⟨a, ha, -⟩ := hv
  exact shows_iff (by rw [ha.1, (hX.legal _ ω).1])

/-- **C97** (partial: the guards of C26).  If values are drawn independently then one valid configuration whose values are drawn with
positive probability is enough for sampling to end with probability one. -/
theorem C97_ends_if_satisfiable_partial (h : Reach calls s) (hsep : Separable calls) (hw : WeaklyLayered calls) (hX : IidDraws calls s P X)
    (hI : IndependentEntries P (X (0, 0))) {v : Vec} (hv : IsValidVec calls s v) (hcan : CanDraw P (X (0, 0)) v) (size : Option Int) :
    P {ω | ¬ Delivers s (fun p => X p ω) size (fun _ => Set.univ)} = 0 := by
  refine C97_ends_partial h hsep hw hX size (fun hz => ?_)
  have hsub : {ω | ∀ i ∈ setAt v, (X (0, 0) ω).at i = v.at i} ⊆ {ω | X (0, 0) ω ∈ Showing calls s Set.univ} := by
    intro ω hω
    obtain ⟨a, ha, hval⟩ := hv
    exact ⟨v, Set.mem_univ _, ⟨a, ha, hval⟩, (shows_iff (by rw [ha.1, (hX.legal _ ω).1])).2 hω⟩
  have h0 := measure_mono_null hsub hz
  rw [hI, Finset.prod_eq_zero_iff] at h0
  obtain ⟨i, hi, h0⟩ := h0
  obtain ⟨q, hq⟩ := Option.ne_none_iff_exists'.1 (Finset.mem_filter.1 hi).2
  rw [hq] at h0
  exact hcan i q hq h0

/-- **C97** (partial: the guards of C26).  If, moreover, all values of a hyperparameter that are drawn at all are equally likely, then of
two valid configurations (of such values) the one with fewer active hyperparameters is at least as likely. -/
theorem C97_fewer_active_more_likely_partial (h : Reach calls s) (hsep : Separable calls) (hw : WeaklyLayered calls)
    (hX : IidDraws calls s P X) (hI : IndependentEntries P (X (0, 0))) (hU : UniformEntries P (X (0, 0))) (size : Option Int)
    {v w : Vec} (hv : IsValidVec calls s v) (hvw : IsValidVec calls s w) (hcan : CanDraw P (X (0, 0)) v) (hsub : setAt v ⊆ setAt w)
    (hQ : P {ω | X (0, 0) ω ∈ Showing calls s Set.univ} ≠ 0) {k : Nat} (hk : (k : Int) < size.getD 1) :
    P {ω | ∃ fuel r, s.sampleConfiguration (matrixOf s (fun p => X p ω)) fuel size = some r ∧ (vectors r)[k]? = some w} ≤
    P {ω | ∃ fuel r, s.sampleConfiguration (matrixOf s (fun p => X p ω)) fuel size = some r ∧ (vectors r)[k]? = some v} := by
  have hP : IsProbabilityMeasure P := hX.indep.isProbabilityMeasure
  rw [C97_product_of_values_partial h hsep hw hX hI size hv hQ hk, C97_product_of_values_partial h hsep hw hX hI size hvw hQ hk]
  refine ENNReal.div_le_div_right ?_ _
  have heq : ∀ i ∈ setAt v, P {ω | (X (0, 0) ω).at i = w.at i} ≤ P {ω | (X (0, 0) ω).at i = v.at i} := by
    intro i hi
    obtain ⟨q, hq⟩ := Option.ne_none_iff_exists'.1 (Finset.mem_filter.1 hi).2
    obtain ⟨q', hq'⟩ := Option.ne_none_iff_exists'.1 (Finset.mem_filter.1 (hsub hi)).2
    rw [hq, hq']
    by_cases hz : P {ω | (X (0, 0) ω).at i = some q'} = 0
    · rw [hz]; exact zero_le
    · exact (hU i q' q hz (hcan i q hq)).le
  rw [← Finset.prod_sdiff hsub]
  calc _ ≤ 1 * ∏ i ∈ setAt v, P {ω | (X (0, 0) ω).at i = w.at i} := mul_le_mul_left (Finset.prod_le_one' (fun i _ => prob_le_one)) _
    _ = ∏ i ∈ setAt v, P {ω | (X (0, 0) ω).at i = w.at i} := one_mul _
    _ ≤ _ := Finset.prod_le_prod' heq

/-- **C97** (partial: the guards of C26).  Valid configurations with the same active hyperparameters are equally likely, if values are
drawn independently and uniformly; in a space without conditions all valid configurations (of values that are drawn at all) are. -/
theorem C97_same_active_equally_likely_partial (h : Reach calls s) (hsep : Separable calls) (hw : WeaklyLayered calls)
    (hX : IidDraws calls s P X) (hI : IndependentEntries P (X (0, 0))) (hU : UniformEntries P (X (0, 0))) (size : Option Int)
    {v w : Vec} (hv : IsValidVec calls s v) (hvw : IsValidVec calls s w) (hcan : CanDraw P (X (0, 0)) v)
    (hcanw : CanDraw P (X (0, 0)) w) (hsame : setAt v = setAt w ∨ ∀ n, ¬ Conditional calls n)
    (hQ : P {ω | X (0, 0) ω ∈ Showing calls s Set.univ} ≠ 0) {k : Nat} (hk : (k : Int) < size.getD 1) :
    P {ω | ∃ fuel r, s.sampleConfiguration (matrixOf s (fun p => X p ω)) fuel size = some r ∧ (vectors r)[k]? = some w} =
    P {ω | ∃ fuel r, s.sampleConfiguration (matrixOf s (fun p => X p ω)) fuel size = some r ∧ (vectors r)[k]? = some v} := by
  have hset : setAt v = setAt w := by
    rcases hsame with hs | hs
    · exact hs
    · have full : ∀ v, IsValidVec calls s v → setAt v = Finset.range s.len := by
        rintro v ⟨a, ha, hval⟩
        unfold setAt
        rw [ha.1, Finset.filter_eq_self]
        intro i hi
        have hlt : i < s.names.length := by
          rw [Finset.mem_range, (sinv_of_reach h).len] at hi
          simpa [Space.names] using hi
        rw [ha.2 i _ (List.getElem?_eq_getElem hlt)]
        obtain ⟨q, hq⟩ := hval.roots s.names[i] ((reach_isNode h s.names[i]).1 (List.getElem_mem hlt)) (hs _)
        rw [hq]
        simp
      rw [full v hv, full w hvw]
  exact le_antisymm (C97_fewer_active_more_likely_partial h hsep hw hX hI hU size hv hvw hcan hset.subset hQ hk)
    (C97_fewer_active_more_likely_partial h hsep hw hX hI hU size hvw hv hcanw hset.symm.subset hQ hk)

/-! ## The hypotheses can be met -/

/-- In every space, and for any distributions of the hyperparameters on their legal values, there are draws as C95 to C97 assume
them, with independent values. -/
theorem C97_draws_exist (h : Reach calls s) (μ : HP → Measure Rat) (hp : ∀ x ∈ allHps calls, IsProbabilityMeasure (μ x))
    (hl : ∀ x ∈ allHps calls, μ x {q | ¬ x.kind.legalVec q = true} = 0) :
    ∃ (Ω : Type) (_ : MeasurableSpace Ω) (P : Measure Ω) (X : Nat × Nat → Ω → Vec), IidDraws calls s P X ∧
      IndependentEntries P (X (0, 0)) ∧
      ∀ x ∈ allHps calls, ∀ i, At s.names i x.name → ∀ q, P {ω | (X (0, 0) ω).at i = some q} = μ x {q} := draws_exist h μ hp hl

namespace ExM

noncomputable section
/-- A fair coin. -/
def coin : Measure Rat := (2⁻¹ : ENNReal) • Measure.dirac 0 + (2⁻¹ : ENNReal) • Measure.dirac 1

instance : IsProbabilityMeasure coin := ⟨by simp [coin, ENNReal.inv_two_add_inv_two]⟩

theorem coin_zero : coin {0} = 2⁻¹ := by simp [coin]
theorem coin_one : coin {1} = 2⁻¹ := by simp [coin]
end

theorem ab_hp {x : HP} (hx : x ∈ allHps [Ex.callL]) : ∃ n, x = Ex.ab n := by
  simp only [allHps, Ex.callL, List.flatMap_cons, List.flatMap_nil, List.append_nil, List.mem_cons, List.not_mem_nil, or_false] at hx
  rcases hx with rfl | rfl | rfl <;> exact ⟨_, rfl⟩

theorem ab_legal (n : Name) : (Ex.ab n).kind.legalVec 0 = true ∧ (Ex.ab n).kind.legalVec 1 = true := by
  show (Kind.cat [.str "a", .str "b"]).legalVec 0 = true ∧ (Kind.cat [.str "a", .str "b"]).legalVec 1 = true
  decide +kernel

theorem coin_legal : ∀ x ∈ allHps [Ex.callL], coin {q | ¬ x.kind.legalVec q = true} = 0 := by
  intro x hx
  obtain ⟨n, rfl⟩ := ab_hp hx
  have h := ab_legal n
  simp [coin, h.1, h.2]

theorem legal_draw {u : Vec} (hl : u.length = Ex.spL.len) (hb : (allHps [Ex.callL]).all (fun x => match u.at (Ex.spL.idx x.name) with
    | some q => x.kind.legalVec q
    | none => false) = true) : LegalDraw [Ex.callL] Ex.spL u :=
  ⟨hl, fun x hx i hat => by
    rw [← (show Ex.spL.idx x.name = i from idx_unique (reach_ninv Ex.reachL).nodup hat)]
    exact legal_of_check hb x hx⟩

theorem valid_draw {u v : Vec} (hl : u.length = Ex.spL.len) (hb : (allHps [Ex.callL]).all (fun x => match u.at (Ex.spL.idx x.name) with
    | some q => x.kind.legalVec q
    | none => false) = true) (hok : okCol Ex.spL u = true) (hm : maskCol Ex.spL u = v) : IsValidVec [Ex.callL] Ex.spL v :=
  ((made_iff Ex.reachL Ex.sepL Ex.layeredL.weakly (legal_draw hl hb)).1 ⟨hok, hm⟩).1

theorem valid1 : IsValidVec [Ex.callL] Ex.spL [some 1, none, none] :=
  valid_draw (u := [some 1, some 0, some 0]) (by decide +kernel) (by decide +kernel) (by decide +kernel) (by decide +kernel)

theorem valid3 : IsValidVec [Ex.callL] Ex.spL [some 0, some 0, some 0] :=
  valid_draw (u := [some 0, some 0, some 0]) (by decide +kernel) (by decide +kernel) (by decide +kernel) (by decide +kernel)

end ExM

/-- Conditions make valid configurations unequally likely, although all values are drawn independently and uniformly: in the chain
`x | p == "a"`, `y | x == "a"` of three hyperparameters with two choices each, `{p: "b"}` has probability 1/2 and
`{p: "a", x: "a", y: "a"}` has probability 1/8. -/
theorem C97_not_uniform : ∃ (Ω : Type) (_ : MeasurableSpace Ω) (P : Measure Ω) (X : Nat × Nat → Ω → Vec),
    IidDraws [Ex.callL] Ex.spL P X ∧ IndependentEntries P (X (0, 0)) ∧ UniformEntries P (X (0, 0)) ∧
    IsValidVec [Ex.callL] Ex.spL [some 1, none, none] ∧ IsValidVec [Ex.callL] Ex.spL [some 0, some 0, some 0] ∧
    P {ω | ∃ fuel r, Ex.spL.sampleConfiguration (matrixOf Ex.spL (fun p => X p ω)) fuel (some 3) = some r ∧
      (vectors r)[2]? = some [some 1, none, none]} = 2⁻¹ ∧
    P {ω | ∃ fuel r, Ex.spL.sampleConfiguration (matrixOf Ex.spL (fun p => X p ω)) fuel (some 3) = some r ∧
      (vectors r)[2]? = some [some 0, some 0, some 0]} = 8⁻¹ := by
  obtain ⟨Ω, mΩ, P, X, hX, hI, hlaw⟩ := C97_draws_exist Ex.reachL (fun _ => ExM.coin) (fun _ _ => inferInstance) ExM.coin_legal
  have hP : IsProbabilityMeasure P := hX.indep.isProbabilityMeasure
  have hcoin : ∀ q : Rat, q = 0 ∨ q = 1 → ExM.coin {q} = 2⁻¹ := by
    rintro q (rfl | rfl)
    · exact ExM.coin_zero
    · exact ExM.coin_one
  have hU : UniformEntries P (X (0, 0)) := by
    intro i q q' hq hq'
    by_cases hi : i < Ex.spL.names.length
    · obtain ⟨x, hx, hxn⟩ := (reach_isNode Ex.reachL Ex.spL.names[i]).1 (List.getElem_mem hi)
      have hl := hlaw x hx i (by rw [hxn]; exact List.getElem?_eq_getElem hi)
      rw [hl] at hq hq' ⊢
      rw [hl]
      have h01 : ∀ q, ExM.coin {q} ≠ 0 → q = 0 ∨ q = 1 := by
        intro q hq
        by_contra hno
        push Not at hno
        exact hq (by simp [ExM.coin, hno.1.symm, hno.2.symm])
      rw [hcoin q (h01 q hq), hcoin q' (h01 q' hq')]
    · exfalso
      apply hq
      rw [show {ω | (X (0, 0) ω).at i = some q} = ∅ by
        ext ω
        have hl := (hX.legal (0, 0) ω).1
        have hn : (X (0, 0) ω).at i = none := by
          rw [Vec.at, List.getD_eq_getElem?_getD, List.getElem?_eq_none (by rw [hl]; exact not_lt.1 hi)]
          rfl
        simp [hn], measure_empty]
  have hQ : P {ω | X (0, 0) ω ∈ Showing [Ex.callL] Ex.spL Set.univ} = 1 := by
    rw [show {ω | X (0, 0) ω ∈ Showing [Ex.callL] Ex.spL Set.univ} = Set.univ by
      ext ω
      simp only [Set.mem_ofPred_eq, Set.mem_univ, iff_true]
      rw [showing_iff Ex.reachL Ex.sepL Ex.layeredL.weakly (hX.legal _ ω)]
      exact ⟨rfl, Set.mem_univ _⟩, measure_univ]
  have hQ0 : P {ω | X (0, 0) ω ∈ Showing [Ex.callL] Ex.spL Set.univ} ≠ 0 := by rw [hQ]; exact one_ne_zero
  have h0 : ∀ q, (q = 0 ∨ q = 1) → P {ω | (X (0, 0) ω).at 0 = some q} = 2⁻¹ := fun q hq =>
    (hlaw (Ex.ab "p") (by simp [allHps, Ex.callL]) 0 (by unfold At; decide +kernel) q).trans (hcoin q hq)
  have h1 : ∀ q, (q = 0 ∨ q = 1) → P {ω | (X (0, 0) ω).at 1 = some q} = 2⁻¹ := fun q hq =>
    (hlaw (Ex.ab "x") (by simp [allHps, Ex.callL]) 1 (by unfold At; decide +kernel) q).trans (hcoin q hq)
  have h2 : ∀ q, (q = 0 ∨ q = 1) → P {ω | (X (0, 0) ω).at 2 = some q} = 2⁻¹ := fun q hq =>
    (hlaw (Ex.ab "y") (by simp [allHps, Ex.callL]) 2 (by unfold At; decide +kernel) q).trans (hcoin q hq)
  refine ⟨Ω, mΩ, P, X, hX, hI, hU, ExM.valid1, ExM.valid3, ?_, ?_⟩
  · rw [C97_product_of_values_partial Ex.reachL Ex.sepL Ex.layeredL.weakly hX hI (some 3) ExM.valid1 hQ0 (by decide), hQ,
      show setAt [some 1, none, none] = {0} by decide +kernel]
    simp only [Finset.prod_singleton, div_one]
    exact h0 1 (.inr rfl)
  · rw [C97_product_of_values_partial Ex.reachL Ex.sepL Ex.layeredL.weakly hX hI (some 3) ExM.valid3 hQ0 (by decide), hQ,
      show setAt [some 0, some 0, some 0] = {0, 1, 2} by decide +kernel]
    rw [Finset.prod_insert (by decide), Finset.prod_insert (by decide), Finset.prod_singleton]
    rw [show Vec.at [some 0, some 0, some 0] 0 = some 0 from rfl, show Vec.at [some 0, some 0, some 0] 1 = some 0 from rfl,
      show Vec.at [some 0, some 0, some 0] 2 = some 0 from rfl, h0 0 (.inl rfl), h1 0 (.inl rfl), h2 0 (.inl rfl), div_one,
      ← ENNReal.mul_inv (.inl (by simp)) (.inl (by simp)), ← ENNReal.mul_inv (.inl (by simp)) (.inl (by simp))]
    norm_num

/-- In every space there are draws to which C95 and C96 apply, here with fair coins. -/
example : ∃ (Ω : Type) (_ : MeasurableSpace Ω) (P : Measure Ω) (X : Nat × Nat → Ω → Vec), IidDraws [Ex.callL] Ex.spL P X ∧
    P {ω | Delivers Ex.spL (fun p => X p ω) (some 2) (fun k => if k = 0 then {[some 1, none, none]} else {[some 0, some 0, some 0]})} =
      P {ω | Delivers Ex.spL (fun p => X p ω) none (fun _ => {[some 1, none, none]})} *
        P {ω | Delivers Ex.spL (fun p => X p ω) none (fun _ => {[some 0, some 0, some 0]})} := by
  obtain ⟨Ω, mΩ, P, X, hX, -, -⟩ := C97_draws_exist Ex.reachL (fun _ => ExM.coin) (fun _ _ => inferInstance) ExM.coin_legal
  refine ⟨Ω, mΩ, P, X, hX, ?_⟩
  rw [C95_independent_and_alike Ex.reachL hX, show ((some (2 : Int)).getD 1).toNat = 2 from rfl, Finset.prod_range_succ, Finset.prod_range_one]
  simp

/-- The chain with fair coins meets the hypotheses of C97: sampling ends. -/
example : ∃ (Ω : Type) (_ : MeasurableSpace Ω) (P : Measure Ω) (X : Nat × Nat → Ω → Vec), IidDraws [Ex.callL] Ex.spL P X ∧
    P {ω | ¬ Delivers Ex.spL (fun p => X p ω) (some 7) (fun _ => Set.univ)} = 0 := by
  obtain ⟨Ω, mΩ, P, X, hX, -, -⟩ := C97_draws_exist Ex.reachL (fun _ => ExM.coin) (fun _ _ => inferInstance) ExM.coin_legal
  have hP : IsProbabilityMeasure P := hX.indep.isProbabilityMeasure
  refine ⟨Ω, mΩ, P, X, hX, C97_ends_partial Ex.reachL Ex.sepL Ex.layeredL.weakly hX (some 7) ?_⟩
  rw [show {ω | X (0, 0) ω ∈ Showing [Ex.callL] Ex.spL Set.univ} = Set.univ by
    ext ω
    simp only [Set.mem_ofPred_eq, Set.mem_univ, iff_true]
    rw [showing_iff Ex.reachL Ex.sepL Ex.layeredL.weakly (hX.legal _ ω)]
    exact ⟨rfl, Set.mem_univ _⟩, measure_univ]
  exact one_ne_zero

/-- The chain with fair coins: the hypotheses of the C97 theorems are met together, and so are those of C96. -/
theorem ExM.fair_chain : ∃ (Ω : Type) (_ : MeasurableSpace Ω) (P : Measure Ω) (X : Nat × Nat → Ω → Vec),
    IidDraws [Ex.callL] Ex.spL P X ∧ IndependentEntries P (X (0, 0)) ∧ UniformEntries P (X (0, 0)) ∧
    P {ω | X (0, 0) ω ∈ Showing [Ex.callL] Ex.spL Set.univ} ≠ 0 ∧ CanDraw P (X (0, 0)) [some 1, none, none] ∧
    CanDraw P (X (0, 0)) [some 0, some 0, some 0] ∧ CanDraw P (X (0, 0)) [some 0, some 0, some 1] := by
  obtain ⟨Ω, mΩ, P, X, hX, hI, hlaw⟩ := C97_draws_exist Ex.reachL (fun _ => ExM.coin) (fun _ _ => inferInstance) ExM.coin_legal
  have hP : IsProbabilityMeasure P := hX.indep.isProbabilityMeasure
  have hcoin : ∀ q : Rat, q = 0 ∨ q = 1 → ExM.coin {q} = 2⁻¹ := by
    rintro q (rfl | rfl)
    · exact ExM.coin_zero
    · exact ExM.coin_one
  have hat : ∀ i, i < 3 → ∀ q, P {ω | (X (0, 0) ω).at i = some q} = ExM.coin {q} := by
    intro i hi q
    have hi' : i < Ex.spL.names.length := by
      rw [show Ex.spL.names.length = 3 by decide +kernel]; exact hi
    obtain ⟨x, hx, hxn⟩ := (reach_isNode Ex.reachL Ex.spL.names[i]).1 (List.getElem_mem hi')
    exact hlaw x hx i (by rw [hxn]; exact List.getElem?_eq_getElem hi') q
  have hout : ∀ i, ¬ i < 3 → ∀ q, P {ω | (X (0, 0) ω).at i = some q} = 0 := by
    intro i hi q
    rw [show {ω | (X (0, 0) ω).at i = some q} = ∅ by
      ext ω
      have hl := (hX.legal (0, 0) ω).1
      have hn : (X (0, 0) ω).at i = none := by
        rw [Vec.at, List.getD_eq_getElem?_getD, List.getElem?_eq_none (by
          rw [hl, show Ex.spL.len = 3 by decide +kernel]; exact not_lt.1 hi)]
        rfl
      simp [hn], measure_empty]
  have hU : UniformEntries P (X (0, 0)) := by
    intro i q q' hq hq'
    by_cases hi : i < 3
    · rw [hat i hi] at hq hq' ⊢
      rw [hat i hi]
      have h01 : ∀ q, ExM.coin {q} ≠ 0 → q = 0 ∨ q = 1 := by
        intro q hq
        by_contra hno
        push Not at hno
        exact hq (by simp [ExM.coin, hno.1.symm, hno.2.symm])
      rw [hcoin q (h01 q hq), hcoin q' (h01 q' hq')]
    · exact absurd (hout i hi q) hq
  have hQ : P {ω | X (0, 0) ω ∈ Showing [Ex.callL] Ex.spL Set.univ} ≠ 0 := by
    rw [show {ω | X (0, 0) ω ∈ Showing [Ex.callL] Ex.spL Set.univ} = Set.univ by
      ext ω
      simp only [Set.mem_ofPred_eq, Set.mem_univ, iff_true]
      rw [showing_iff Ex.reachL Ex.sepL Ex.layeredL.weakly (hX.legal _ ω)]
      exact ⟨rfl, Set.mem_univ _⟩, measure_univ]
    exact one_ne_zero
  have hcan : ∀ a b c : NV, (∀ x ∈ [a, b, c], x = none ∨ x = some 0 ∨ x = some 1) → CanDraw P (X (0, 0)) [a, b, c] := by
    intro a b c h i q hq
    have hi : i < 3 := by
      by_contra hno
      rw [Vec.at, List.getD_eq_getElem?_getD, List.getElem?_eq_none (by simpa using hno)] at hq
      cases hq
    rw [hat i hi]
    have h01 : q = 0 ∨ q = 1 := by
      have hm : some q ∈ [a, b, c] := by
        rw [← hq, Vec.at, List.getD_eq_getElem?_getD, List.getElem?_eq_getElem (by simpa using hi)]
        exact List.getElem_mem _
      rcases h _ hm with e | e | e <;> cases e
      · exact .inl rfl
      · exact .inr rfl
    rw [hcoin q h01]
    simp
  exact ⟨Ω, mΩ, P, X, hX, hI, hU, hQ, hcan _ _ _ (by simp), hcan _ _ _ (by simp), hcan _ _ _ (by simp)⟩

theorem ExM.valid3' : IsValidVec [Ex.callL] Ex.spL [some 0, some 0, some 1] :=
  ExM.valid_draw (u := [some 0, some 0, some 1]) (by decide +kernel) (by decide +kernel) (by decide +kernel) (by decide +kernel)

/-- Applied to the chain with fair coins: `{p: "a", x: "a", y: "a"}` is not more likely than `{p: "b"}`, and as likely as
`{p: "a", x: "a", y: "b"}`; every number of configurations is returned with probability one. -/
example : ∃ (Ω : Type) (_ : MeasurableSpace Ω) (P : Measure Ω) (X : Nat × Nat → Ω → Vec), IidDraws [Ex.callL] Ex.spL P X ∧
    P {ω | ∃ fuel r, Ex.spL.sampleConfiguration (matrixOf Ex.spL (fun p => X p ω)) fuel (some 3) = some r ∧
      (vectors r)[2]? = some [some 0, some 0, some 0]} =
    P {ω | ∃ fuel r, Ex.spL.sampleConfiguration (matrixOf Ex.spL (fun p => X p ω)) fuel (some 3) = some r ∧
      (vectors r)[2]? = some [some 0, some 0, some 1]} ∧
    P {ω | ∃ fuel r, Ex.spL.sampleConfiguration (matrixOf Ex.spL (fun p => X p ω)) fuel (some 3) = some r ∧
      (vectors r)[2]? = some [some 0, some 0, some 0]} ≤
    P {ω | ∃ fuel r, Ex.spL.sampleConfiguration (matrixOf Ex.spL (fun p => X p ω)) fuel (some 3) = some r ∧
      (vectors r)[2]? = some [some 1, none, none]} ∧
    (∀ size, P {ω | ¬ Delivers Ex.spL (fun p => X p ω) size (fun _ => Set.univ)} = 0) := by
  obtain ⟨Ω, mΩ, P, X, hX, hI, hU, hQ, h1, h3, h3'⟩ := ExM.fair_chain
  exact ⟨Ω, mΩ, P, X, hX,
    C97_same_active_equally_likely_partial Ex.reachL Ex.sepL Ex.layeredL.weakly hX hI hU (some 3) ExM.valid3' ExM.valid3 h3' h3
      (.inl (by decide +kernel)) hQ (by decide),
    C97_fewer_active_more_likely_partial Ex.reachL Ex.sepL Ex.layeredL.weakly hX hI hU (some 3) ExM.valid1 ExM.valid3 h1
      (by decide +kernel) hQ (by decide),
    fun size => C97_ends_if_satisfiable_partial Ex.reachL Ex.sepL Ex.layeredL.weakly hX hI ExM.valid1 h1 size⟩

/-- The same chain: the law of what is returned, the number of batches, and the alternative of C96, whose first case it is. -/
example : ∃ (Ω : Type) (_ : MeasurableSpace Ω) (P : Measure Ω) (X : Nat × Nat → Ω → Vec), IidDraws [Ex.callL] Ex.spL P X ∧
    (∀ fuel S, P {ω | Returns Ex.spL (fun p => X p ω) fuel (some 2) S} * P {ω | X (0, 0) ω ∈ Showing [Ex.callL] Ex.spL Set.univ} ^ 2 =
      P {ω | Returns Ex.spL (fun p => X p ω) fuel (some 2) (fun _ => Set.univ)} *
        ∏ k ∈ Finset.range 2, P {ω | X (0, 0) ω ∈ Showing [Ex.callL] Ex.spL (S k)}) ∧
    (∀ m, P {ω | ¬ Returns Ex.spL (fun p => X p ω) (2 * m) (some 2) (fun _ => Set.univ)} ≤
      (2 : Nat) * (1 - P {ω | X (0, 0) ω ∈ Showing [Ex.callL] Ex.spL Set.univ}) ^ m) ∧
    ((∀ size : Option Int, P {ω | ¬ Delivers Ex.spL (fun p => X p ω) size (fun _ => Set.univ)} = 0 ∧
      P {ω | Delivers Ex.spL (fun p => X p ω) size (fun _ => Set.univ)} = 1) ∨
    (∀ size : Option Int, 1 ≤ size.getD 1 → P {ω | Delivers Ex.spL (fun p => X p ω) size (fun _ => Set.univ)} = 0)) := by
  obtain ⟨Ω, mΩ, P, X, hX, hI, hU, hQ, h1, h3, h3'⟩ := ExM.fair_chain
  exact ⟨Ω, mΩ, P, X, hX, fun fuel S => C97_results_fair_partial Ex.reachL Ex.sepL Ex.layeredL.weakly hX fuel (some 2) S,
    fun m => C97_number_of_batches_partial Ex.reachL Ex.sepL Ex.layeredL.weakly hX (some 2) m, C96_zero_or_one Ex.reachL hX⟩

end Verif.Fair
