import Verif.Lemmas.FairWalkExist
import Verif.Props.RandomNeighbor

/-!
# `get_random_neighbor` with random draws

C100 with probability one the call ends, if there is something to find; and what it returns is fair: the probability of a result is
in proportion to the probability with which it is proposed and accepted, the same for all hyperparameters.
-/

set_option autoImplicit false

namespace Verif.Walk
open Verif Verif.Spec MeasureTheory ProbabilityTheory

variable {calls : List Call} {s : Space} {c : Config} {Ω : Type} [MeasurableSpace Ω] {P : Measure Ω} {R : Nat → Ω → Nat} {N : Nat → Ω → Vec}

theorem com_pos (h : Reach calls s) {l : Nat} {x : Node} (hx : s.com[l]? = some x) : l < s.len := by
  rw [(sinv_of_reach h).len]
  exact (List.getElem?_eq_some_iff.1 hx).1

theorem intoSet_eq (h : Reach calls s) {d : Dict} (hd : c.toDict s = .ok d) (S : Set Config) (l : Nat) :
    intoSet s c.vec d S l = {u | ∃ c' ∈ S, ChangesTo calls s c l u c'} := by
  ext u
  constructor
  · rintro ⟨hu, c', hc', hp⟩
    refine ⟨c', hc', ?_⟩
    cases hp with
    | @mk x q w _ a b e f =>
      have hidx := idx_of_get h a
      unfold usable at hu
      rw [a] at hu
      simp only [Bool.and_eq_true, Bool.not_eq_true'] at hu
      obtain ⟨h1, h2⟩ := hu
      refine ⟨x.hp, node_hp h (List.mem_of_getElem? a), ?_, ?_, ?_, d, q, w, hd, ?_, e, f⟩
      · have := (C02_names_index_bijection h).2.2.2.2.1 x.name (mem_names (List.mem_of_getElem? a))
        rw [hidx] at this
        exact this
      · exact Option.isSome_iff_exists.1 h1
      · intro n hn
        unfold Kind.tiny at h2
        rw [hn] at h2
        simp at h2
        omega
      · rw [← hidx]
        exact b
  · rintro ⟨c', hc', y, hy, hat, ⟨q0, hq0⟩, hn, d', q, w, hd', b, e, f⟩
    rw [hd] at hd'
    cases hd'
    have hidx : s.idx y.name = l := idx_unique (reach_ninv h).nodup hat
    obtain ⟨x, hx, rfl, -⟩ := Scaled.com_at h hy
    rw [hidx] at hx
    refine ⟨?_, c', hc', .mk hx ?_ e f⟩
    · unfold usable
      rw [hx]
      simp only [hq0, Bool.and_eq_true, Bool.not_eq_true']
      refine ⟨rfl, ?_⟩
      unfold Kind.tiny
      split
      · rename_i n e'
        have := hn n e'
        simp
        omega
      · rfl
    · rw [show x.name = x.hp.name from rfl, hidx]
      exact b

/-- What the call does, as a loop. -/
theorem call_loop {d : Dict} (hd : c.toDict s = .ok d) (hsize : ∀ n, s.estimateSize = some n → 2 ≤ n) (rand : Nat → Nat)
    (nb : Nat → Name → List Rat) (fuel : Nat) : randomNeighbor s c rand nb fuel = randomLoop s c.vec d rand nb fuel 0 0 := by
  unfold randomNeighbor
  rw [hd]
  simp only
  split
  · rename_i n e
    have := hsize n e
    rw [if_neg (by omega)]
  · rfl

theorem neighborIn_iff {d : Dict} (hd : c.toDict s = .ok d) (hsize : ∀ n, s.estimateSize = some n → 2 ≤ n) (r : Nat → Nat) (u : Nat → Vec)
    (S : Set Config) : NeighborIn s c r u S ↔ ∃ n t, run s c.vec d r u n = some t ∧ Finds s c.vec d S r u t n := by
  constructor
  · rintro ⟨fuel, c', h1, h2⟩
    rw [call_loop hd hsize] at h1
    obtain ⟨n, -, t, k1, k2⟩ := (randomLoop_found_iff fuel 0 0).1 ⟨c', h2, h1⟩
    rw [Nat.zero_add] at k2
    exact ⟨n, t, by rw [run_eq]; exact k1, k2⟩
  · rintro ⟨n, t, h1, h2⟩
    rw [run_eq] at h1
    obtain ⟨c', hc', k⟩ := (randomLoop_found_iff (n + 1) 0 0).2 ⟨n, by omega, t, h1, by rwa [Nat.zero_add]⟩
    exact ⟨n + 1, c', by rw [call_loop hd hsize]; exact k, hc'⟩

theorem forever_iff {d : Dict} (hd : c.toDict s = .ok d) (hsize : ∀ n, s.estimateSize = some n → 2 ≤ n) (r : Nat → Nat) (u : Nat → Vec) :
    NeighborForever s c r u ↔ ∀ n, ∃ t, run s c.vec d r u n = some t := by
  unfold NeighborForever
  refine forall_congr' (fun n => ?_)
  rw [call_loop hd hsize, randomLoop_none_iff, run_eq]

/-- **C100**, what is returned. With independent random calls, the probability that `get_random_neighbor` returns a configuration
from a set `S` is the sum, over all hyperparameters, of the probability that a proposal for it leads into `S`, times a constant that
does not depend on `S`: no hyperparameter and no value is preferred. -/
theorem C100_fair (h : Reach calls s) (hr : RandomCalls s P R N) (hsize : ∀ n, s.estimateSize = some n → 2 ≤ n) (c : Config) :
    ∃ C : ENNReal, 0 < C ∧ ∀ S : Set Config, P {ω | NeighborIn s c (fun t => R t ω) (fun k => N k ω) S} =
      C * ∑ i ∈ Finset.range s.len, P {ω | ∃ c' ∈ S, ChangesTo calls s c i (N 0 ω) c'} := by
  cases hd : c.toDict s with
  | error e =>
    refine ⟨1, one_pos, fun S => ?_⟩
    have e1 : {ω | NeighborIn s c (fun t => R t ω) (fun k => N k ω) S} = ∅ := by
      refine Set.eq_empty_of_forall_notMem (fun ω => ?_)
      rintro ⟨fuel, c', h1, -⟩
      unfold randomNeighbor at h1
      rw [hd] at h1
      cases h1
    have e2 : ∀ i, {ω | ∃ c' ∈ S, ChangesTo calls s c i (N 0 ω) c'} = ∅ := by
      refine fun i => Set.eq_empty_of_forall_notMem (fun ω => ?_)
      rintro ⟨c', -, y, -, -, -, -, d, q, w, h1, -⟩
      rw [hd] at h1
      cases h1
    simp only [e1, e2, measure_empty, Finset.sum_const_zero, mul_zero]
  | ok d =>
    rcases Nat.eq_zero_or_pos s.len with hl | hl
    · refine ⟨1, one_pos, fun S => ?_⟩
      rw [hl, Finset.range_zero, Finset.sum_empty, mul_zero]
      have e1 : {ω | NeighborIn s c (fun t => R t ω) (fun k => N k ω) S} = ∅ := by
        refine Set.eq_empty_of_forall_notMem (fun ω hω => ?_)
        obtain ⟨n, t, -, i, hi, -, h2, -⟩ := (neighborIn_iff hd hsize _ _ _).1 hω
        unfold usable at h2
        split at h2
        · cases h2
        · rename_i x hx
          exact absurd (com_pos h hx) (by omega)
      rw [e1, measure_empty]
    · refine ⟨passes s c.vec d P R N * gain s c.vec, ?_, fun S => ?_⟩
      · refine pos_iff_ne_zero.2 (mul_ne_zero (fun e => ?_) (gain_pos hl))
        have := one_le_passes (v := c.vec) (d := d) hr
        rw [e] at this
        simp at this
      · have e1 : {ω | NeighborIn s c (fun t => R t ω) (fun k => N k ω) S} = {ω | ∃ n t, run s c.vec d (fun t => R t ω) (fun k => N k ω) n = some t ∧
            Finds s c.vec d S (fun t => R t ω) (fun k => N k ω) t n} := by
          ext ω
          exact neighborIn_iff hd hsize _ _ _
        rw [e1, found_prob hr hl, mul_assoc]
        simp only [intoSet_eq h hd]
        rfl

/-- **C100**, termination. If, for some hyperparameter, a proposal is accepted with positive probability, then the probability that
`get_random_neighbor` runs forever is zero. -/
theorem C100_ends (h : Reach calls s) (hr : RandomCalls s P R N) (hsize : ∀ n, s.estimateSize = some n → 2 ≤ n) {i : Nat}
    (hi : P {ω | ∃ c', ChangesTo calls s c i (N 0 ω) c'} ≠ 0) :
    P {ω | NeighborForever s c (fun t => R t ω) (fun k => N k ω)} = 0 := by
  cases hd : c.toDict s with
  | error e =>
    have e1 : {ω | NeighborForever s c (fun t => R t ω) (fun k => N k ω)} = ∅ := by
      refine Set.eq_empty_of_forall_notMem (fun ω h1 => ?_)
      have h1 := h1 0
      unfold randomNeighbor at h1
      rw [hd] at h1
      cases h1
    rw [e1, measure_empty]
  | ok d =>
    have hil : i < s.len := by
      by_contra hne
      refine hi ?_
      have e2 : {ω | ∃ c', ChangesTo calls s c i (N 0 ω) c'} = ∅ := by
        refine Set.eq_empty_of_forall_notMem (fun ω => ?_)
        rintro ⟨c', y, hy, hat, -⟩
        have hidx : s.idx y.name = i := idx_unique (reach_ninv h).nodup hat
        have := idx_lt h ((reach_isNode h y.name).2 ⟨y, hy, rfl⟩)
        omega
      rw [e2, measure_empty]
    have e1 : {ω | NeighborForever s c (fun t => R t ω) (fun k => N k ω)} = {ω | ∀ n, ∃ t, run s c.vec d (fun t => R t ω) (fun k => N k ω) n = some t} := by
      ext ω
      exact forever_iff hd hsize _ _
    rw [e1]
    refine forever_zero hr (by omega) (fun e => hi ?_)
    have := (Finset.sum_eq_zero_iff.1 e) i (Finset.mem_range.2 hil)
    rw [intoSet_eq h hd] at this
    simpa using this

/-- **C100**, giving up. If a proposal is accepted with positive probability, then the `ValueError` ("Probably caught in an infinite
loop") is rare: its probability, times the probabilities of the accepted changes, is at most `n (1 - 1/n) ^ 10000` in a space with `n`
hyperparameters. -/
theorem C100_gives_up_rarely (h : Reach calls s) (hr : RandomCalls s P R N) {i : Nat}
    (hi : P {ω | ∃ c', ChangesTo calls s c i (N 0 ω) c'} ≠ 0) :
    P {ω | ∃ fuel, randomNeighbor s c (fun t => R t ω) (proposals s (fun k => N k ω)) fuel = some .stuck} *
      ∑ j ∈ Finset.range s.len, P {ω | ∃ c', ChangesTo calls s c j (N 0 ω) c'} ≤ s.len * (1 - (s.len : ENNReal)⁻¹) ^ 10000 := by
  obtain ⟨ω0, hω0⟩ : ∃ ω, ∃ c', ChangesTo calls s c i (N 0 ω) c' := by
    by_contra hne
    exact hi (by rw [show {ω | ∃ c', ChangesTo calls s c i (N 0 ω) c'} = ∅ from Set.eq_empty_of_forall_notMem (fun ω hω => hne ⟨ω, hω⟩), measure_empty])
  obtain ⟨c0, h0⟩ := hω0
  obtain ⟨d, hd⟩ : ∃ d, c.toDict s = .ok d := by
    obtain ⟨y, hy, hat, -, -, d, q, w, hd, -⟩ := h0
    exact ⟨d, hd⟩
  have hin : N 0 ω0 ∈ intoSet s c.vec d Set.univ i := by
    rw [intoSet_eq h hd]
    exact ⟨c0, trivial, h0⟩
  have hu : usable s c.vec i = true := hin.1
  have hil : i < s.len := by
    unfold usable at hu
    split at hu
    · cases hu
    · rename_i x hx
      exact com_pos h hx
  have key := stuck_bound (v := c.vec) (d := d) hr hil hu
  rw [tries_eq] at key
  refine le_trans (mul_le_mul' (measure_mono (fun ω hω => ?_)) (le_of_eq (Finset.sum_congr rfl (fun j _ => ?_)))) key
  · obtain ⟨fuel, hf⟩ := hω
    unfold randomNeighbor at hf
    rw [hd] at hf
    have hf : randomLoop s c.vec d (fun t => R t ω) (proposals s (fun k => N k ω)) fuel 0 0 = some .stuck := by
      simp only at hf
      split at hf
      · split at hf
        · cases hf
        · exact hf
      · exact hf
    obtain ⟨n, t, k1, k2⟩ := randomLoop_stuck fuel 0 0 hf
    refine ⟨n, t, by rw [run_eq]; exact k1, fun j hj => ?_⟩
    have := k2 j hj
    rw [drawn_mod (by omega)] at this
    exact this
  · rw [intoSet_eq h hd]
    simp only [Set.mem_univ, true_and]
    rfl

/-- **C100**: the random calls exist, for any distribution of the proposals. -/
theorem C100_calls_exist (hl : 0 < s.len) (ν : Measure Vec) (hν : IsProbabilityMeasure ν) :
    ∃ (Ω : Type) (_ : MeasurableSpace Ω) (P : Measure Ω) (R : Nat → Ω → Nat) (N : Nat → Ω → Vec), RandomCalls s P R N ∧
      ∀ B : Set Vec, P (N 0 ⁻¹' B) = ν B := calls_exist hl ν

namespace ExW
open Verif.ExR

noncomputable instance : IsProbabilityMeasure (Measure.dirac ([some 1, some 1, some 1] : Vec)) := Measure.dirac.isProbabilityMeasure

theorem lenL : Ex.spL.len = 3 := by decide +kernel

/-- The neighbour that is accepted. -/
def cfgY : Config := ⟨[some 0, some 0, some 1], some [("p", .str "a"), ("x", .str "a"), ("y", .str "b")], false⟩

theorem changesY {u : Vec} (hu : u.at 2 = some 1) : ChangesTo [Ex.callL] Ex.spL cfgL 2 u cfgY :=
  ⟨Ex.ab "y", by decide +kernel, by
    show Ex.spL.names[2]? = some "y"
    decide +kernel, ⟨0, by decide +kernel⟩, by
    intro n hn
    have : (Ex.ab "y").kind.size = some 2 := by decide +kernel
    rw [this] at hn
    cases hn
    omega, dictL, 1, .str "b", dictL_eq, hu, by decide +kernel, accL⟩

end ExW

/-- Example: in the chain `x | p == "a"`, `y | x == "a"` with the proposals always `"b"`, the configuration where `p`, `x` and `y` are
`"a"` has only one accepted neighbour, found by changing `y`; the call ends with probability one. -/
example : ∃ (Ω : Type) (_ : MeasurableSpace Ω) (P : Measure Ω) (R : Nat → Ω → Nat) (N : Nat → Ω → Vec), RandomCalls Ex.spL P R N ∧
    P {ω | ChangesTo [Ex.callL] Ex.spL ExR.cfgL 2 (N 0 ω) ExW.cfgY} = 1 ∧
    P {ω | NeighborForever Ex.spL ExR.cfgL (fun t => R t ω) (fun k => N k ω)} = 0 := by
  obtain ⟨Ω, mΩ, P, R, N, hr, hlaw⟩ := C100_calls_exist (s := Ex.spL) (by rw [ExW.lenL]; omega)
    (Measure.dirac ([some 1, some 1, some 1] : Vec)) inferInstance
  have hP := walk_prob hr
  have hone : P {ω | ChangesTo [Ex.callL] Ex.spL ExR.cfgL 2 (N 0 ω) ExW.cfgY} = 1 := by
    refine le_antisymm prob_le_one ?_
    have : P (N 0 ⁻¹' {u | u.at 2 = some 1}) = 1 := by
      rw [hlaw, Measure.dirac_apply' _ (MeasurableSpace.measurableSet_top (s := {u : Vec | u.at 2 = some 1}))]
      rw [Set.indicator_of_mem (show ([some 1, some 1, some 1] : Vec) ∈ {u : Vec | u.at 2 = some 1} from rfl), Pi.one_apply]
    rw [← this]
    exact measure_mono (fun ω hω => ExW.changesY hω)
  refine ⟨Ω, mΩ, P, R, N, hr, hone, C100_ends Ex.reachL hr (i := 2) ?_ (fun e => ?_)⟩
  · intro n hn
    have : Ex.spL.estimateSize = some 8 := by decide +kernel
    rw [this] at hn
    cases hn
    omega
  · have := measure_mono (μ := P) (show {ω | ChangesTo [Ex.callL] Ex.spL ExR.cfgL 2 (N 0 ω) ExW.cfgY} ⊆
      {ω | ∃ c', ChangesTo [Ex.callL] Ex.spL ExR.cfgL 2 (N 0 ω) c'} from fun ω hω => ⟨_, hω⟩)
    rw [e, hone] at this
    simp at this

/-- The same chain and proposals: the law of the neighbour that is returned, and how rarely the call gives up. -/
example : ∃ (Ω : Type) (_ : MeasurableSpace Ω) (P : Measure Ω) (R : Nat → Ω → Nat) (N : Nat → Ω → Vec), RandomCalls Ex.spL P R N ∧
    (∃ C : ENNReal, 0 < C ∧ ∀ S : Set Config, P {ω | NeighborIn Ex.spL ExR.cfgL (fun t => R t ω) (fun k => N k ω) S} =
      C * ∑ i ∈ Finset.range Ex.spL.len, P {ω | ∃ c' ∈ S, ChangesTo [Ex.callL] Ex.spL ExR.cfgL i (N 0 ω) c'}) ∧
    P {ω | ∃ fuel, randomNeighbor Ex.spL ExR.cfgL (fun t => R t ω) (proposals Ex.spL (fun k => N k ω)) fuel = some .stuck} *
      ∑ j ∈ Finset.range Ex.spL.len, P {ω | ∃ c', ChangesTo [Ex.callL] Ex.spL ExR.cfgL j (N 0 ω) c'} ≤
        Ex.spL.len * (1 - (Ex.spL.len : ENNReal)⁻¹) ^ 10000 := by
  obtain ⟨Ω, mΩ, P, R, N, hr, hlaw⟩ := C100_calls_exist (s := Ex.spL) (by rw [ExW.lenL]; omega)
    (Measure.dirac ([some 1, some 1, some 1] : Vec)) inferInstance
  refine ⟨Ω, mΩ, P, R, N, hr, C100_fair Ex.reachL hr ?_ ExR.cfgL, C100_gives_up_rarely Ex.reachL hr (i := 2) ?_⟩
  · intro n hn
    have : Ex.spL.estimateSize = some 8 := by decide +kernel
    rw [this] at hn
    cases hn
    omega
  · intro e
    have h1 : P (N 0 ⁻¹' {u | u.at 2 = some 1}) = 1 := by
      rw [hlaw, Measure.dirac_apply' _ (MeasurableSpace.measurableSet_top (s := {u : Vec | u.at 2 = some 1}))]
      rw [Set.indicator_of_mem (show ([some 1, some 1, some 1] : Vec) ∈ {u : Vec | u.at 2 = some 1} from rfl), Pi.one_apply]
    have := measure_mono (μ := P) (show N 0 ⁻¹' {u | u.at 2 = some 1} ⊆
      {ω | ∃ c', ChangesTo [Ex.callL] Ex.spL ExR.cfgL 2 (N 0 ω) c'} from fun ω hω => ⟨_, ExW.changesY hω⟩)
    rw [e, h1] at this
    simp at this

end Verif.Walk
