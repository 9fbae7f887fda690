import Verif.Lemmas.RandomNeighbor
import Verif.Spec.FairNeighbor
import Verif.Lemmas.ScaledSample

/-!
# Lemmas: the passes of `get_random_neighbor`
-/

set_option autoImplicit false

namespace Verif.Walk
open Verif Verif.Spec

variable {calls : List Call} {s : Space} {v : Vec} {d : Dict} {rand rand' : Nat → Nat} {u u' : Nat → Vec}

/-- The hyperparameter at position `i` can be chosen. -/
def usable (s : Space) (v : Vec) (i : Nat) : Bool := match s.com[i]? with
  | none => false
  | some x => isSet (v.at i) && !x.hp.kind.tiny

/-- What the pass makes of position `i` and the proposals `u`. -/
inductive Pass (s : Space) (d : Dict) (i : Nat) (u : Vec) : RandomNeighbor → Prop
  | mk {x : Node} {q : Rat} {w : Val} {c : Config} : s.com[i]? = some x → u.at (s.idx x.name) = some q → x.hp.kind.toVal q = some w →
      Config.ofValues s (dictSet d x.name (some w)) = .ok c → Pass s d i u (.found c)

/-- The pass from position `i` ends with another pass. -/
def again (s : Space) (d : Dict) (i : Nat) (u : Vec) : Bool := match s.com[i]? with
  | none => false
  | some x => match u.at (s.idx x.name) with
    | none => false
    | some q => match x.hp.kind.toVal q with
      | none => false
      | some w => match Config.ofValues s (dictSet d x.name (some w)) with
        | .ok _ => false
        | .error e => e.isValueError

/-- One pass: the next number of draws if the proposal is rejected. -/
def step (s : Space) (v : Vec) (d : Dict) (rand : Nat → Nat) (u : Nat → Vec) (t k : Nat) : Option Nat :=
  match pickActive s v rand 10000 t with
  | none => none
  | some (_, t') => bif again s d (drawn s rand (t' - 1)) (u k) then some t' else none

/-- The number of draws after `n` rejected passes. -/
def run (s : Space) (v : Vec) (d : Dict) (rand : Nat → Nat) (u : Nat → Vec) : Nat → Option Nat
  | 0 => some 0
  | n + 1 => (run s v d rand u n).bind (fun t => step s v d rand u t n)

theorem pickActive_iff {x : Node} : ∀ {m t t' : Nat}, pickActive s v rand m t = some (x, t') ↔
    ∃ i < m, t' = t + i + 1 ∧ (∀ j < i, usable s v (drawn s rand (t + j)) = false) ∧
      usable s v (drawn s rand (t + i)) = true ∧ s.com[drawn s rand (t + i)]? = some x := by
  intro m
  induction m with
  | zero =>
    intro t t'
    constructor
    · intro h
      cases h
    · rintro ⟨i, hi, -⟩
      omega
  | succ m ih =>
    intro t t'
    have hsplit : pickActive s v rand (m + 1) t = if usable s v (drawn s rand t) = true then
        (s.com[drawn s rand t]?).map (fun x => (x, t + 1)) else pickActive s v rand m (t + 1) := by
      rw [pickActive_succ]
      unfold usable
      cases s.com[drawn s rand t]? with
      | none => simp
      | some y => simp
    rw [hsplit]
    by_cases hu : usable s v (drawn s rand t) = true
    · rw [if_pos hu]
      constructor
      · intro h
        obtain ⟨y, hy, e⟩ := Option.map_eq_some_iff.1 h
        cases e
        exact ⟨0, by omega, rfl, by omega, hu, hy⟩
      · rintro ⟨i, hi, rfl, h1, h2, h3⟩
        rcases Nat.eq_zero_or_pos i with rfl | hp
        · rw [show t + 0 = t from rfl] at h3
          rw [h3]
          rfl
        · have := h1 0 hp
          rw [show t + 0 = t from rfl, hu] at this
          cases this
    · rw [if_neg hu, ih]
      constructor
      · rintro ⟨i, hi, rfl, h1, h2, h3⟩
        refine ⟨i + 1, by omega, by omega, fun j hj => ?_, ?_, ?_⟩
        · rcases Nat.eq_zero_or_pos j with rfl | hp
          · simpa using hu
          · have := h1 (j - 1) (by omega)
            rwa [show t + 1 + (j - 1) = t + j from by omega] at this
        · rwa [show t + (i + 1) = t + 1 + i from by omega]
        · rwa [show t + (i + 1) = t + 1 + i from by omega]
      · rintro ⟨i, hi, rfl, h1, h2, h3⟩
        rcases Nat.eq_zero_or_pos i with rfl | hp
        · exact absurd h2 hu
        · refine ⟨i - 1, by omega, by omega, fun j hj => ?_, ?_, ?_⟩
          · have := h1 (j + 1) (by omega)
            rwa [show t + (j + 1) = t + 1 + j from by omega] at this
          · rwa [show t + 1 + (i - 1) = t + i from by omega]
          · rwa [show t + 1 + (i - 1) = t + i from by omega]

theorem step_iff {t k t' : Nat} : step s v d rand u t k = some t' ↔
    ∃ i < 10000, t' = t + i + 1 ∧ (∀ j < i, usable s v (drawn s rand (t + j)) = false) ∧
      usable s v (drawn s rand (t + i)) = true ∧ again s d (drawn s rand (t + i)) (u k) = true := by
  unfold step
  constructor
  · intro h
    split at h
    · cases h
    · rename_i x t1 hp
      obtain ⟨i, hi, rfl, h1, h2, h3⟩ := pickActive_iff.1 hp
      simp only [Nat.add_sub_cancel] at h
      cases ha : again s d (drawn s rand (t + i)) (u k) with
      | false => rw [ha] at h; cases h
      | true =>
        rw [ha] at h
        cases h
        exact ⟨i, hi, rfl, h1, h2, ha⟩
  · rintro ⟨i, hi, rfl, h1, h2, h3⟩
    have : ∃ x, s.com[drawn s rand (t + i)]? = some x := by
      unfold usable at h2
      split at h2
      · cases h2
      · exact ⟨_, by assumption⟩
    obtain ⟨x, hx⟩ := this
    rw [pickActive_iff.2 ⟨i, hi, rfl, h1, h2, hx⟩]
    simp only [Nat.add_sub_cancel]
    rw [h3]
    rfl

/-- A pass, seen from the draws. -/
theorem randomLoop_succ {fuel t k : Nat} : randomLoop s v d rand (proposals s u) (fuel + 1) t k =
    match pickActive s v rand 10000 t with
    | none => some .stuck
    | some (x, t') => match (u k).at (s.idx x.name) with
      | none => some (.raised .indexError)
      | some q => match x.hp.kind.toVal q with
        | none => some (.raised .valueError)
        | some w => match Config.ofValues s (dictSet d x.name (some w)) with
          | .ok c => some (.found c)
          | .error e => if e.isValueError then randomLoop s v d rand (proposals s u) fuel t' (k + 1) else some (.raised e) := by
  rw [randomLoop]
  cases pickActive s v rand 10000 t with
  | none => rfl
  | some p =>
    obtain ⟨x, t'⟩ := p
    simp only [proposals]
    cases (u k).at (s.idx x.name) with
    | none => rfl
    | some q => rfl

theorem loop_none {fuel t k : Nat} : randomLoop s v d rand (proposals s u) (fuel + 1) t k = none ↔
    ∃ t', step s v d rand u t k = some t' ∧ randomLoop s v d rand (proposals s u) fuel t' (k + 1) = none := by
  rw [randomLoop_succ]
  unfold step
  cases hp : pickActive s v rand 10000 t with
  | none => simp
  | some p =>
    obtain ⟨x, t'⟩ := p
    obtain ⟨i, hi, rfl, h1, h2, h3⟩ := pickActive_iff.1 hp
    simp only [Nat.add_sub_cancel, again, h3]
    cases (u k).at (s.idx x.name) with
    | none => simp
    | some q =>
      simp only
      cases x.hp.kind.toVal q with
      | none => simp
      | some w =>
        simp only
        cases Config.ofValues s (dictSet d x.name (some w)) with
        | ok c => simp
        | error e =>
          simp only
          cases e.isValueError <;> simp

theorem loop_found {fuel t k : Nat} {c : Config} : randomLoop s v d rand (proposals s u) (fuel + 1) t k = some (.found c) ↔
    (∃ t', step s v d rand u t k = some t' ∧ randomLoop s v d rand (proposals s u) fuel t' (k + 1) = some (.found c)) ∨
    ∃ i < 10000, (∀ j < i, usable s v (drawn s rand (t + j)) = false) ∧ usable s v (drawn s rand (t + i)) = true ∧
      Pass s d (drawn s rand (t + i)) (u k) (.found c) := by
  have hpass : (∃ i < 10000, (∀ j < i, usable s v (drawn s rand (t + j)) = false) ∧ usable s v (drawn s rand (t + i)) = true ∧
      Pass s d (drawn s rand (t + i)) (u k) (.found c)) ↔ ∃ x t' q w, pickActive s v rand 10000 t = some (x, t') ∧
        (u k).at (s.idx x.name) = some q ∧ x.hp.kind.toVal q = some w ∧ Config.ofValues s (dictSet d x.name (some w)) = .ok c := by
    constructor
    · rintro ⟨i, hi, h1, h2, h3⟩
      cases h3 with
      | mk a b e f => exact ⟨_, _, _, _, pickActive_iff.2 ⟨i, hi, rfl, h1, h2, a⟩, b, e, f⟩
    · rintro ⟨x, t', q, w, hp, b, e, f⟩
      obtain ⟨i, hi, rfl, h1, h2, h3⟩ := pickActive_iff.1 hp
      exact ⟨i, hi, h1, h2, .mk h3 b e f⟩
  rw [hpass, randomLoop_succ]
  unfold step
  cases hp : pickActive s v rand 10000 t with
  | none => simp
  | some p =>
    obtain ⟨x, t'⟩ := p
    obtain ⟨i, hi, rfl, h1, h2, h3⟩ := pickActive_iff.1 hp
    simp only [Nat.add_sub_cancel, again, h3, Option.some.injEq, Prod.mk.injEq]
    cases hu : (u k).at (s.idx x.name) with
    | none =>
      simp only [reduceCtorEq, cond_false, false_and, exists_false, false_or, false_iff, Bool.false_eq_true, Option.some.injEq]
      rintro ⟨x', t', q, w, ⟨rfl, rfl⟩, hq, _⟩
      rw [hu] at hq
      cases hq
    | some q =>
      simp only
      cases ht : x.hp.kind.toVal q with
      | none =>
        simp only [reduceCtorEq, cond_false, false_and, exists_false, false_or, false_iff, Bool.false_eq_true, Option.some.injEq]
        rintro ⟨x', t', q', w, ⟨rfl, rfl⟩, hq, ht', _⟩
        rw [hu] at hq
        cases hq
        rw [ht] at ht'
        cases ht'
      | some w =>
        simp only
        cases hc : Config.ofValues s (dictSet d x.name (some w)) with
        | ok c1 =>
          simp only [reduceCtorEq, cond_false, false_and, exists_false, false_or, Bool.false_eq_true, Option.some.injEq, RandomNeighbor.found.injEq]
          constructor
          · rintro rfl
            exact ⟨x, _, q, w, ⟨rfl, rfl⟩, hu, ht, hc⟩
          · rintro ⟨x', t', q', w', ⟨rfl, rfl⟩, hq, ht', hc'⟩
            rw [hu] at hq
            cases hq
            rw [ht] at ht'
            cases ht'
            rw [hc] at hc'
            cases hc'
            rfl
        | error e =>
          simp only
          have hno : ¬ ∃ x' t' q' w', (x = x' ∧ t + i + 1 = t') ∧ (u k).at (s.idx x'.name) = some q' ∧ x'.hp.kind.toVal q' = some w' ∧
              Config.ofValues s (dictSet d x'.name (some w')) = .ok c := by
            rintro ⟨x', t', q', w', ⟨rfl, rfl⟩, hq, ht', hc'⟩
            rw [hu] at hq
            cases hq
            rw [ht] at ht'
            cases ht'
            rw [hc] at hc'
            cases hc'
          cases e.isValueError with
          | true =>
            simp only [cond_true, if_true, Option.some.injEq, exists_eq_left', hno, or_false]
          | false => simpa using hno

/-- The passes from `t`, `k` on. -/
def runFrom (s : Space) (v : Vec) (d : Dict) (rand : Nat → Nat) (u : Nat → Vec) : Nat → Nat → Nat → Option Nat
  | 0, t, _ => some t
  | n + 1, t, k => (step s v d rand u t k).bind (fun t' => runFrom s v d rand u n t' (k + 1))

theorem runFrom_snoc : ∀ (n t k : Nat), runFrom s v d rand u (n + 1) t k =
    (runFrom s v d rand u n t k).bind (fun t' => step s v d rand u t' (k + n))
  | 0, t, k => by
    simp only [runFrom, Option.bind_some, Nat.add_zero]
    cases step s v d rand u t k <;> rfl
  | n + 1, t, k => by
    rw [runFrom]
    conv_rhs => rw [runFrom]
    cases step s v d rand u t k with
    | none => rfl
    | some t' =>
      simp only [Option.bind_some]
      rw [runFrom_snoc n t' (k + 1), show k + 1 + n = k + (n + 1) from by omega]

theorem run_eq : ∀ n, run s v d rand u n = runFrom s v d rand u n 0 0
  | 0 => rfl
  | n + 1 => by
    rw [run, run_eq n, runFrom_snoc]
    simp

theorem randomLoop_none_iff : ∀ (fuel t k : Nat), randomLoop s v d rand (proposals s u) fuel t k = none ↔
    ∃ t', runFrom s v d rand u fuel t k = some t'
  | 0, t, k => by simp [randomLoop, runFrom]
  | fuel + 1, t, k => by
    rw [loop_none, runFrom]
    cases step s v d rand u t k with
    | none => simp
    | some t' =>
      have := randomLoop_none_iff fuel t' (k + 1)
      simp [this]

/-- The pass from `t` and `k` finds a configuration in `S`. -/
def Finds (s : Space) (v : Vec) (d : Dict) (S : Set Config) (rand : Nat → Nat) (u : Nat → Vec) (t k : Nat) : Prop :=
  ∃ i < 10000, (∀ j < i, usable s v (drawn s rand (t + j)) = false) ∧ usable s v (drawn s rand (t + i)) = true ∧
    ∃ c ∈ S, Pass s d (drawn s rand (t + i)) (u k) (.found c)

theorem randomLoop_found_iff {S : Set Config} : ∀ (fuel t k : Nat),
    (∃ c ∈ S, randomLoop s v d rand (proposals s u) fuel t k = some (.found c)) ↔
    ∃ n < fuel, ∃ t', runFrom s v d rand u n t k = some t' ∧ Finds s v d S rand u t' (k + n)
  | 0, t, k => by simp [randomLoop]
  | fuel + 1, t, k => by
    constructor
    · rintro ⟨c, hc, h⟩
      rcases loop_found.1 h with ⟨t', h1, h2⟩ | ⟨i, hi, h1, h2, h3⟩
      · obtain ⟨n, hn, t2, k1, k2⟩ := (randomLoop_found_iff fuel t' (k + 1)).1 ⟨c, hc, h2⟩
        refine ⟨n + 1, by omega, t2, by rw [runFrom, h1]; exact k1, ?_⟩
        rwa [show k + (n + 1) = k + 1 + n from by omega]
      · exact ⟨0, by omega, t, rfl, i, hi, h1, h2, c, hc, h3⟩
    · rintro ⟨n, hn, t2, h1, h2⟩
      rcases Nat.eq_zero_or_pos n with rfl | hp
      · simp only [runFrom, Option.some.injEq] at h1
        subst h1
        obtain ⟨i, hi, k1, k2, c, hc, k3⟩ := h2
        exact ⟨c, hc, loop_found.2 (.inr ⟨i, hi, k1, k2, k3⟩)⟩
      · obtain ⟨m, rfl⟩ : ∃ m, n = m + 1 := ⟨n - 1, by omega⟩
        rw [runFrom] at h1
        cases hs : step s v d rand u t k with
        | none => rw [hs] at h1; cases h1
        | some t' =>
          rw [hs] at h1
          obtain ⟨c, hc, k1⟩ := (randomLoop_found_iff (S := S) fuel t' (k + 1)).2 ⟨m, by omega, t2, h1, by
            rwa [show k + 1 + m = k + (m + 1) from by omega]⟩
          exact ⟨c, hc, loop_found.2 (.inl ⟨t', hs, k1⟩)⟩

theorem drawn_congr {t : Nat} (h : rand t = rand' t) : drawn s rand t = drawn s rand' t := by
  unfold drawn
  rw [h]

theorem step_congr {t k t' : Nat} (hr : ∀ j, t ≤ j → j < t' → rand j = rand' j) (hu : u k = u' k) (h : step s v d rand u t k = some t') :
    step s v d rand' u' t k = some t' := by
  obtain ⟨i, hi, rfl, h1, h2, h3⟩ := step_iff.1 h
  refine step_iff.2 ⟨i, hi, rfl, fun j hj => ?_, ?_, ?_⟩
  · rw [← drawn_congr (hr (t + j) (by omega) (by omega))]
    exact h1 j hj
  · rw [← drawn_congr (hr (t + i) (by omega) (by omega))]
    exact h2
  · rw [← drawn_congr (hr (t + i) (by omega) (by omega)), ← hu]
    exact h3

theorem step_lt {t k t' : Nat} (h : step s v d rand u t k = some t') : t < t' := by
  obtain ⟨i, hi, rfl, -⟩ := step_iff.1 h
  omega

/-- What happened in the first `n` passes depends on the draws that were made only. -/
theorem run_congr : ∀ {n t : Nat}, (∀ j < t, rand j = rand' j) → (∀ k < n, u k = u' k) → run s v d rand u n = some t →
    run s v d rand' u' n = some t
  | 0, t, _, _, h => h
  | n + 1, t, hr, hu, h => by
    rw [run] at h ⊢
    obtain ⟨t1, h1, h2⟩ := Option.bind_eq_some_iff.1 h
    have hlt := step_lt h2
    rw [run_congr (n := n) (fun j hj => hr j (by omega)) (fun k hk => hu k (by omega)) h1]
    exact step_congr (fun j _ hj => hr j hj) (hu n (by omega)) h2

end Verif.Walk
