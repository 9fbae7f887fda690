import Verif.Props.AnyNumExchange
import Verif.Props.F64Neighbors

/-!
# C107, C108: one-exchange neighbourhoods in doubles on linear and logarithmic scales
-/

set_option autoImplicit false

namespace Verif.AnyNum
open Verif Verif.F64 Verif.Spec.Any
open Verif.Spec (OwnClauses OwnConds WeaklyLayered Covered At)

variable {lg ex : ℝ → ℝ} {log : HP → Bool} {calls : List Call} {s : Space}

open Classical in
theorem choice_legal {cs : List Val} {b : Bool} {j : Nat} (hj : j < cs.length) :
    legalVecD lg ex b (.cat cs) (j : ℝ) = true ∧ legalVecD lg ex b (.ord cs) (j : ℝ) = true := by
  have h : 0 ≤ (j : ℝ) ∧ (j : ℝ) < cs.length ∧ Num.closeToIntK (j : ℝ) :=
    ⟨by positivity, by exact_mod_cast hj, Scaled.closeToIntK_nat j⟩
  exact ⟨decide_eq_true h, decide_eq_true h⟩

open Classical in
/-- **C108** (partial: the entries of choices are their positions, `np.log` and `np.exp` are accurate, integer bounds are within
`DoubleRange`). The neighbours of an entry are legal entries: for every kind of hyperparameter and on both scales. -/
theorem C108_legal_partial (ha : Accurate lg ex) {h : HP} (hw : h.wf = true) {b : Bool} (hr : DoubleRange lg b h.kind) {x : ℝ}
    (hx : ExactChoice h.kind x) {n : Nat} {g : Gen ℝ} (hs : ∀ ns : List Nat, (g.shuffle ns).Perm ns) {r : List ℝ}
    (hn : neighborhood lg ex b h.kind x n g = some r) : ∀ y ∈ r, legalVecD lg ex b h.kind y = true := by
  cases hk : h.kind with
  | cat cs =>
    rw [hk] at hn hx
    obtain ⟨i, hi, rfl⟩ := hx
    obtain ⟨q, e, _, h2, _⟩ := C108_categorical (K := ℝ) hi (n := n) hs
    simp only [neighborhood, e, Option.map_some, Option.some.injEq] at hn
    subst hn
    intro y hy
    obtain ⟨j, hj, rfl⟩ := List.mem_map.1 hy
    exact (choice_legal (h2 j hj).1).1
  | ord cs =>
    rw [hk] at hn hx
    obtain ⟨hsz, i, hi, rfl⟩ := hx
    obtain ⟨q, e, _, h2, _⟩ := C108_ordinal (K := ℝ) hi hsz (n := n) g.pick
    simp only [neighborhood, e, Option.some.injEq] at hn
    subst hn
    intro y hy
    obtain ⟨j, hj, rfl⟩ := List.mem_map.1 hy
    exact (choice_legal (h2 j hj).1).2
  | const c =>
    rw [hk] at hn
    simp only [neighborhood, Option.some.injEq] at hn
    subst hn
    intro y hy
    cases hy
  | flt l u =>
    rw [hk] at hn
    intro y hy
    exact decide_eq_true ((C108_floats hn).2 y hy)
  | int l u =>
    rw [hk] at hn hr
    have hlu := wf_int' hw hk
    intro y hy
    refine decide_eq_true ?_
    cases b with
    | true =>
      have hr' : 1 ≤ l ∧ u ≤ 2 ^ 39 := hr
      exact (C108_log_integers ha hr'.1 hlu hr'.2 hn).1 y hy
    | false =>
      have hr' : |l| ≤ 2 ^ 49 ∧ |u| ≤ 2 ^ 49 := hr
      obtain ⟨ms, rfl, _, h3, _⟩ := C108_integers (K := ℝ) (hr'.1.trans (by norm_num)) (hr'.2.trans (by norm_num)) hlu hn
      obtain ⟨m, hm, rfl⟩ := List.mem_map.1 hy
      exact (C75_int_legal (K := ℝ) hr'.1 hr'.2 hlu (h3 m hm).1 (h3 m hm).2).1

/-- **C108** (partial: the entry is that of a value, and integer ranges are fine enough; without this see
`C108_current_integer_proposed`). A choice or an integer is never proposed as its own neighbour. -/
theorem C108_fresh_partial (ha : Accurate lg ex) {h : HP} (hw : h.wf = true) {b : Bool} (hr : DoubleRange lg b h.kind)
    (hf : FineRange b h.kind) {x : ℝ} (hx : ExactEntry lg ex b h.kind x) {n : Nat} {g : Gen ℝ}
    (hs : ∀ ns : List Nat, (g.shuffle ns).Perm ns) {r : List ℝ} (hn : neighborhood lg ex b h.kind x n g = some r) : x ∉ r := by
  cases hk : h.kind with
  | cat cs =>
    rw [hk] at hn hx
    obtain ⟨i, hi, rfl⟩ := hx
    obtain ⟨q, e, _, h2, _⟩ := C108_categorical (K := ℝ) hi (n := n) hs
    simp only [neighborhood, e, Option.map_some, Option.some.injEq] at hn
    subst hn
    intro hy
    obtain ⟨j, hj, e⟩ := List.mem_map.1 hy
    exact (h2 j hj).2 (by exact_mod_cast e)
  | ord cs =>
    rw [hk] at hn hx
    obtain ⟨hsz, i, hi, rfl⟩ := hx
    obtain ⟨q, e, _, h2, _⟩ := C108_ordinal (K := ℝ) hi hsz (n := n) g.pick
    simp only [neighborhood, e, Option.some.injEq] at hn
    subst hn
    intro hy
    obtain ⟨j, hj, e⟩ := List.mem_map.1 hy
    have e' : j = i := by exact_mod_cast e
    have := (h2 j hj).2
    omega
  | const c =>
    rw [hk] at hn
    simp only [neighborhood, Option.some.injEq] at hn
    subst hn
    simp
  | flt l u =>
    rw [hk] at hf
    exact hf.elim
  | int l u =>
    rw [hk] at hn hr hf hx
    have hlu := wf_int' hw hk
    obtain ⟨m, m1, m2, hx⟩ := hx
    cases b with
    | true =>
      have hr' : 1 ≤ l ∧ u ≤ 2 ^ 39 := hr
      have hx' : LogEntryOf lg ex l u m x := hx
      have hf' : (u - l) * u ≤ 2 ^ 37 := hf
      intro hy
      exact C108_log_integers_fresh_partial ha hr'.1 hlu hr'.2 hf' m1 m2 hx' hn x hy (entry_near ha hr'.1 hlu hr'.2 m1 m2 hx').2
    | false =>
      have hf' : |l| < 2 ^ 49 ∧ |u| < 2 ^ 49 ∧ u - l < 2 ^ 25 := hf
      have hx' : x = toVecInt l u m := hx
      subst hx'
      exact C108_integers_fresh_partial hf'.1 hf'.2.1 hlu hf'.2.2 m1 m2 hn

/-- What the hyperparameters of a space propose is legal. -/
theorem double_proposals_legal (ha : Accurate lg ex) (h : Reach calls s) (hr : DoubleRanges lg log calls) {a : Entries ℝ}
    (hc : ∀ y ∈ allHps calls, ∀ x, a y.name = some x → ExactChoice y.kind x) {nb : Nat → Name → List ℝ}
    (hnb : DoubleProposals lg ex log calls a nb) : LegalProposals (doubles lg ex log) calls a nb := by
  intro k y hy ⟨q, hq⟩ x hx
  obtain ⟨n, g, r, hs, hn, hp⟩ := hnb k y hy q hq
  exact C108_legal_partial ha ((reach_wf h).1 y hy) (hr y hy) (hc y hy q hq) hs hn x (hp.mem_iff.1 hx)

/-- **C107, doubles on linear and logarithmic scales** (partial: the conditions are weakly layered literals, clauses that concern what depends
on the exchanged hyperparameter mention it, the ranges survive rounding, the entries of choices are their positions). Every
neighbour that the generator yields for a valid configuration is valid and passes `check_configuration`, whatever is drawn and
whatever is chosen. -/
theorem C107_double_neighbours_valid_partial (ha : Accurate lg ex) (h : Reach calls s) (ho : OwnConds calls)
    (hlit : ∀ c ∈ allConds calls, ∃ l, c = .lit l) (hw : WeaklyLayered calls) (hown : OwnClauses calls) (hr : DoubleRanges lg log calls)
    (hp : PlainValues calls) {v : AVec ℝ} {a : Entries ℝ} (hv : Represents s v a) (hval : Valid (doubles lg ex log) calls a)
    (hc : ∀ y ∈ allHps calls, ∀ x, a y.name = some x → ExactChoice y.kind x) {nb : Nat → Name → List ℝ}
    (hnb : DoubleProposals lg ex log calls a nb) {cur : Name → Except Err Val} {num : Nat} {choices : List Nat} {st : AnyNum.ExState ℝ}
    (hrun : oneExchange (doubles lg ex log) s v cur num nb choices = .ok st) {n : Name} {w : AVec ℝ} (hm : (n, w) ∈ st.out)
    (hcov : Covered calls n) :
    ∃ b, Represents s w b ∧ Valid (doubles lg ex log) calls b ∧ check (doubles lg ex log) s w = none :=
  C107_neighbours_valid_partial h (C105_literals_separable h ho (doubles_equalEntries calls) hlit) hown (double_clauses ha h hown hr hp)
    (double_defaults ha h hr hp) hw hv hval (double_proposals_legal ha h hr hc hnb) hrun hm hcov

/-- **C107, doubles on linear and logarithmic scales** (partial: the exchanged hyperparameter is a choice, a constant or an integer with a
fine range, and its entry is that of a value). No neighbour is the configuration itself. -/
theorem C107_double_neighbours_differ_partial (ha : Accurate lg ex) (h : Reach calls s) (hown : OwnClauses calls)
    (hr : DoubleRanges lg log calls) (hp : PlainValues calls) {v : AVec ℝ} {a : Entries ℝ} (hv : Represents s v a)
    {nb : Nat → Name → List ℝ} (hnb : DoubleProposals lg ex log calls a nb) {cur : Name → Except Err Val} {num : Nat}
    {choices : List Nat} {st : AnyNum.ExState ℝ} (hrun : oneExchange (doubles lg ex log) s v cur num nb choices = .ok st)
    {y : HP} (hy : y ∈ allHps calls) (hf : FineRange (log y) y.kind) (hx : ∀ x, a y.name = some x → ExactEntry lg ex (log y) y.kind x)
    {w : AVec ℝ} (hm : (y.name, w) ∈ st.out) : w ≠ v := by
  obtain ⟨z, hz, e, ⟨q, hq⟩, k, x, b, hxn, rfl, hb, hbn, _, _⟩ :=
    C107_one_value_exchanged h hown (double_clauses ha h hown hr hp) hv hrun hm
  have hn := (reach_isNode h y.name).2 ⟨y, hy, rfl⟩
  intro hwv
  have hax : a y.name = some x := by rw [← at_idx hv hn, ← hbn, ← at_idx hb hn, hwv]
  obtain ⟨n, g, r, hs, hr', hperm⟩ := hnb k y hy x hax
  exact C108_fresh_partial ha ((reach_wf h).1 y hy) (hr y hy) hf (hx x hax) hs hr' (hperm.mem_iff.1 hxn)

/-! ## Examples -/

namespace ExNb
open Verif.AnyNum.ExAn Verif.Scaled.ExL

/-- What is proposed: the other optimisers, and the other integers. -/
noncomputable def nb : Nat → Name → List ℝ := fun _ n =>
  if n = "opt" then [1] else if n = "m" then (otherInts 49 60 50).map (toVecLogInt lgR 49 60) else []

theorem entryM : aM "m" = some (toVecLogInt lgR 49 60 50) := by
  show some (D.toVec hpM (.int 50)) = _
  congr 1

theorem proposals : DoubleProposals lgR exR logM [callM] aM nb := by
  intro k y hy x hx
  rcases memM hy with rfl | rfl
  · have e : some (0 : ℝ) = some x := hx
    cases e
    refine ⟨1, ⟨id, true, []⟩, [1], fun _ => List.Perm.refl _, ?_, List.Perm.refl _⟩
    show (catNeighbors 2 (0 : ℝ) 1 id).map _ = _
    simp [catNeighbors, Num.others, List.range_succ]
  · have hx' : aM "m" = some x := hx
    rw [entryM] at hx'
    cases hx'
    refine ⟨20, ⟨id, true, []⟩, _, fun _ => List.Perm.refl _, ?_, List.Perm.refl _⟩
    show (if logM hpM = true then logIntNeighbors lgR exR 49 60 (toVecLogInt lgR 49 60 50) 20 [] else
      intNeighbors 49 60 (toVecLogInt lgR 49 60 50) 20 []) = _
    rw [if_pos (by decide)]
    exact C108_log_integers_all_partial accurate_rd (by norm_num) (by norm_num) (by norm_num) (by norm_num) (by norm_num) (by norm_num)
      (.inl rfl) (by norm_num) (by norm_num) []

theorem exactM : ∀ y ∈ allHps [callM], ∀ x, aM y.name = some x → ExactEntry lgR exR (logM y) y.kind x := by
  intro y hy x hx
  rcases memM hy with rfl | rfl
  · have e : some (0 : ℝ) = some x := hx
    cases e
    exact ⟨0, by decide, by simp⟩
  · have hx' : aM "m" = some x := hx
    rw [entryM] at hx'
    cases hx'
    refine ⟨50, by norm_num, by norm_num, ?_⟩
    rw [if_pos (by decide)]
    exact .inl rfl

theorem coveredM (n : Name) : Covered [callM] n := by
  intro f hf
  simp [allForbs, callM] at hf

/-- The generator, with the choices `0` (exchange `opt`) and `1` (exchange `m`): two neighbours. -/
theorem run : ∃ st, oneExchange D spM vM (fun _ => .error .keyError) 20 nb [0, 1] = .ok st ∧
    st.out.map Prod.fst = ["opt", "m"] := by
  have h : (oneExchange D spM vM (fun _ => .error .keyError) 20 nb [0, 1]).map (fun st => st.out.map Prod.fst) = .ok ["opt", "m"] := by
    with_unfolding_all rfl
  cases hr : oneExchange D spM vM (fun _ => .error .keyError) 20 nb [0, 1] with
  | error e => rw [hr] at h; cases h
  | ok st =>
    rw [hr] at h
    exact ⟨st, rfl, by simpa [Except.map] using h⟩

/-- So the hypotheses of `C107_double_neighbours_valid_partial` and `C107_double_neighbours_differ_partial` can be met. -/
example : ∃ w, w ≠ vM ∧ check D spM w = none := by
  obtain ⟨st, hr, ho⟩ := run
  match hst : st.out, ho with
  | (n, w) :: _, ho =>
    have hn : n = "opt" := by simpa using (List.cons.inj ho).1
    subst hn
    have hm : ("opt", w) ∈ st.out := by rw [hst]; simp
    have hopt : hpOpt ∈ allHps [callM] := by simp [allHps, callM]
    refine ⟨w, C107_double_neighbours_differ_partial accurate_rd reachM ownForbsM rangesM plainM repM proposals hr hopt trivial
      (exactM _ hopt) hm, ?_⟩
    obtain ⟨b, -, -, h3⟩ := C107_double_neighbours_valid_partial accurate_rd reachM ownM litsM weaklyM ownForbsM rangesM plainM repM validM
      (by
        intro y hy x hx
        have := exactM y hy x hx
        rcases memM hy with rfl | rfl
        · exact this
        · trivial) proposals hr hm (coveredM _)
    exact h3

/-- No choice of the generator makes it fail, so the hypotheses of `C107_no_failure` can be met. -/
example (choices : List Nat) : ∃ st, oneExchange D spM vM (fun _ => .error .keyError) 20 nb choices = .ok st := by
  refine C107_no_failure reachM ?_ (by norm_num) ?_ choices
  · intro y hy cs hk
    rcases memM hy with rfl | rfl <;> cases hk
  · intro k y hy _
    rcases memM hy with rfl | rfl
    · show [(1 : ℝ)] ≠ []
      simp
    · show (otherInts 49 60 50).map (toVecLogInt lgR 49 60) ≠ []
      rw [ne_eq, List.map_eq_nil_iff]
      decide

/-- All choices that are not forbidden are tried, so the hypotheses of `C107_choices_exhausted` can be met. -/
example : ∃ st, oneExchange D spM vM (fun _ => .error .keyError) 1 nb [0, 1] = .ok st ∧ st.alive = 0 ∧
    ∃ (k : Nat) (l : List ℝ), l.Sublist (nb k "opt") ∧ yieldedFor st "opt" = l.map (fun x => changeHp D spM vM "opt" x (spM.idx "opt")) := by
  have h : (oneExchange D spM vM (fun _ => .error .keyError) 1 nb [0, 1]).map (fun st => st.alive) = .ok 0 := by
    with_unfolding_all rfl
  cases hr : oneExchange D spM vM (fun _ => .error .keyError) 1 nb [0, 1] with
  | error e => rw [hr] at h; cases h
  | ok st =>
    rw [hr] at h
    have h0 : st.alive = 0 := by simpa [Except.map] using h
    obtain ⟨k, l, h1, h2, -⟩ := C107_choices_exhausted (y := hpOpt) reachM ownForbsM
      (double_clauses accurate_rd reachM ownForbsM rangesM plainM) repM hr h0 (by simp [allHps, callM]) (.inl ⟨_, rfl⟩) ⟨_, rfl⟩
      (by decide) (fun k => rfl)
    exact ⟨st, rfl, h0, k, l, h1, h2⟩

end ExNb

end Verif.AnyNum
