import Verif.Model.Bounds
import Verif.Props.FromDict
import Mathlib.Tactic.IntervalCases

/-!
# C112: building a space from a list of bounds
-/

set_option autoImplicit false

namespace Verif
open Verif.Spec

theorem boundName_inj {i j : Nat} (h : boundName i = boundName j) : i = j := by
  unfold boundName at h
  have h' : ("x" ++ Nat.repr i).toList = ("x" ++ Nat.repr j).toList := by rw [h]
  simp only [String.toList_append] at h'
  have := List.append_cancel_left h'
  have h2 : Nat.repr i = Nat.repr j := String.toList_inj.1 this
  have h3 : Nat.toDigits 10 i = Nat.toDigits 10 j := by
    have := congrArg String.toList h2
    rwa [Nat.toList_repr, Nat.toList_repr] at this
  have := congrArg (fun l => Nat.ofDigitChars 10 l 0) h3
  simpa only [Nat.ofDigitChars_ten_toDigits] using this

theorem boundHps_forall₂ : ∀ {i : Nat} {bs : List (Rat × Rat)} {hs : List HP}, boundHps i bs = .ok hs →
    hs.length = bs.length ∧ ∀ j b, bs[j]? = some b → ∃ h, hs[j]? = some h ∧ mkFlt (boundName (i + j)) b.1 b.2 none = .ok h
  | i, [], hs, h => by simp only [boundHps, Except.ok.injEq] at h; subst h; simp
  | i, (l, u) :: bs, hs, h => by
    simp only [boundHps] at h
    split at h
    · cases h
    · rename_i x hx
      split at h
      · cases h
      · rename_i xs hxs
        cases h
        obtain ⟨h1, h2⟩ := boundHps_forall₂ hxs
        refine ⟨by simp [h1], fun j b hb => ?_⟩
        cases j with
        | zero => simp only [List.getElem?_cons_zero, Option.some.injEq] at hb; subst hb; exact ⟨x, rfl, hx⟩
        | succ j =>
          simp only [List.getElem?_cons_succ] at hb ⊢
          obtain ⟨y, e1, e2⟩ := h2 j b hb
          exact ⟨y, e1, by rw [← e2]; congr 2; omega⟩

theorem boundHps_ok : ∀ {i : Nat} {bs : List (Rat × Rat)}, (∀ b ∈ bs, b.1 + 1 / 10 ^ 13 < b.2) → ∃ hs, boundHps i bs = .ok hs
  | i, [], _ => ⟨[], rfl⟩
  | i, (l, u) :: bs, h => by
    obtain ⟨x, hx, _⟩ := parseEntry_sane (n := boundName i) (e := .tuple [.flt l, .flt u]) (h (l, u) (by simp))
    simp only [parseEntry, boundOf, Val.num?] at hx
    obtain ⟨hs, hh⟩ := boundHps_ok (i := i + 1) (fun b hb => h b (List.mem_cons_of_mem _ hb))
    exact ⟨x :: hs, by simp [boundHps, hx, hh]⟩

theorem boundHps_names {i : Nat} {bs : List (Rat × Rat)} {hs : List HP} (h : boundHps i bs = .ok hs) {j : Nat} {x : HP}
    (hx : hs[j]? = some x) : x.name = boundName (i + j) ∧ x.wf = true ∧ j < bs.length := by
  obtain ⟨h1, h2⟩ := boundHps_forall₂ h
  have hj : j < bs.length := by rw [← h1]; exact (List.getElem?_eq_some_iff.1 hx).1
  obtain ⟨y, e1, e2⟩ := h2 j bs[j] (List.getElem?_eq_getElem hj)
  rw [hx] at e1
  cases e1
  have := C48_float e2
  exact ⟨this.2.1, this.1, hj⟩

theorem boundHps_nodup {i : Nat} {bs : List (Rat × Rat)} {hs : List HP} (h : boundHps i bs = .ok hs) : (hs.map HP.name).Nodup := by
  rw [List.nodup_iff_injective_getElem]
  rintro ⟨a, ha⟩ ⟨b, hb⟩ e
  simp only [List.length_map] at ha hb
  simp only [List.getElem_map] at e
  have h1 := (boundHps_names h (List.getElem?_eq_getElem ha)).1
  have h2 := (boundHps_names h (List.getElem?_eq_getElem hb)).1
  rw [h1, h2] at e
  have := boundName_inj e
  simp; omega

theorem addBounds_reach {calls : List Call} {s s' : Space} {bounds : List (Rat × Rat)} (h : Reach calls s)
    (hb : s.addBounds bounds = (s', none)) : ∃ hs, boundHps 0 bounds = .ok hs ∧ Reach (calls ++ [⟨hs, [], []⟩]) s' := by
  unfold Space.addBounds at hb
  split at hb
  · cases hb
  · rename_i hs hh
    refine ⟨hs, hh, .snoc h ⟨fun x hx => ?_, by simp, by simp⟩ hb⟩
    obtain ⟨j, hj, e⟩ := List.getElem_of_mem hx
    exact (boundHps_names hh (List.getElem?_eq_some_iff.2 ⟨hj, e⟩)).2.1

theorem names_nodup_of_reach {calls : List Call} {s : Space} (h : Reach calls s) : ((allHps calls).map HP.name).Nodup := by
  have hi := (sinv_of_reach h).hist
  have : (s.dag.nodes.map Node.hp).map HP.name = namesOf s.dag.nodes := by simp [namesOf, Node.name]
  exact ((hi.hps.map HP.name).nodup_iff).1 (this ▸ hi.ninv.nodup)

/-- **C112.** Bounds that are more than 10⁻¹³ apart are accepted by a space without conditions and clauses, as long as no name
`x0`, …, `x(n-1)` is taken; and nothing else is in the space afterwards: the history of the space is extended by one call with
one hyperparameter for every pair, the one for the `i`-th pair is called `x` followed by `i`, its bounds are the given ones up to
the rounding, and its default is between them. -/
theorem C112_accepts {calls : List Call} {s : Space} (h : Reach calls s) (hc : allConds calls = []) (hf : allForbs calls = [])
    {bounds : List (Rat × Rat)} (hs : ∀ b ∈ bounds, b.1 + 1 / 10 ^ 13 < b.2)
    (hk : ∀ i < bounds.length, ¬ Known calls ("x" ++ Nat.repr i)) :
    ∃ s' hps, s.addBounds bounds = (s', none) ∧ Reach (calls ++ [⟨hps, [], []⟩]) s' ∧ hps.length = bounds.length ∧
      ∀ i lower upper, bounds[i]? = some (lower, upper) → ∃ l u m : Rat,
        hps[i]? = some ({ name := "x" ++ Nat.repr i, kind := .flt l u, default := .flt m } : HP) ∧
        |lower - l| ≤ 1 / (2 * 10 ^ 13) ∧ |upper - u| ≤ 1 / (2 * 10 ^ 13) ∧ l < u ∧ l ≤ m ∧ m ≤ u := by
  obtain ⟨hps, hh⟩ := boundHps_ok (i := 0) hs
  have ha : (s.add hps [] []).2 = none := by
    refine C58_fresh_hyperparameters h hc hf hps (fun x hx => ?_) ?_
    · obtain ⟨j, hj, e⟩ := List.getElem_of_mem hx
      exact (boundHps_names hh (List.getElem?_eq_some_iff.2 ⟨hj, e⟩)).2.1
    · rw [List.map_append, List.nodup_append]
      refine ⟨names_nodup_of_reach h, boundHps_nodup hh, ?_⟩
      rintro a ha b hb rfl
      obtain ⟨x, hx, e⟩ := List.mem_map.1 ha
      obtain ⟨y, hy, e'⟩ := List.mem_map.1 hb
      obtain ⟨j, hj, ej⟩ := List.getElem_of_mem hy
      have := boundHps_names hh (List.getElem?_eq_some_iff.2 ⟨hj, ej⟩)
      rw [Nat.zero_add] at this
      exact hk j this.2.2 ⟨x, hx, by rw [e, ← e', this.1]; rfl⟩
  have hb : s.addBounds bounds = ((s.add hps [] []).1, none) := by
    simp only [Space.addBounds, hh]
    exact Prod.ext rfl ha
  obtain ⟨hps', hh', hr⟩ := addBounds_reach h hb
  rw [hh] at hh'
  cases hh'
  obtain ⟨h1, h2⟩ := boundHps_forall₂ hh
  refine ⟨_, hps, hb, hr, h1, fun i lower upper hi => ?_⟩
  obtain ⟨x, e1, e2⟩ := h2 i _ hi
  rw [Nat.zero_add] at e2
  obtain ⟨hw, hn, l, u, m, hk', hd, h1, h2, h3, h4, _⟩ := C48_float e2
  refine ⟨l, u, m, ?_, h3, h4, h1, h2.1, h2.2⟩
  rw [e1]
  obtain ⟨n', k', d'⟩ := x
  cases hn; cases hk'; cases hd
  rfl

theorem boundHps_bad : ∀ {i : Nat} {bs : List (Rat × Rat)}, (∃ b ∈ bs, b.2 ≤ b.1) → boundHps i bs = .error .valueError
  | i, [], h => by simp at h
  | i, (l, u) :: bs, h => by
    simp only [boundHps]
    by_cases hlu : u ≤ l
    · have : mkFlt (boundName i) l u none = .error .valueError := by
        unfold mkFlt
        rw [if_pos (roundPlaces_mono hlu)]
      rw [this]
    · obtain ⟨b, hb, hb'⟩ := h
      have hb2 : b ∈ bs := by
        rcases List.mem_cons.1 hb with e | e
        · subst e; exact absurd hb' hlu
        · exact e
      rw [boundHps_bad (i := i + 1) ⟨b, hb2, hb'⟩]
      cases hm : mkFlt (boundName i) l u none with
      | ok x => rfl
      | error e =>
        simp only [mkFlt, finishHP] at hm
        split at hm
        · cases hm; rfl
        · split at hm
          · cases hm
          · cases hm; rfl

/-- **C112.** If some upper bound is not above its lower bound, the call raises `ValueError` and leaves the space as it was, whatever
the other pairs are and whatever is in the space. -/
theorem C112_bad_bounds (s : Space) {bounds : List (Rat × Rat)} (h : ∃ b ∈ bounds, b.2 ≤ b.1) :
    s.addBounds bounds = (s, some .valueError) := by
  simp only [Space.addBounds, boundHps_bad h]

/-- **C112.** The names are always the same, so a space takes bounds only once: if one of the names `x0`, …, `x(n-1)` is taken, the
call raises. -/
theorem C112_names_taken {calls : List Call} {s : Space} (h : Reach calls s) {bounds : List (Rat × Rat)} {i : Nat}
    (hi : i < bounds.length) (hk : Known calls ("x" ++ Nat.repr i)) : (s.addBounds bounds).2 ≠ none := by
  intro hn
  obtain ⟨hs, hh, hr⟩ := addBounds_reach (s' := (s.addBounds bounds).1) h (Prod.ext rfl hn)
  have hd := names_nodup_of_reach hr
  rw [allHps_snoc, List.map_append, List.nodup_append] at hd
  obtain ⟨x, hx, e⟩ := hk
  obtain ⟨h1, -⟩ := boundHps_forall₂ hh
  have hi' : i < hs.length := by omega
  have hy := (boundHps_names hh (List.getElem?_eq_getElem hi')).1
  rw [Nat.zero_add] at hy
  refine hd.2.2 _ (List.mem_map_of_mem hx) _ (List.mem_map_of_mem (List.getElem_mem hi')) ?_
  rw [e, hy]; rfl

theorem bounds_known {bounds : List (Rat × Rat)} {hs : List HP} (hh : boundHps 0 bounds = .ok hs) (n : Name) :
    Known [⟨hs, [], []⟩] n ↔ ∃ i < bounds.length, n = boundName i := by
  obtain ⟨h1, -⟩ := boundHps_forall₂ hh
  unfold Known
  have ea : allHps [(⟨hs, [], []⟩ : Call)] = hs := by simp [allHps]
  rw [ea]
  constructor
  · rintro ⟨x, hx, rfl⟩
    obtain ⟨j, hj, e⟩ := List.getElem_of_mem hx
    have := boundHps_names hh (List.getElem?_eq_some_iff.2 ⟨hj, e⟩)
    rw [Nat.zero_add] at this
    exact ⟨j, this.2.2, this.1⟩
  · rintro ⟨i, hi, rfl⟩
    have hi' : i < hs.length := by omega
    have hy := (boundHps_names hh (List.getElem?_eq_getElem hi')).1
    rw [Nat.zero_add] at hy
    exact ⟨_, List.getElem_mem hi', hy⟩

theorem bounds_chain {hs : List HP} {n : Name} (hn : Known [⟨hs, [], []⟩] n) :
    LongestChain (Known [⟨hs, [], []⟩]) (ParentOf [⟨hs, [], []⟩]) n 1 := by
  refine ⟨.one hn, fun k hk => ?_⟩
  cases hk with
  | one _ => exact Nat.le_refl _
  | snoc _ e _ =>
    obtain ⟨x, hx, _⟩ := e
    simp [allConds] at hx

/-- **C112.** In a space made from bounds, the entries of a vector are ordered by name: `xi` comes before `xj` exactly if its name is
the smaller string; and every name has a place among the first `n`. -/
theorem C112_order {s : Space} {bounds : List (Rat × Rat)} (h : ({} : Space).addBounds bounds = (s, none)) {i j : Nat}
    (hi : i < bounds.length) (hj : j < bounds.length) :
    s.len = bounds.length ∧ s.idx ("x" ++ Nat.repr i) < bounds.length ∧
      (s.idx ("x" ++ Nat.repr i) < s.idx ("x" ++ Nat.repr j) ↔ "x" ++ Nat.repr i < "x" ++ Nat.repr j) := by
  obtain ⟨hs, hh, hr⟩ := addBounds_reach .nil h
  rw [List.nil_append] at hr
  have hki := (bounds_known hh _).2 ⟨i, hi, rfl⟩
  have hkj := (bounds_known hh _).2 ⟨j, hj, rfl⟩
  obtain ⟨-, b1, b2, b3, b4, -⟩ := C02_names_index_bijection hr
  obtain ⟨h1, -⟩ := boundHps_forall₂ hh
  have hl : (allHps [(⟨hs, [], []⟩ : Call)]).length = bounds.length := by simp [allHps, h1]
  refine ⟨by omega, ?_, ?_⟩
  · have := b4 _ ((b1 _).2 hki)
    have := (List.getElem?_eq_some_iff.1 this).1
    have e : boundName i = "x" ++ Nat.repr i := rfl
    rw [← e]
    omega
  · change s.idx (boundName i) < s.idx (boundName j) ↔ _
    rw [C05_layout_sorted hr (bounds_chain hki) (bounds_chain hkj)]
    unfold boundName
    constructor
    · rintro (h | h)
      · omega
      · exact h.2
    · intro h; exact .inr ⟨rfl, h⟩

theorem boundName_lt {i j : Nat} (hij : i < j) (hj : j < 10) : "x" ++ Nat.repr i < "x" ++ Nat.repr j := by
  interval_cases j <;> interval_cases i <;> decide

/-- **C112.** With at most ten pairs of bounds, the `i`-th entry of a vector belongs to the `i`-th pair. -/
theorem C112_positions_partial {s : Space} {bounds : List (Rat × Rat)} (h : ({} : Space).addBounds bounds = (s, none))
    (hl : bounds.length ≤ 10) {i : Nat} (hi : i < bounds.length) : s.idx ("x" ++ Nat.repr i) = i := by
  have hm : ∀ a b, a < b → b < bounds.length → s.idx ("x" ++ Nat.repr a) < s.idx ("x" ++ Nat.repr b) := fun a b hab hb =>
    (C112_order h (by omega) hb).2.2.2 (boundName_lt hab (by omega))
  have lo : ∀ a, a < bounds.length → a ≤ s.idx ("x" ++ Nat.repr a) := by
    intro a
    induction a with
    | zero => intro _; exact Nat.zero_le _
    | succ a ih =>
      intro ha
      have := ih (by omega)
      have := hm a (a + 1) (by omega) ha
      omega
  have up : ∀ d a, a + d + 1 = bounds.length → s.idx ("x" ++ Nat.repr a) + d + 1 ≤ bounds.length := by
    intro d
    induction d with
    | zero => intro a ha; have := (C112_order h (i := a) (j := a) (by omega) (by omega)).2.1; omega
    | succ d ih =>
      intro a ha
      have := ih (a + 1) (by omega)
      have := hm a (a + 1) (by omega) (by omega)
      omega
  have h1 := lo i hi
  have h2 := up (bounds.length - 1 - i) i (by omega)
  omega

/-- **C112, false of the code.** One expects the `i`-th entry of a vector to belong to the `i`-th pair of bounds.  With eleven pairs or
more it does not: `x10` comes before `x2`, so the entry with index 2 never belongs to the pair with index 2. -/
theorem C112_positions_fail {s : Space} {bounds : List (Rat × Rat)} (h : ({} : Space).addBounds bounds = (s, none))
    (hl : 11 ≤ bounds.length) : s.idx "x10" < s.idx "x2" ∧ 3 ≤ s.idx "x2" := by
  have h0 := (C112_order h (i := 0) (j := 1) (by omega) (by omega)).2.2.2 (by decide)
  have h1 := (C112_order h (i := 1) (j := 10) (by omega) (by omega)).2.2.2 (by decide)
  have h2 := (C112_order h (i := 10) (j := 2) (by omega) (by omega)).2.2.2 (by decide)
  have e0 : "x" ++ Nat.repr 0 = "x0" := by decide
  have e1 : "x" ++ Nat.repr 1 = "x1" := by decide
  have e2 : "x" ++ Nat.repr 2 = "x2" := by decide
  have e3 : "x" ++ Nat.repr 10 = "x10" := by decide
  rw [e0, e1] at h0
  rw [e1, e3] at h1
  rw [e3, e2] at h2
  exact ⟨h2, by omega⟩

namespace ExBd

/-- Twelve pairs of bounds. -/
def twelve : List (Rat × Rat) := List.replicate 12 (-1, 5 / 2)

example : ∀ b ∈ twelve, b.1 + 1 / 10 ^ 13 < b.2 := by
  intro b hb
  rw [List.eq_of_mem_replicate hb]
  norm_num

/-- The hypotheses of `C112_accepts`, `C112_order` and `C112_positions_fail` hold for these bounds and the empty space. -/
example : ∃ s, ({} : Space).addBounds twelve = (s, none) ∧ 11 ≤ twelve.length := by
  obtain ⟨s, hps, h, -⟩ := C112_accepts (bounds := twelve) .nil rfl rfl
    (by intro b hb; rw [List.eq_of_mem_replicate hb]; norm_num) (by rintro i - ⟨x, hx, -⟩; simp [allHps] at hx)
  exact ⟨s, h, by decide⟩

/-- `C112_positions_partial` applies to the first ten of them. -/
example : ∃ s, ({} : Space).addBounds (twelve.take 10) = (s, none) ∧ s.idx ("x" ++ Nat.repr 7) = 7 := by
  obtain ⟨s, hps, h, -⟩ := C112_accepts (bounds := twelve.take 10) .nil rfl rfl
    (by intro b hb; rw [List.eq_of_mem_replicate (List.mem_of_mem_take hb)]; norm_num)
    (by rintro i - ⟨x, hx, -⟩; simp [allHps] at hx)
  exact ⟨s, h, C112_positions_partial h (by decide) (by decide)⟩

/-- Bounds in the wrong order somewhere in the list. -/
example : ({} : Space).addBounds [(0, 1), (3, 2)] = ({}, some .valueError) := C112_bad_bounds _ ⟨(3, 2), by simp, by norm_num⟩

/-- A second call on the same space raises. -/
example : ∃ s, ({} : Space).addBounds twelve = (s, none) ∧ (s.addBounds [(0, 1)]).2 ≠ none := by
  obtain ⟨s, hps, h, hr, hl, hc⟩ := C112_accepts (bounds := twelve) .nil rfl rfl
    (by intro b hb; rw [List.eq_of_mem_replicate hb]; norm_num) (by rintro i - ⟨x, hx, -⟩; simp [allHps] at hx)
  refine ⟨s, h, C112_names_taken hr (i := 0) (by decide) ?_⟩
  obtain ⟨l, u, m, e, -⟩ := hc 0 (-1) (5 / 2) rfl
  exact ⟨_, by rw [List.nil_append]; simp only [allHps, List.flatMap_cons, List.flatMap_nil, List.append_nil]; exact List.mem_of_getElem? e, rfl⟩

end ExBd

/-- `C112_positions_fail` applied to the twelve. -/
example : ∃ s, ({} : Space).addBounds ExBd.twelve = (s, none) ∧ s.idx "x10" < s.idx "x2" := by
  obtain ⟨s, hps, h, -⟩ := C112_accepts (bounds := ExBd.twelve) .nil rfl rfl
    (by intro b hb; rw [List.eq_of_mem_replicate hb]; norm_num) (by rintro i - ⟨x, hx, -⟩; simp [allHps] at hx)
  exact ⟨s, h, (C112_positions_fail h (by decide)).1⟩

end Verif
