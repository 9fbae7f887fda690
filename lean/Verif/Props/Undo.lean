import Verif.Props.CommuteCfg
import Verif.Props.Loop

/-!
# C130: undoing an assignment
-/

set_option autoImplicit false

namespace Verif.Commute

open Spec

variable {calls : List Call} {s : Space}

theorem activity_of_check (h : Reach calls s) (hsep : Separable calls) {v : Vec} (hv : v.length = s.len) (hk : s.check v = none) :
    ActivityOk calls (asg s.idx v) := by
  refine ((checkConds_iff h hsep (represents_asg h hv)).1 ?_).1
  unfold Space.check at hk
  split at hk
  · cases hk
  · split at hk
    · cases hk
    · assumption

theorem last_edge {n m : Name} (hp : Path (ParentOf calls) n m) : ∃ p, ParentOf calls p m := by
  induction hp with
  | edge e => exact ⟨_, e⟩
  | cons _ _ ih => exact ih

/-- Changing a value and changing it back, if nothing was switched off. -/
theorem change_back (h : Reach calls s) (hsep : Separable calls) (hl : Layered calls) {v : Vec} (hv : v.length = s.len)
    (hk : s.check v = none) {n : Name} (hn : n ∈ s.names) {x q : Rat} (hq : v.at (s.idx n) = some q)
    (hoff : ∀ m ∈ s.names, isSet (v.at (s.idx m)) = true → isSet ((s.changeHp v n x (s.idx n)).at (s.idx m)) = true) :
    s.changeHp (s.changeHp v n x (s.idx n)) n q (s.idx n) = v := by
  have hv1 : (s.changeHp v n x (s.idx n)).length = s.len := by rw [changeHp_length, hv]
  have hv2 : (s.changeHp (s.changeHp v n x (s.idx n)) n q (s.idx n)).length = s.len := by rw [changeHp_length, hv1]
  have r0 := represents_asg h hv
  have r1 := represents_asg h hv1
  have r2 := represents_asg h hv2
  have a0 := activity_of_check h hsep hv hk
  have a1 := changeHp_activity h hsep hl.weakly r0 a0 hn ⟨q, hq⟩ x
  have a2 := changeHp_activity h hsep hl.weakly r1 a1 hn ⟨x, changeHp_at h hv hn⟩ q
  refine vec_ext_names h hv2 hv ?_
  have key : ∀ k, ∀ m ∈ s.names, s.idx m = k →
      (s.changeHp (s.changeHp v n x (s.idx n)) n q (s.idx n)).at (s.idx m) = v.at (s.idx m) := by
    intro k
    induction k using Nat.strong_induction_on with
    | _ k ih =>
      intro m hm hmk
      by_cases e : m = n
      · subst e
        rw [changeHp_at h hv1 hn, hq]
      · by_cases hp : Path (ParentOf calls) n m
        · obtain ⟨p, c, hc, hcm, -⟩ := last_edge hp
          have hh : Holds (asg s.idx (s.changeHp (s.changeHp v n x (s.idx n)) n q (s.idx n))) c ↔ Holds (asg s.idx v) c := by
            refine holds_congr c ?_
            intro r hr
            have hpar : ParentOf calls r m := by
              obtain ⟨l, hl, rfl⟩ := List.mem_map.1 hr
              exact ⟨c, hc, hcm, l, hl, rfl⟩
            have hrn : r ∈ s.names := cond_parents_known h hc hr
            have hlt := Loop.path_idx h (.edge hpar)
            exact ih (s.idx r) (by omega) r hrn rfl
          have e0 := a0 c hc m hcm
          have e2 := a2 c hc m hcm
          rw [hh, ← e0] at e2
          obtain ⟨y, hy, rfl⟩ := (C02_names_index_bijection h).2.1 m |>.1 hm
          cases h0 : v.at (s.idx y.name) with
          | none =>
            cases h2 : (s.changeHp (s.changeHp v n x (s.idx n)) n q (s.idx n)).at (s.idx y.name) with
            | none => rfl
            | some t =>
              obtain ⟨u, hu⟩ := e2.1 ⟨t, h2⟩
              have : v.at (s.idx y.name) = some u := hu
              rw [h0] at this
              cases this
          | some t =>
            obtain ⟨u, hu⟩ := e2.2 ⟨t, h0⟩
            have h1 := hoff y.name hm (by rw [h0]; rfl)
            cases h1' : (s.changeHp v n x (s.idx n)).at (s.idx y.name) with
            | none => rw [h1'] at h1; cases h1
            | some t1 =>
              have k1 := (C23_active_values_kept_partial h hl r0 ((reach_isNode h n).1 hn) r1 y hy e t1 h1').1 t h0
              have k2 := (C23_active_values_kept_partial h hl r1 ((reach_isNode h n).1 hn) r2 y hy e u hu).1 t1 h1'
              have : (s.changeHp (s.changeHp v n x (s.idx n)) n q (s.idx n)).at (s.idx y.name) = some u := hu
              rw [this, k2, k1]
        · rw [changeHp_other h hv1 hn hm e hp, changeHp_other h hv hn hm e hp]
  exact fun m hm => key _ m hm rfl

/-- **C130.** An assignment that switched no hyperparameter off is undone by assigning the old value: the configuration is the one before,
whatever was switched on in between. -/
theorem C130_undo_partial (h : Reach calls s) (hsep : Separable calls) (hl : Layered calls) {c c1 : Config} (hc : CfgReach s c)
    (hk : s.check c.vec = none) {y : HP} (hy : y ∈ allHps calls) {w w0 : Val} (h1 : c.setItem s y.name w = (c1, none))
    (hoff : ∀ n ∈ c.keys s, n ∈ c1.keys s) (hl0 : y.kind.legalValue w0 = true) (h0 : c.vec.at (s.idx y.name) = y.kind.toVec w0) :
    c1.setItem s y.name w0 = ({ c with vals := none }, none) := by
  obtain ⟨x, q, hf, -, hq, -, rfl⟩ := setItem_is h1
  have hi := sinv_of_reach h
  have hp := (hp_of h).2 ⟨hy, rfl⟩
  unfold Space.hp? at hp
  rw [← hi.com] at hp
  obtain rfl : x.hp = y := by simpa [hf] using hp
  obtain ⟨q0, hq0⟩ := legal_toVec hl0
  have hlen := (cacheOk h hc).len
  have hn := findNode_known h hf
  have hb := change_back h hsep hl hlen hk hn (x := q) (q := q0) (by rw [h0, hq0]) (by
    intro m hm hs
    exact (List.mem_filter.1 (hoff m (List.mem_filter.2 ⟨hm, hs⟩))).2)
  rw [setItem_of hf hl0 hq0 (by simp only; rw [hb]; exact hk)]
  simp only
  rw [hb]

namespace ExCm

theorem sepS : Separable [callS] := by
  intro c hc d hd he
  simp only [allConds, callS, List.flatMap_cons, List.flatMap_nil, List.append_nil, List.mem_cons, List.not_mem_nil, or_false] at hc hd
  rcases hc with rfl | rfl <;> rcases hd with rfl | rfl
  · exact fun _ => Iff.rfl
  · exact absurd he (by decide +kernel)
  · exact absurd he (by decide +kernel)
  · exact fun _ => Iff.rfl
theorem layeredS : Layered [callS] := by
  refine C23_single_parents_layered reachS ?_
  intro c hc p q hp hq
  simp only [allConds, callS, List.flatMap_cons, List.flatMap_nil, List.append_nil, List.mem_cons, List.not_mem_nil, or_false] at hc
  obtain ⟨l, hl, rfl⟩ := hp
  obtain ⟨m, hm, rfl⟩ := hq
  rcases hc with rfl | rfl <;> simp only [Cond.dlcs, List.mem_singleton] at hl hm <;> rw [hl, hm]

/-- `x` is switched off, `y` has a value that is not the default. -/
def offS : Config := ⟨[some 1, some 1, none, some 1], none, false⟩
theorem offS_reach : CfgReach spS offS := .vector (v := [some 1, some 1, none, some 1]) (al := false) (by rfl)

-- The assignment switches `x` on; assigning the old value gives the configuration back.
example : (offS.setItem spS "p" (.str "a")).1.keys spS = ["p", "q", "x", "y"] := by decide +kernel
example : (offS.setItem spS "p" (.str "a")).1.setItem spS "p" (.str "b") = (offS, none) :=
  C130_undo_partial reachS sepS layeredS offS_reach (by decide +kernel) (y := hpP) (by simp [allHps, callS]) (fstOk (by decide +kernel))
    (by decide +kernel) (by decide +kernel) (by decide +kernel)
end ExCm

/-- **C130, false of the code** for an assignment that switches a hyperparameter off: assigning the old value brings it back with its default
value, so the configuration is another one than before, and what was chosen is lost. -/
theorem C130_value_lost : ∃ calls s c n w w0 m, Reach calls s ∧ Separable calls ∧ Layered calls ∧ CfgReach s c ∧ s.check c.vec = none ∧
    (c.getItem s n).1 = .ok w0 ∧ (c.setItem s n w).2 = none ∧ ((c.setItem s n w).1.setItem s n w0).2 = none ∧
    m ∈ c.keys s ∧ m ∈ ((c.setItem s n w).1.setItem s n w0).1.keys s ∧
    ((c.setItem s n w).1.setItem s n w0).1.vec.at (s.idx m) ≠ c.vec.at (s.idx m) :=
  ⟨_, _, _, "p", .str "b", .str "a", "x", ExCm.reachS, ExCm.sepS, ExCm.layeredS, ExCm.startS_reach, by decide +kernel, by decide +kernel,
    by decide +kernel, by decide +kernel, by decide +kernel, by decide +kernel, by decide +kernel⟩

end Verif.Commute
