import Verif.Lemmas.Change
import Verif.Lemmas.Round
import Verif.Model.Config

/-!
# The cache of values of a configuration
-/

set_option autoImplicit false

namespace Verif
open Verif.Spec

theorem roundVal_idem (k : Kind) (w : Val) : roundVal k (roundVal k w) = roundVal k w := by
  unfold roundVal
  split
  · cases hn : w.num? with
    | none => simp [hn]
    | some q => simp [Val.num?, roundPlaces_idem]
  · rfl

/-- A cached value belongs to the vector entry: it was decoded from it or encoded to it. -/
def CachedFor (k : Kind) (q : Rat) (w : Val) : Prop :=
  (∃ u, k.toVal q = some u ∧ w = roundVal k u) ∨
  (k.legalValue w = true ∧ k.toVec w = some q ∧ roundVal k w = w)

/-- The invariant of configurations. -/
structure CacheOk (s : Space) (c : Config) : Prop where
  len : c.vec.length = s.len
  cache : ∀ n w, (c.vals.getD []).lookup n = some w → ∃ x ∈ s.com, x.name = n ∧
    ∃ q, c.vec.at (s.idx n) = some q ∧ CachedFor x.hp.kind q w

variable {calls : List Call} {s : Space}

theorem findNode_name {ns : Nodes} {n : Name} {x : Node} (h : findNode ns n = some x) :
    x ∈ ns ∧ x.name = n := by
  unfold findNode at h
  exact ⟨List.mem_of_find?_eq_some h, by simpa using List.find?_some h⟩

theorem node_hp (h : Reach calls s) {x : Node} (hx : x ∈ s.com) : x.hp ∈ allHps calls := by
  have hi := sinv_of_reach h
  rw [← hi.com] at hx
  exact hi.hist.hps.mem_iff.1 (List.mem_map.2 ⟨x, hx, rfl⟩)

theorem node_wf (h : Reach calls s) {x : Node} (hx : x ∈ s.com) : x.hp.wf = true :=
  (reach_wf h).1 _ (node_hp h hx)

theorem node_of_hp (h : Reach calls s) {x : HP} (hx : x ∈ allHps calls) : ∃ y ∈ s.com, y.hp = x := by
  have hi := sinv_of_reach h
  rw [← hi.com]
  exact List.mem_map.1 (hi.hist.hps.mem_iff.2 hx)

/-- Reading an item that is not cached. -/
theorem getItem_node (h : Reach calls s) {c : Config} {x : Node} (hx : x ∈ s.com)
    (hc : (c.vals.getD []).lookup x.name = none) :
    (c.getItem s x.name).1 = (match c.vec.at (s.idx x.name) with
      | none => .error .keyError
      | some q => match x.hp.kind.toVal q with
        | none => .error .valueError
        | some w => .ok (roundVal x.hp.kind w)) := by
  have hi := sinv_of_reach h
  have hn := reach_ninv h
  unfold Config.getItem
  rw [hc]
  simp only
  rw [hi.com, findNode_of_mem hn.nodup hx]
  simp only
  cases c.vec.at (s.idx x.name) with
  | none => rfl
  | some q =>
    simp only
    cases x.hp.kind.toVal q <;> rfl

theorem getItem_vec (c : Config) (n : Name) : (c.getItem s n).2.vec = c.vec := by
  unfold Config.getItem
  split
  · rfl
  · split
    · rfl
    · split
      · rfl
      · split <;> rfl

theorem cacheOk_get (h : Reach calls s) {c : Config} (hc : CacheOk s c) (n : Name) :
    CacheOk s (c.getItem s n).2 := by
  have hi := sinv_of_reach h
  refine ⟨by rw [getItem_vec]; exact hc.len, ?_⟩
  rw [getItem_vec]
  intro m w
  unfold Config.getItem
  split
  · exact hc.cache m w
  · split
    · exact hc.cache m w
    · rename_i x hx
      rw [hi.com] at hx
      split
      · exact hc.cache m w
      · rename_i q hq
        split
        · exact hc.cache m w
        · rename_i u hu
          simp only [Option.getD_some]
          rw [dictSet_lookup]
          split
          · rename_i e
            subst e
            intro hw
            cases hw
            obtain ⟨h1, h2⟩ := findNode_name hx
            exact ⟨x, h1, h2, q, hq, .inl ⟨u, hu, rfl⟩⟩
          · exact hc.cache m w

theorem setItem_ok {c c' : Config} {n : Name} {w : Val} (hs : c.setItem s n w = (c', none)) :
    ∃ x q, findNode s.dag.nodes n = some x ∧ x.hp.kind.legalValue w = true ∧ x.hp.kind.toVec w = some q ∧
      c'.vec = s.changeHp c.vec n q (s.idx n) ∧ c'.vals = none ∧ s.check c'.vec = none := by
  unfold Config.setItem at hs
  cases hf : findNode s.dag.nodes n with
  | none => simp [hf] at hs
  | some x =>
    simp only [hf] at hs
    by_cases hl : x.hp.kind.legalValue w = true
    · simp only [hl, Bool.not_true, Bool.false_eq_true, if_false] at hs
      cases hq : x.hp.kind.toVec w with
      | none => simp [hq] at hs
      | some q =>
        simp only [hq] at hs
        cases hk : s.check (s.changeHp c.vec n q (s.idx n)) false with
        | some e => simp [hk] at hs
        | none =>
          simp only [hk, Prod.mk.injEq, and_true] at hs
          subst hs
          exact ⟨x, q, rfl, hl, hq, rfl, rfl, hk⟩
    · simp [hl] at hs

theorem setItem_err {c c' : Config} {n : Name} {w : Val} {e : Err} (hs : c.setItem s n w = (c', some e)) :
    c' = c := by
  unfold Config.setItem at hs
  split at hs
  · exact (Prod.mk.inj hs).1.symm
  · split at hs
    · exact (Prod.mk.inj hs).1.symm
    · split at hs
      · exact (Prod.mk.inj hs).1.symm
      · simp only at hs
        split at hs
        · exact (Prod.mk.inj hs).1.symm
        · simp at hs

theorem cacheOk_set {c : Config} (hc : CacheOk s c) (n : Name) (w : Val) :
    CacheOk s (c.setItem s n w).1 := by
  cases hs : c.setItem s n w with
  | mk c' e =>
    cases e with
    | some e => rw [setItem_err hs]; exact hc
    | none =>
      obtain ⟨x, q, h1, h2, h3, h4, h5, h6⟩ := setItem_ok hs
      refine ⟨?_, ?_⟩
      · simp only [h4, changeHp_eq, changeLoop_length, List.length_set]; exact hc.len
      · intro m w'; simp [h5]

theorem cacheOk_values (h : Reach calls s) {d : Dict} {al : Bool} {c : Config}
    (hc : Config.ofValues s d al = .ok c) : CacheOk s c := by
  obtain ⟨h1, h2, h3, h4, vals, h5, h6, h7⟩ := ofValues_ok h hc
  refine ⟨h2, ?_⟩
  intro n w hw
  rw [h5, Option.getD_some] at hw
  have hn : n ∈ s.names := by
    by_cases hn : n ∈ s.names
    · exact hn
    · rw [h6 n hn] at hw; cases hw
  obtain ⟨x, hx, rfl⟩ := List.mem_map.1 hn
  refine ⟨x, hx, rfl, ?_⟩
  rcases h7 x hx with ⟨u, q, k1, k2, k3, k4, k5⟩ | ⟨k1, k2, k3⟩
  · rw [hw] at k5
    cases k5
    exact ⟨q, k4, .inr ⟨roundVal_legal (node_wf h hx) k2, k3, roundVal_idem _ _⟩⟩
  · rw [hw] at k3; cases k3

theorem cacheOk_vector {v : Vec} {al : Bool} {c : Config} (hc : Config.ofVector s v al = .ok c) :
    CacheOk s c := by
  unfold Config.ofVector at hc
  split at hc
  · cases hc
  · rename_i hl
    cases hc
    exact ⟨by simpa using hl, by simp⟩

theorem cacheOk (h : Reach calls s) {c : Config} (hc : CfgReach s c) : CacheOk s c := by
  induction hc with
  | values hc => exact cacheOk_values h hc
  | vector hc => exact cacheOk_vector hc
  | set _ ih => exact cacheOk_set ih _ _
  | get _ ih => exact cacheOk_get h ih _

/-- Reading an item of a configuration. -/
theorem getItem_cases (h : Reach calls s) {c : Config} (hc : CacheOk s c) {x : Node} (hx : x ∈ s.com) :
    (c.vec.at (s.idx x.name) = none ∧ (c.getItem s x.name).1 = .error .keyError) ∨
    ∃ q, c.vec.at (s.idx x.name) = some q ∧
      ((∃ w, (c.getItem s x.name).1 = .ok w ∧ CachedFor x.hp.kind q w) ∨
       (x.hp.kind.toVal q = none ∧ (c.getItem s x.name).1 = .error .valueError)) := by
  have hn := reach_ninv h
  cases hl : (c.vals.getD []).lookup x.name with
  | some w =>
    obtain ⟨y, hy, e, q, hq, hcf⟩ := hc.cache _ _ hl
    have : y = x := by
      have h1 := findNode_of_mem hn.nodup hx
      have h2 := findNode_of_mem hn.nodup hy
      rw [e, h1] at h2
      exact (Option.some.inj h2).symm
    subst this
    have hg : (c.getItem s y.name).1 = .ok w := by simp [Config.getItem, hl]
    exact .inr ⟨q, hq, .inl ⟨w, hg, hcf⟩⟩
  | none =>
    have hg := getItem_node h hx hl
    cases hq : c.vec.at (s.idx x.name) with
    | none => rw [hq] at hg; exact .inl ⟨rfl, hg⟩
    | some q =>
      rw [hq] at hg
      simp only at hg
      refine .inr ⟨q, rfl, ?_⟩
      cases hv : x.hp.kind.toVal q with
      | none => rw [hv] at hg; exact .inr ⟨rfl, hg⟩
      | some u => rw [hv] at hg; exact .inl ⟨_, hg, .inl ⟨u, hv, rfl⟩⟩

theorem getItem_unknown (h : Reach calls s) {c : Config} (hc : CacheOk s c) {n : Name} (hn : n ∉ s.names) :
    (c.getItem s n).1 = .error .keyError := by
  have hi := sinv_of_reach h
  unfold Config.getItem
  cases hl : (c.vals.getD []).lookup n with
  | some w =>
    obtain ⟨y, hy, e, _⟩ := hc.cache _ _ hl
    exact absurd (e ▸ mem_names hy) hn
  | none =>
    simp only
    cases hf : findNode s.dag.nodes n with
    | none => rfl
    | some x =>
      rw [hi.com] at hf
      obtain ⟨h1, h2⟩ := findNode_name hf
      exact absurd (h2 ▸ mem_names h1) hn

/-- A cached value of an exact kind equals the decoded one. -/
theorem cachedFor_decode {h : HP} (hw : h.wf = true) {q : Rat} {w : Val} (hc : CachedFor h.kind q w)
    (he : ExactInt h.kind w) :
    ∃ u, h.kind.toVal q = some u ∧ (roundVal h.kind u).pyEq w = true := by
  rcases hc with ⟨u, h1, rfl⟩ | ⟨h1, h2, h3⟩
  · exact ⟨u, h1, Val.pyEq_refl _⟩
  · obtain ⟨u, k1, k2⟩ := toVal_toVec hw h1 h2 he
    refine ⟨u, k1, ?_⟩
    rw [← h3]
    unfold roundVal
    split
    · rw [Val.pyEq_iff] at k2
      rcases k2 with ⟨t, rfl, rfl⟩ | ⟨p, k3, k4⟩
      · simp [Val.num?, Val.pyEq_refl]
      · simp [k3, k4, Val.pyEq_refl]
    · exact k2

end Verif
