import Verif.Lemmas.Deactivate
import Verif.Props.Impute
import Verif.Props.Sample

/-!
# C40: deactivation of inactive hyperparameters
-/

set_option autoImplicit false

namespace Verif
open Verif.Spec

variable {calls : List Call} {s : Space}

theorem deactivateFrom_cases (h : Reach calls s) {c0 : Config} {k : Nat} {r : Except Err DeState}
    (hr : deLoop s k { cfg := c0, queue := s.dag.roots.filter (fun n => !(s.childrenOf n).isEmpty) } = some r) :
    (∀ e, r = .error e → deactivateFrom s k c0 = some (.error e)) ∧
    (∀ st, r = .ok st → Full s st.cfg → (∀ n ∈ st.inactive, asgOf s st.cfg n = none) →
      ∃ vals, (∀ n, vals.lookup n = (st.cfg.vals.getD []).lookup n) ∧
      deactivateFrom s k c0 = some (match s.check st.cfg.vec with
        | some e => .error e
        | none => .ok ⟨st.cfg.vec, some vals, false⟩)) := by
  have hi := sinv_of_reach h
  constructor
  · rintro e rfl
    unfold deactivateFrom
    rw [hr]
  · rintro st rfl hf hg
    obtain ⟨d, vals, h1, h2, h3⟩ := rebuild_full h hf false
    refine ⟨vals, h2, ?_⟩
    unfold deactivateFrom
    rw [hr]
    simp only
    rw [hi.com, deFinal_noop h hf hg (fun _ hx => hx)]
    simp only
    rw [h1]
    simp only
    rw [h3]
    cases s.check st.cfg.vec <;> rfl

theorem asg_unknown (h : Reach calls s) {v : Vec} (hl : v.length = s.len) {n : Name} (hn : ¬ Known calls n) :
    asg s.idx v n = none := by
  have hi := sinv_of_reach h
  have h1 : n ∉ s.names := fun k => hn ((reach_isNode h n).1 k)
  have h2 : s.idx n = s.names.length := List.idxOf_eq_length h1
  have h3 : s.names.length = s.com.length := by simp [Space.names]
  unfold asg Vec.at
  rw [List.getD_eq_getElem?_getD, List.getElem?_eq_none (by rw [hl, hi.len]; omega)]
  rfl

theorem asg_eq_of_represents (h : Reach calls s) {v : Vec} {a : Assign} (hv : Represents s v a)
    (hu : ∀ n, ¬ Known calls n → a n = none) : asg s.idx v = a := by
  funext n
  by_cases hn : Known calls n
  · have h1 := (represents_asg h hv.1).2 _ _ (idx_spec ((reach_isNode h n).2 hn)).1
    rw [← h1]
    exact hv.2 _ _ (idx_spec ((reach_isNode h n).2 hn)).1
  · rw [asg_unknown h hv.1 hn, hu n hn]

/-- The traversal from a configuration ends, with the same result for every larger bound on the rounds. -/
theorem deLoop_ends (h : Reach calls s) (c0 : Config) : ∃ N r, ∀ k, N ≤ k →
    deLoop s k { cfg := c0, queue := s.dag.roots.filter (fun n => !(s.childrenOf n).isEmpty) } = some r := by
  obtain ⟨N, r, hr⟩ := deLoop_total h
    { cfg := c0, queue := s.dag.roots.filter (fun n => !(s.childrenOf n).isEmpty) } (by
      intro n hn
      exact (reach_isNode h n).2 ((C06_roots_no_condition h n).1 (List.mem_filter.1 hn).1).1)
  exact ⟨N, r, fun k hk => deLoop_mono hr k hk⟩

/-- **C40** (the function ends). -/
theorem C40_deactivate_ends (h : Reach calls s) (d : Dict) : ∃ N r, ∀ k, N ≤ k → deactivate s k d = some r := by
  unfold deactivate
  cases Config.ofValues s d true with
  | error e => exact ⟨0, _, fun _ _ => rfl⟩
  | ok c0 =>
    obtain ⟨N, r, hr⟩ := deLoop_ends h c0
    refine ⟨N, ?_⟩
    unfold deactivateFrom
    cases r with
    | error e => exact ⟨.error e, fun k hk => by simp only [hr k hk]⟩
    | ok st =>
      cases hfin : deFinal s st.inactive s.dag.nodes st.cfg with
      | error e => exact ⟨.error e, fun k hk => by simp only [hr k hk, hfin]⟩
      | ok c' =>
        cases hd : c'.toDict s with
        | error e => exact ⟨.error e, fun k hk => by simp only [hr k hk, hfin, hd]⟩
        | ok d' => exact ⟨Config.ofValues s d', fun k hk => by simp only [hr k hk, hfin, hd]⟩

/-- **C40** (soundness, for every space and dictionary). What the function returns is accepted by the validator, is the
given configuration with some conditional hyperparameters removed, and the remaining values read as before. -/
theorem C40_returned_restricts (h : Reach calls s) {d : Dict} {k : Nat} {c' : Config}
    (hr : deactivate s k d = some (.ok c')) :
    ∃ c0, Config.ofValues s d true = .ok c0 ∧ s.check c'.vec = none ∧
      ∃ a b, Represents s c0.vec a ∧ Represents s c'.vec b ∧ Prunes calls b a ∧
        ∀ x ∈ allHps calls, b x.name ≠ none → (c'.getItem s x.name).1 = (c0.getItem s x.name).1 := by
  unfold deactivate at hr
  cases hc : Config.ofValues s d true with
  | error e => rw [hc] at hr; simp at hr
  | ok c0 =>
    rw [hc] at hr
    simp only at hr
    have hf0 := full_of_values h hc
    obtain ⟨k1, _⟩ := ofValues_ok h hc
    refine ⟨c0, rfl, ?_⟩
    cases hl : deLoop s k { cfg := c0, queue := s.dag.roots.filter (fun n => !(s.childrenOf n).isEmpty) } with
    | none => unfold deactivateFrom at hr; rw [hl] at hr; cases hr
    | some r =>
      obtain ⟨g1, g2⟩ := deactivateFrom_cases h hl
      rcases deLoop_inv h (fun _ st => DeInv calls s c0 st) (fun n q st _ hp => ⟨hp.prunes, hp.same, hp.gone, hp.chk⟩)
        (fun x hx c hc ns st st' hf hp hd => deInv_step h x hx c hc st st' hf hp hd) hl hf0
        ⟨⟨fun _ _ hq => hq, fun _ _ => rfl⟩, fun _ _ => rfl, by simp, k1⟩ with
        ⟨st, rfl, hf, hp, _⟩ | ⟨e, rfl, _⟩
      · obtain ⟨vals, j1, j2⟩ := g2 st rfl hf hp.gone
        rw [j2] at hr
        cases hck : s.check st.cfg.vec with
        | some e => rw [hck] at hr; cases hr
        | none =>
          rw [hck] at hr
          cases hr
          refine ⟨hck, _, _, represents_asg h hf0.len, represents_asg h hf.len, hp.prunes, ?_⟩
          intro x hx hb
          obtain ⟨y, hy, rfl⟩ := node_of_hp h hx
          have hs := hp.same y.name hb
          rw [show y.hp.name = y.name from rfl, getItem_full h hf0 hy, ← hs]
          rcases hf.ent y hy with ⟨w, q, m1, _⟩ | ⟨_, m2⟩
          · unfold Config.getItem
            simp only [Option.getD_some, j1, m1]
          · exact absurd m2 hb
      · rw [g1 e rfl] at hr; cases hr

/-- **C40** (partial: for configurations that can be built, conditions that the code keeps apart, clauses on own
hyperparameters, no `!=` on a conditional hyperparameter, and no set hyperparameter without a set parent). The function
returns a configuration that is accepted by the validator.  It is the given one without some conditional
hyperparameters; those that are left are exactly those whose condition holds; no configuration that keeps more has this
property; the remaining values read as before. -/
theorem C40_deactivate_partial (h : Reach calls s) (hsep : Separable calls) (hown : OwnClauses calls)
    (hmono : NoNeqOnConditional calls) {d : Dict} {c0 : Config} (hc : Config.ofValues s d true = .ok c0) {a : Assign}
    (ha : Represents s c0.vec a) (hu : ∀ n, ¬ Known calls n → a n = none) (hatt : Attached calls a) :
    ∃ N c' b, (∀ k, N ≤ k → deactivate s k d = some (.ok c')) ∧ Represents s c'.vec b ∧ s.check c'.vec = none ∧
      Prunes calls b a ∧ ActivityOk calls b ∧
      (∀ b', Prunes calls b' a → ActivityOk calls b' → Restricts b' b) ∧
      ∀ x ∈ allHps calls, b x.name ≠ none → (c'.getItem s x.name).1 = (c0.getItem s x.name).1 := by
  have hae := asg_eq_of_represents h ha hu
  have hf0 := full_of_values h hc
  obtain ⟨hk1, _⟩ := ofValues_ok h hc
  obtain ⟨N, r, hr⟩ := deLoop_ends h c0
  have hwf := (reach_wf h).2.1
  have hact : ∀ (cfg : Config), Full s cfg → s.check cfg.vec true = none → Pending s [] { cfg := cfg, queue := [] } →
      ActivityOk calls (asgOf s cfg) := by
    intro cfg hf hck hp e he n hn
    obtain ⟨_, r2, _⟩ := (check_allow_iff h hsep hown (represents_asg h hf.len)).1 hck
    obtain ⟨x, hx, rfl, c, hxc⟩ := node_of_child h he hn
    obtain ⟨m1, m2, m3⟩ := node_cond h hx hxc
    have hiff := holds_pyEq hsep m1 he (m3 e he hn) (asgOf s cfg)
    constructor
    · rintro ⟨q, hq⟩
      apply Classical.byContradiction
      intro hnh
      rcases hp x hx c hxc (by simp only; rw [hq]; simp) (fun k => hnh (hiff.1 k)) with ⟨p, hp, _⟩ | hp | ⟨m, hm, _⟩
      · cases hp
      · cases hp
      · cases hm
    · intro hh
      obtain ⟨q, hq, _⟩ := r2 e he x.hp (node_hp h hx) hn hh
      exact ⟨q, hq⟩
  rcases deLoop_inv h (fun rem st => DeInv calls s c0 st ∧ Pending s rem st ∧
      ∀ b', Prunes calls b' a → ActivityOk calls b' → Restricts b' (asgOf s st.cfg))
      (fun n q st hq hp => ⟨⟨hp.1.prunes, hp.1.same, hp.1.gone, hp.1.chk⟩, pending_start n q st hq hp.2.1, hp.2.2⟩)
      (by
        intro x hx c hxc ns st st' hf hp hd
        refine ⟨deInv_step h x hx c hxc st st' hf hp.1 hd, pending_step h x hx c hxc ns st st' hf hp.2.1 hd, ?_⟩
        intro b' hb1 hb2
        have hb3 := hp.2.2 b' hb1 hb2
        cases hd with
        | keep _ => exact hb3
        | skip _ _ => exact hb3
        | @drop q c' hh hq hf' hv _ _ =>
          obtain ⟨hx0, hne⟩ := asgOf_drop h hf hx hv
          obtain ⟨m1, m2, m3⟩ := node_cond h hx hxc
          intro n q hq
          have hnx : n ≠ x.name := by
            rintro rfl
            refine hh (holds_prunes hmono (b := b') ⟨hb3, ?_⟩ m1 ((hb2 c m1 _ m2).1 ⟨q, hq⟩))
            intro m hm
            rw [hp.1.prunes.2 m hm, show asgOf s c0 = a from hae]
            exact hb1.2 m hm
          show asgOf s c' n = some q
          rw [hne n hnx]
          exact hb3 n q hq)
      (hr N (Nat.le_refl _)) hf0
      ⟨⟨⟨fun _ _ hq => hq, fun _ _ => rfl⟩, fun _ _ => rfl, by simp, hk1⟩,
        pending_init h (by rw [show asgOf s c0 = a from hae]; exact hatt),
        by intro b' hb1 _; rw [show asgOf s c0 = a from hae]; exact hb1.1⟩ with
      ⟨st, rfl, hf, ⟨hp1, hp2, hp3⟩, hq0⟩ | ⟨e, rfl, x, hx, c, ns', st', q, hxc, hf, hp, hnh, _, hck⟩
  · have hA := hact st.cfg hf hp1.chk (by
      intro x hx c hc h1 h2
      have := hp2 x hx c hc h1 h2
      rw [hq0] at this
      exact this)
    have hrep := represents_asg h hf.len
    obtain ⟨r1, r2, r3⟩ := (check_allow_iff h hsep hown hrep).1 hp1.chk
    have hck : s.check st.cfg.vec = none := (check_iff h hsep hown hrep).2 ⟨r1, hA, by
      rintro x hx ⟨c, hc1, hc2⟩ q hq
      obtain ⟨q', hq', hl⟩ := r2 c hc1 x hx hc2 ((hA c hc1 _ hc2).1 ⟨q, hq⟩)
      rw [hq] at hq'
      cases hq'
      exact hl, r3⟩
    obtain ⟨_, g2⟩ := deactivateFrom_cases h (hr N (Nat.le_refl _))
    obtain ⟨vals, j1, j2⟩ := g2 st rfl hf hp1.gone
    rw [hck] at j2
    simp only at j2
    refine ⟨N, ⟨st.cfg.vec, some vals, false⟩, _, ?_, hrep, hck, by rw [← hae]; exact hp1.prunes, hA, hp3, ?_⟩
    · intro k hk
      unfold deactivate
      rw [hc]
      simp only
      rw [← j2]
      unfold deactivateFrom
      rw [hr k hk, hr N (Nat.le_refl _)]
    · intro x hx hb
      obtain ⟨y, hy, rfl⟩ := node_of_hp h hx
      have hs := hp1.same y.name hb
      rw [show y.hp.name = y.name from rfl, getItem_full h hf0 hy, ← hs]
      rcases hf.ent y hy with ⟨w, q, m1, _⟩ | ⟨_, m2⟩
      · unfold Config.getItem
        simp only [Option.getD_some, j1, m1]
      · exact absurd m2 hb
  · rw [check_drop h hsep hown hmono hf hp.1.chk hx hxc hnh] at hck
    cases hck

/-- **C40** (complete dictionaries). If the dictionary has a legal value for every hyperparameter (integers for integer
ranges), the configuration with all these values is not forbidden, and `!=` is used on unconditional hyperparameters
only, then the function returns a configuration that the validator accepts and that has exactly the hyperparameters
whose conditions hold, with the given values (floats rounded). -/
theorem C40_complete_partial (h : Reach calls s) (hsep : Separable calls) (hown : OwnClauses calls)
    (hmono : NoNeqOnConditional calls) {d : Dict} (hk : ∀ kv ∈ d, Known calls kv.1)
    (hall : ∀ x ∈ allHps calls, ∃ w, d.lookup x.name = some (some w) ∧ x.kind.legalValue w = true ∧ ExactInt x.kind w)
    {a : Assign} (hu : ∀ n, ¬ Known calls n → a n = none)
    (ha : ∀ x ∈ allHps calls, ∀ w, d.lookup x.name = some (some w) → a x.name = x.kind.toVec (roundVal x.kind w))
    (hnf : NotForbidden calls a) :
    ∃ N c' b, (∀ k, N ≤ k → deactivate s k d = some (.ok c')) ∧ Represents s c'.vec b ∧ s.check c'.vec = none ∧
      Prunes calls b a ∧ ActivityOk calls b ∧
      (∀ b', Prunes calls b' a → ActivityOk calls b' → Restricts b' b) ∧
      ∀ x ∈ allHps calls, ∀ w, d.lookup x.name = some (some w) → b x.name ≠ none →
        (c'.getItem s x.name).1 = .ok (roundVal x.kind w) := by
  have hi := sinv_of_reach h
  have hn := reach_ninv h
  let v : Vec := s.com.map (fun x => a x.name)
  have hvl : v.length = s.len := by simp [v, hi.len]
  have hvat : ∀ x ∈ s.com, v.at (s.idx x.name) = a x.name := by
    intro x hx
    have hlt : s.idx x.name < s.com.length := by
      have := idx_lt h (mem_names hx); rw [hi.len] at this; exact this
    have h1 := (idx_spec (mem_names hx)).1
    unfold At at h1
    obtain ⟨_, h1⟩ := List.getElem?_eq_some_iff.1 h1
    have h2 : (s.com[s.idx x.name]).name = x.name := by
      simpa [namesOf, Space.idx] using h1
    simp [v, Vec.at, hlt, h2]
  have hrep : Represents s v a := by
    refine ⟨hvl, ?_⟩
    intro i n hin
    have hmem : n ∈ s.names := List.mem_of_getElem? hin
    obtain ⟨x, hx, rfl⟩ := List.mem_map.1 hmem
    have : s.idx x.name = i := by simp only [Space.idx]; exact idx_unique hn.nodup hin
    rw [← this]
    exact hvat x hx
  obtain ⟨vals, hof, hfill, _⟩ := ofValues_eq h (d := d) (v := v) (fun kv hkv => (reach_isNode h _).2 (hk kv hkv)) hvl (by
    intro x hx
    obtain ⟨w, k1, k2, k3⟩ := hall x.hp (node_hp h hx)
    obtain ⟨q, hq⟩ := legal_toVec (roundVal_legal (node_wf h hx) k2)
    exact .inl ⟨w, q, k1, k2, hq, by rw [hvat x hx, ← hq]; exact ha x.hp (node_hp h hx) w k1⟩) true
  have hset : ∀ x ∈ allHps calls, ∃ q, a x.name = some q ∧ x.kind.legalVec q = true := by
    intro x hx
    obtain ⟨y, hy, rfl⟩ := node_of_hp h hx
    obtain ⟨w, k1, k2, k3⟩ := hall y.hp hx
    obtain ⟨q, hq⟩ := legal_toVec (roundVal_legal (node_wf h hy) k2)
    refine ⟨q, by rw [ha y.hp hx w k1, hq], ?_⟩
    exact toVec_legal (node_wf h hy) (roundVal_legal (node_wf h hy) k2) hq (roundVal_exact k3)
  rw [(check_allow_full h hown hrep hset).1 hnf] at hof
  simp only at hof
  have hatt : Attached calls a := by
    rintro n ⟨c, hc, hcn⟩ _
    obtain ⟨x, hx, rfl, c', hxc⟩ := node_of_child h hc hcn
    obtain ⟨m1, m2, _⟩ := node_cond h hx hxc
    obtain ⟨p, hp⟩ := List.exists_mem_of_ne_nil _ (wf_parents_ne ((reach_wf h).2.1 c' m1))
    have hpo : ParentOf calls p x.name := ⟨c', m1, m2, parents_iff.1 hp⟩
    obtain ⟨y, hy, e⟩ := (reach_isNode h p).1 (hn.edges _ _ ((reach_edge h p x.name).2 hpo)).1
    obtain ⟨q, hq, _⟩ := hset y hy
    exact ⟨p, hpo, by rw [← e, hq]; simp⟩
  obtain ⟨N, c', b, r1, r2, r3, r4, r5, r6, r7⟩ := C40_deactivate_partial h hsep hown hmono hof hrep hu hatt
  refine ⟨N, c', b, r1, r2, r3, r4, r5, r6, ?_⟩
  intro x hx w hw hb
  rw [r7 x hx hb]
  obtain ⟨y, hy, rfl⟩ := node_of_hp h hx
  rcases hfill y hy with ⟨w', q, k1, _, _, _, k5⟩ | ⟨k1, _, _⟩
  · rw [show y.hp.name = y.name from rfl] at hw
    rw [hw] at k1
    cases k1
    unfold Config.getItem
    simp only [Option.getD_some, show y.hp.name = y.name from rfl, k5]
  · rw [show y.hp.name = y.name from rfl] at hw
    rw [hw] at k1
    rcases k1 with k1 | k1 <;> cases k1

/-- **C40** (valid configurations are unchanged, for every space). If the validator accepts the given configuration and
its set conditional hyperparameters are those whose condition holds, then the same configuration is returned. -/
theorem C40_valid_unchanged (h : Reach calls s) {d : Dict} {c0 : Config} (hc : Config.ofValues s d true = .ok c0)
    {a : Assign} (ha : Represents s c0.vec a) (hu : ∀ n, ¬ Known calls n → a n = none) (hact : ActivityOk calls a)
    (hck : s.check c0.vec = none) :
    ∃ N c', (∀ k, N ≤ k → deactivate s k d = some (.ok c')) ∧ c'.vec = c0.vec ∧
      ∀ x ∈ allHps calls, (c'.getItem s x.name).1 = (c0.getItem s x.name).1 := by
  have hae := asg_eq_of_represents h ha hu
  have hf0 := full_of_values h hc
  obtain ⟨N, r, hr⟩ := deLoop_ends h c0
  have hno : ∀ x ∈ s.com, ∀ c, x.cond = some c → ¬ Holds (asgOf s c0) c → asgOf s c0 x.name = none := by
    intro x hx c hxc hnh
    obtain ⟨m1, m2, _⟩ := node_cond h hx hxc
    cases hq : asgOf s c0 x.name with
    | none => rfl
    | some q =>
      rw [show asgOf s c0 = a from hae] at hq hnh
      exact absurd ((hact c m1 _ m2).1 ⟨q, hq⟩) hnh
  rcases deLoop_inv h (fun _ st => st.cfg = c0 ∧ st.inactive = []) (fun n q st _ hp => hp)
      (by
        intro x hx c hxc ns st st' hf hp hd
        cases hd with
        | keep _ => exact hp
        | skip _ _ => exact hp
        | drop hh hq _ _ _ _ =>
          rw [hp.1] at hh hq
          rw [hno x hx c hxc hh] at hq
          cases hq)
      (hr N (Nat.le_refl _)) hf0 ⟨rfl, rfl⟩ with
      ⟨st, rfl, hf, ⟨hp1, hp2⟩, hq0⟩ | ⟨e, rfl, x, hx, c, ns', st', q, hxc, hf, hp, hnh, hq, _⟩
  · obtain ⟨_, g2⟩ := deactivateFrom_cases h (hr N (Nat.le_refl _))
    obtain ⟨vals, j1, j2⟩ := g2 st rfl hf (by rw [hp2]; simp)
    rw [hp1, hck] at j2
    simp only at j2
    refine ⟨N, ⟨c0.vec, some vals, false⟩, ?_, rfl, ?_⟩
    · intro k hk
      unfold deactivate
      rw [hc]
      simp only
      rw [← j2]
      unfold deactivateFrom
      rw [hr k hk, hr N (Nat.le_refl _)]
    · intro x hx
      obtain ⟨y, hy, rfl⟩ := node_of_hp h hx
      have hf' : Full s ⟨c0.vec, some vals, false⟩ :=
        ⟨hf0.len, fun n hn => by rw [← hf0.unk n hn, ← hp1]; exact j1 n, fun x hx => by
          have := hf0.ent x hx
          rw [← hp1] at this ⊢
          simp only [Option.getD_some, j1]; exact this⟩
      rw [show y.hp.name = y.name from rfl, getItem_full h hf0 hy, getItem_full h hf' hy]
      simp only [Option.getD_some, j1, hp1]
  · rw [hp.1] at hnh hq
    rw [hno x hx c hxc hnh] at hq
    cases hq

/-! ## Examples and counterexamples -/

/-- The exception of a call, if it raises one. -/
def raised {α : Type} : Option (Except Err α) → Option Err
  | some (.error e) => some e
  | _ => none

theorem raised_eq {α : Type} {r : Option (Except Err α)} {e : Err} (h : raised r = some e) : r = some (.error e) := by
  cases r with
  | none => cases h
  | some r => cases r with
    | ok _ => cases h
    | error e' => cases h; rfl

namespace Ex
/-- The dictionary `{"p": "b", "x": "a", "y": "a"}` for the chain. -/
def dictL : Dict := [("p", some (.str "b")), ("x", some (.str "a")), ("y", some (.str "a"))]
/-- Its assignment. -/
def asgL : Assign := fun n => if n = "p" then some 1 else if n = "x" ∨ n = "y" then some 0 else none

/-- Roots `o`, `p`; `x | p == "a"`; `y | o == "a" && x != "a"`. -/
def callNE : Call := ⟨[ab "o", ab "p", ab "x", ab "y"],
  [.lit (isA "x" "p"), .and [.lit (isA "y" "o"), .lit ⟨ab "y", ab "x", .bin .ne (.str "a") 0⟩]], []⟩
def spNE : Space := committed {} callNE
theorem reachNE : Reach [callNE] spNE := Reach.snoc (calls := []) .nil (by decide +kernel)
  (add_of_stages [("o", some (.str "a")), ("p", some (.str "a")), ("x", some (.str "a")), ("y", none)]
    [some 0, some 0, some 0, none] [("o", .str "a"), ("p", .str "a"), ("x", .str "a")]
    (by decide +kernel) (by decide +kernel) (by decide +kernel) (by decide +kernel) (by decide +kernel)
    (by decide +kernel))
theorem sepNE : Separable [callNE] := by
  intro c hc d hd
  simp only [allConds, callNE, List.flatMap_cons, List.flatMap_nil, List.append_nil, List.mem_cons,
    List.not_mem_nil, or_false] at hc hd
  rcases hc with rfl | rfl <;> rcases hd with rfl | rfl <;> intro he <;>
    first
    | exact fun _ => Iff.rfl
    | exact absurd he (by decide +kernel)
end Ex

/-- The chain with a complete dictionary meets the hypotheses of C40: `x` and `y` are removed. -/
example : ∃ N c', (∀ k, N ≤ k → deactivate Ex.spL k Ex.dictL = some (.ok c')) ∧ c'.vec = [some 1, none, none] ∧
    (c'.getItem Ex.spL "p").1 = .ok (.str "b") := by
  have hh : allHps [Ex.callL] = [Ex.ab "p", Ex.ab "x", Ex.ab "y"] := rfl
  obtain ⟨N, c', b, h1, h2, h3, h4, h5, h6, h7⟩ := C40_complete_partial Ex.reachL Ex.sepL
    (by intro f hf; simp [allForbs, Ex.callL] at hf)
    (by
      intro c hc l hl hne
      simp only [allConds, Ex.callL, List.flatMap_cons, List.flatMap_nil, List.append_nil, List.mem_cons,
        List.not_mem_nil, or_false] at hc
      obtain ⟨w, x, e⟩ := hne
      rcases hc with rfl | rfl <;> simp only [Cond.dlcs, List.mem_singleton] at hl <;> subst hl <;> cases e)
    (d := Ex.dictL)
    (by
      intro kv hkv
      simp only [Ex.dictL, List.mem_cons, List.not_mem_nil, or_false] at hkv
      rcases hkv with rfl | rfl | rfl
      · exact ⟨Ex.ab "p", by simp [hh], rfl⟩
      · exact ⟨Ex.ab "x", by simp [hh], rfl⟩
      · exact ⟨Ex.ab "y", by simp [hh], rfl⟩)
    (by
      intro x hx
      simp only [hh, List.mem_cons, List.not_mem_nil, or_false] at hx
      rcases hx with rfl | rfl | rfl
      · exact ⟨.str "b", by decide +kernel, by decide +kernel, by intro l u e; cases e⟩
      · exact ⟨.str "a", by decide +kernel, by decide +kernel, by intro l u e; cases e⟩
      · exact ⟨.str "a", by decide +kernel, by decide +kernel, by intro l u e; cases e⟩)
    (a := Ex.asgL)
    (by
      intro n hn
      have : ∀ m ∈ ["p", "x", "y"], n ≠ m := by
        intro m hm e
        refine hn ⟨Ex.ab m, ?_, e.symm⟩
        rw [hh]
        simp only [List.mem_cons, List.not_mem_nil, or_false] at hm ⊢
        rcases hm with rfl | rfl | rfl <;> simp
      simp [Ex.asgL, this "p" (by simp), this "x" (by simp), this "y" (by simp)])
    (by
      intro x hx w hw
      simp only [hh, List.mem_cons, List.not_mem_nil, or_false] at hx
      rcases hx with rfl | rfl | rfl
      · rw [show Ex.dictL.lookup (Ex.ab "p").name = some (some (.str "b")) by decide +kernel] at hw
        cases hw; decide +kernel
      · rw [show Ex.dictL.lookup (Ex.ab "x").name = some (some (.str "a")) by decide +kernel] at hw
        cases hw; decide +kernel
      · rw [show Ex.dictL.lookup (Ex.ab "y").name = some (some (.str "a")) by decide +kernel] at hw
        cases hw; decide +kernel)
    (by intro f hf; simp [allForbs, Ex.callL] at hf)
  have bp : b "p" = some 1 := by
    rw [h4.2 "p"]
    · decide +kernel
    · rintro ⟨c, hc, e⟩
      simp only [allConds, Ex.callL, List.flatMap_cons, List.flatMap_nil, List.append_nil, List.mem_cons,
        List.not_mem_nil, or_false] at hc
      rcases hc with rfl | rfl <;> exact absurd e (by decide +kernel)
  have bx : b "x" = none := by
    cases hq : b "x" with
    | none => rfl
    | some q =>
      have := (h5 (.lit (Ex.isA "x" "p")) (by simp [allConds, Ex.callL]) "x" (by decide +kernel)).1 ⟨q, hq⟩
      rw [holds_lit] at this
      have : b "p" = some 0 := this
      rw [bp] at this
      exact absurd this (by decide +kernel)
  have by' : b "y" = none := by
    cases hq : b "y" with
    | none => rfl
    | some q =>
      have := (h5 (.lit (Ex.isA "y" "x")) (by simp [allConds, Ex.callL]) "y" (by decide +kernel)).1 ⟨q, hq⟩
      rw [holds_lit] at this
      have : b "x" = some 0 := this
      rw [bx] at this
      cases this
  refine ⟨N, c', h1, ?_, ?_⟩
  · obtain ⟨e1, e2⟩ := h2
    have a0 := e2 0 "p" (by unfold At; decide +kernel)
    have a1 := e2 1 "x" (by unfold At; decide +kernel)
    have a2 := e2 2 "y" (by unfold At; decide +kernel)
    rw [show Ex.spL.len = 3 by decide +kernel] at e1
    refine vec_ext e1 (by rfl) ?_
    intro i hi
    match i, hi with
    | 0, _ => rw [a0, bp]; rfl
    | 1, _ => rw [a1, bx]; rfl
    | 2, _ => rw [a2, by']; rfl
  · exact h7 (Ex.ab "p") (by simp [hh]) (.str "b") (by decide +kernel) (by
      show b "p" ≠ none
      rw [bp]; simp)

/-- A value below an unset hyperparameter is not removed: the function raises instead (in the chain `x | p == "a"`,
`y | x == "a"`, with `p` and `y` given, and `p` not `"a"`). -/
theorem C40_missing_intermediate_raises : ∃ calls s d c0, Reach calls s ∧ Separable calls ∧ allForbs calls = [] ∧
    Config.ofValues s d true = .ok c0 ∧ deactivate s 10 d = some (.error (.inactiveSet "y")) := by
  refine ⟨[Ex.callL], Ex.spL, [("p", some (.str "b")), ("y", some (.str "a"))],
    ⟨[some 1, none, some 0], some [("p", .str "b"), ("y", .str "a")], true⟩, Ex.reachL, Ex.sepL, rfl,
    Ex.ofValues_stages _ _ (by decide +kernel) (by decide +kernel) (by decide +kernel), raised_eq (by decide +kernel)⟩

/-- With `!=` on a conditional hyperparameter the function may raise for a complete dictionary of legal values: it
removes `y` because `x` is set, and then `x`. -/
theorem C40_not_equals_raises : ∃ calls s d, Reach calls s ∧ Separable calls ∧ allForbs calls = [] ∧
    (∀ x ∈ allHps calls, ∃ w, d.lookup x.name = some (some w) ∧ x.kind.legalValue w = true) ∧
    deactivate s 10 d = some (.error (.activeNotSet "y")) := by
  refine ⟨[Ex.callNE], Ex.spNE,
    [("o", some (.str "a")), ("p", some (.str "b")), ("x", some (.str "a")), ("y", some (.str "a"))],
    Ex.reachNE, Ex.sepNE, rfl, ?_, raised_eq (by decide +kernel)⟩
  intro x hx
  simp only [show allHps [Ex.callNE] = [Ex.ab "o", Ex.ab "p", Ex.ab "x", Ex.ab "y"] from rfl, List.mem_cons,
    List.not_mem_nil, or_false] at hx
  rcases hx with rfl | rfl | rfl | rfl
  · exact ⟨.str "a", by decide +kernel, by decide +kernel⟩
  · exact ⟨.str "b", by decide +kernel, by decide +kernel⟩
  · exact ⟨.str "a", by decide +kernel, by decide +kernel⟩
  · exact ⟨.str "a", by decide +kernel, by decide +kernel⟩

/-- A clause about a value that is to be removed makes the function raise, although the configuration without that value
is accepted. -/
theorem C40_inactive_forbidden_raises : ∃ calls s d d' c', Reach calls s ∧ OwnClauses calls ∧
    (∀ kv ∈ d', kv ∈ d) ∧ Config.ofValues s d' = .ok c' ∧ deactivate s 10 d = some (.error .forbidden) := by
  refine ⟨[Ex.callFN], Ex.spFN, [("p", some (.str "a")), ("r", some (.str "a")), ("x", some (.str "a"))],
    [("p", some (.str "a")), ("r", some (.str "a"))], Ex.cfgFN, Ex.reachFN, Ex.ownFN, ?_, Ex.cfgFN_eq,
    raised_eq (by decide +kernel)⟩
  intro kv hkv
  simp only [List.mem_cons, List.not_mem_nil, or_false] at hkv ⊢
  rcases hkv with rfl | rfl <;> simp

/-- The valid configuration `{"p": "b"}` is returned unchanged. -/
example : ∃ N c', (∀ k, N ≤ k → deactivate Ex.spL k [("p", some (.str "b"))] = some (.ok c')) ∧
    c'.vec = [some 1, none, none] := by
  have hc : Config.ofValues Ex.spL [("p", some (.str "b"))] true = .ok ⟨[some 1, none, none], some [("p", .str "b")], true⟩ :=
    Ex.ofValues_stages _ _ (by decide +kernel) (by decide +kernel) (by decide +kernel)
  have hl : ([some 1, none, none] : Vec).length = Ex.spL.len := by decide +kernel
  obtain ⟨N, c', h1, h2, _⟩ := C40_valid_unchanged Ex.reachL hc (represents_asg Ex.reachL hl)
    (fun n hn => asg_unknown Ex.reachL hl hn)
    ((check_iff Ex.reachL Ex.sepL (by intro f hf; simp [allForbs, Ex.callL] at hf) (represents_asg Ex.reachL hl)).1
      (by decide +kernel)).2.1 (by decide +kernel)
  exact ⟨N, c', h1, h2⟩

/-- The theorems applied to the chain: the call on the complete dictionary ends, and what it returns is a restriction. -/
example : ∃ k c' c0, deactivate Ex.spL k Ex.dictL = some (.ok c') ∧ Config.ofValues Ex.spL Ex.dictL true = .ok c0 ∧
    Ex.spL.check c'.vec = none ∧ ∃ a b, Represents Ex.spL c0.vec a ∧ Represents Ex.spL c'.vec b ∧ Prunes [Ex.callL] b a := by
  obtain ⟨N, r, h⟩ := C40_deactivate_ends Ex.reachL Ex.dictL
  have hd : (deactivate Ex.spL 10 Ex.dictL).map Except.toBool = some true := by decide +kernel
  match e : deactivate Ex.spL 10 Ex.dictL, hd with
  | some (.ok c'), _ =>
    obtain ⟨c0, h1, h2, a, b, h3, h4, h5, -⟩ := C40_returned_restricts Ex.reachL e
    exact ⟨10, c', c0, e, h1, h2, a, b, h3, h4, h5⟩

end Verif
