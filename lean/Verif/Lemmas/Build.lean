import Verif.Lemmas.Cache
import Verif.Lemmas.Sample
import Verif.Model.Util

/-!
# When `Configuration(space, values=...)` succeeds, and with which vector
-/

set_option autoImplicit false

namespace Verif
open Verif.Spec

theorem fillValues_total {s : Space} {d : Dict} : ∀ {xs : List Node} {v : Vec} {vals : List (Name × Val)},
    (∀ x ∈ xs, x.hp.wf = true) →
    (∀ x ∈ xs, ∀ w, d.lookup x.name = some (some w) → x.hp.kind.legalValue w = true) →
    ∃ r, fillValues s d xs v vals = .ok r := by
  intro xs
  induction xs with
  | nil => intro v vals _ _; exact ⟨_, rfl⟩
  | cons x xs ih =>
    intro v vals hw hl
    have hw' := fun y hy => hw y (List.mem_cons_of_mem x hy)
    have hl' := fun y hy => hl y (List.mem_cons_of_mem x hy)
    unfold fillValues
    cases hd : d.lookup x.name with
    | none => exact ih hw' hl'
    | some o =>
      cases o with
      | none => exact ih hw' hl'
      | some w =>
        have h1 := hl x (by simp) w hd
        obtain ⟨q, hq⟩ := legal_toVec (roundVal_legal (hw x (by simp)) h1)
        simp only [h1, hq, Bool.not_true, Bool.false_eq_true, if_false]
        exact ih hw' hl'

variable {calls : List Call} {s : Space}

/-- `Configuration(space, values=d)` with legal values and known keys: the vector is the one that `d` describes, and
only the check decides. -/
theorem ofValues_eq (h : Reach calls s) {d : Dict} {v : Vec} (hk : ∀ kv ∈ d, kv.1 ∈ s.names)
    (hlen : v.length = s.len)
    (he : ∀ x ∈ s.com, (∃ w q, d.lookup x.name = some (some w) ∧ x.hp.kind.legalValue w = true ∧
        x.hp.kind.toVec (roundVal x.hp.kind w) = some q ∧ v.at (s.idx x.name) = some q) ∨
      ((d.lookup x.name = none ∨ d.lookup x.name = some none) ∧ v.at (s.idx x.name) = none)) (al : Bool) :
    ∃ vals, Config.ofValues s d al = (match s.check v al with
        | some e => .error e
        | none => .ok ⟨v, some vals, al⟩) ∧
      (∀ x ∈ s.com, Filled d x (v.at (s.idx x.name)) (vals.lookup x.name)) ∧
      ∀ n, n ∉ s.names → vals.lookup n = none := by
  have hi := sinv_of_reach h
  have hn := reach_ninv h
  obtain ⟨⟨v', vals⟩, hf⟩ := fillValues_total (s := s) (d := d) (xs := s.dag.nodes)
    (v := List.replicate s.len none) (vals := []) (by rw [hi.com]; exact fun x hx => node_wf h hx) (by
      rw [hi.com]
      intro x hx w hw
      rcases he x hx with ⟨w', q, h1, h2, _⟩ | ⟨h1 | h1, _⟩
      · rw [h1] at hw; cases hw; exact h2
      · rw [h1] at hw; cases hw
      · rw [h1] at hw; cases hw)
  obtain ⟨h1, h2, h3, h4⟩ := fillValues_spec hf (by rw [hi.com]; exact idx_nodup h)
    (by rw [hi.com]; exact hn.nodup)
    (by
      intro x hx
      rw [List.length_replicate]
      rw [hi.com] at hx
      exact idx_lt h (mem_names hx))
    (by simp)
  rw [hi.com] at h2 h4
  have hvv : v' = v := by
    refine vec_ext (n := s.len) (by simpa using h1) hlen ?_
    intro i hil
    rw [hi.len] at hil
    have hil' : i < s.names.length := by simpa [Space.names] using hil
    have hat : At s.names i (s.names[i]) := by unfold At; exact List.getElem?_eq_getElem hil'
    obtain ⟨x, hx, e⟩ := List.mem_map.1 (List.getElem_mem hil')
    have hidx : s.idx x.name = i := by
      rw [e]; exact idx_unique hn.nodup hat
    rw [← hidx]
    rcases h2 x hx with ⟨w, q, a1, a2, a3, a4, _⟩ | ⟨a1, a2, _⟩ <;>
      rcases he x hx with ⟨w', q', b1, b2, b3, b4⟩ | ⟨b1, b2⟩
    · rw [a1] at b1; cases b1; rw [a3] at b3; cases b3; rw [a4, b4]
    · rcases b1 with b1 | b1 <;> rw [a1] at b1 <;> cases b1
    · rcases a1 with a1 | a1 <;> rw [a1] at b1 <;> cases b1
    · rw [a2, b2]
  subst hvv
  refine ⟨vals, ?_, h2, fun n hn => by rw [h4 n hn]; rfl⟩
  unfold Config.ofValues
  rw [if_neg, hf]
  · simp only
    cases s.check v' al <;> rfl
  · simp only [List.any_eq_true, Bool.and_eq_true, decide_eq_true_eq, not_exists, not_and]
    intro kv hkv hm
    exact absurd (by rw [hi.com]; exact hk kv hkv) hm

/-- The condition loop with inactive values allowed, group by group. -/
theorem checkConds_allow_none {v : Vec} : ∀ {cs : List CNode}, checkConds s v true cs = none ↔
    ∀ g ∈ cs, g.cond.satVec s.idx v = true → ∀ n ∈ g.kids, s.legalAt v n = true := by
  intro cs
  induction cs with
  | nil => simp [checkConds]
  | cons g cs ih =>
    unfold checkConds
    rw [List.forall_mem_cons, ← ih]
    cases hs : g.cond.satVec s.idx v with
    | false => simp
    | true =>
      simp only [if_true]
      cases hf : firstWith (fun e => !isSet e) s v g.kids with
      | some n =>
        simp only [reduceCtorEq, forall_const, false_iff, not_and]
        intro hall
        have h1 := List.find?_some hf
        have h2 := hall n (List.mem_of_find?_eq_some hf)
        unfold Space.legalAt at h2
        cases he : v.at (s.idx n) with
        | none => simp [he] at h2
        | some q => simp [he, isSet] at h1
      | none =>
        simp only
        cases hf2 : g.kids.find? (fun n => !s.legalAt v n) with
        | some n =>
          simp only [reduceCtorEq, forall_const, false_iff, not_and]
          intro hall
          have h1 := List.find?_some hf2
          simp [hall n (List.mem_of_find?_eq_some hf2)] at h1
        | none =>
          rw [List.find?_eq_none] at hf2
          simp only [forall_const]
          exact ⟨fun hh => ⟨fun n hn => by simpa using hf2 n hn, hh⟩, fun hh => hh.2⟩

/-- The condition loop with inactive values allowed. -/
theorem checkConds_allow_iff (h : Reach calls s) (hsep : Separable calls) {v : Vec} {a : Assign}
    (hv : Represents s v a) : checkConds s v true s.minConds = none ↔ ActiveLegal calls a := by
  have hi := sinv_of_reach h
  have hg := groupsOk_sorted s.com
  rw [← hi.mins] at hg
  rw [checkConds_allow_none]
  have hmean : ∀ g ∈ s.minConds, ∀ c ∈ allConds calls,
      (g.cond = c ∨ g.cond.equivOnParent c = true) → (g.cond.satVec s.idx v = true ↔ Holds a c) := by
    intro g hgm c hc he
    obtain ⟨y, hy, _, hyc⟩ := hg.leader g hgm
    obtain ⟨k1, _, _⟩ := node_cond h hy hyc
    rw [holds_represents h hv k1]
    rcases he with rfl | he
    · rfl
    · exact hsep _ k1 _ hc he a
  constructor
  · intro hall d hd y hy hdn hh
    obtain ⟨x, hx, e, c, hc⟩ := node_of_child h hd hdn
    obtain ⟨m1, m2, m3⟩ := node_cond h hx hc
    have hcd := holds_pyEq hsep m1 hd (m3 d hd (by rw [hdn, e])) a
    obtain ⟨g, hgm, hk, he⟩ := hg.covers x hx c hc
    have hl := hall g hgm ((hmean g hgm c m1 he).2 (hcd.2 hh)) _ hk
    obtain ⟨⟨q, hq⟩, h2⟩ := (legalAt_iff h hv (mem_names hx)).1 hl
    exact ⟨q, by rw [← e]; exact hq, h2 y hy e.symm q hq⟩
  · intro hact g hgm hsat n hn
    obtain ⟨x, hx, rfl, c, hc, he⟩ := hg.members g hgm n hn
    obtain ⟨m1, m2, m3⟩ := node_cond h hx hc
    have hh := (hmean g hgm c m1 he).1 hsat
    obtain ⟨q, hq, hql⟩ := hact c m1 x.hp (node_hp h hx) m2 hh
    rw [legalAt_iff h hv (mem_names hx)]
    refine ⟨⟨q, hq⟩, ?_⟩
    intro y hy e q' hq'
    rw [show x.hp.name = x.name from rfl, hq'] at hq
    cases hq
    rw [reach_hp_inj h y hy x.hp (node_hp h hx) e]
    exact hql

/-- What `check_configuration` decides when inactive values are allowed. -/
theorem check_allow_iff (h : Reach calls s) (hsep : Separable calls) (hown : OwnClauses calls) {v : Vec}
    {a : Assign} (hv : Represents s v a) :
    s.check v true = none ↔ RootsSet calls a ∧ ActiveLegal calls a ∧ NotForbidden calls a := by
  unfold Space.check
  rw [← rootsSet_iff h hv, ← checkConds_allow_iff h hsep hv]
  have hf := C10_merged_clauses_equivalent h hown hv
  cases firstWith (fun e => !isSet e) s v s.dag.roots with
  | some n => simp
  | none =>
    cases checkConds s v true s.minConds with
    | some e => simp
    | none =>
      simp only [true_and]
      by_cases hb : (s.fast.any (fun f => f.onVec s.idx v)) = true
      · rw [if_pos hb]
        obtain ⟨f, hfm, hff⟩ := hf.1 hb
        simp only [reduceCtorEq, false_iff]
        exact fun k => k f hfm hff
      · rw [if_neg hb]
        simp only [true_iff]
        exact fun f hfm hff => hb (hf.2 ⟨f, hfm, hff⟩)

/-- If only a clause can be violated, the exception is `ForbiddenValueError`. -/
theorem check_allow_forbidden (h : Reach calls s) (hsep : Separable calls) (hown : OwnClauses calls) {v : Vec}
    {a : Assign} (hv : Represents s v a) (hr : RootsSet calls a) (ha : ActiveLegal calls a)
    (hf : ¬ NotForbidden calls a) : s.check v true = some .forbidden := by
  have h1 := (rootsSet_iff h hv).2 hr
  have h2 := (checkConds_allow_iff h hsep hv).2 ha
  have h3 := mt (check_allow_iff h hsep hown hv).1 (fun k => hf k.2.2)
  unfold Space.check at h3 ⊢
  rw [h1, h2] at h3 ⊢
  simp only at h3 ⊢
  split
  · rfl
  · rename_i hb; rw [if_neg hb] at h3; exact absurd rfl h3

/-- If everything is set and legal, only a clause can be violated. -/
theorem check_allow_full (h : Reach calls s) (hown : OwnClauses calls) {v : Vec} {a : Assign}
    (hv : Represents s v a) (hall : ∀ x ∈ allHps calls, ∃ q, a x.name = some q ∧ x.kind.legalVec q = true) :
    (NotForbidden calls a → s.check v true = none) ∧ (¬ NotForbidden calls a → s.check v true = some .forbidden) := by
  have hi := sinv_of_reach h
  have hg := groupsOk_sorted s.com
  rw [← hi.mins] at hg
  have hf := C10_merged_clauses_equivalent h hown hv
  have h1 : firstWith (fun e => !isSet e) s v s.dag.roots = none := (rootsSet_iff h hv).2 (by
    rintro n ⟨x, hx, rfl⟩ _
    obtain ⟨q, hq, _⟩ := hall x hx
    exact ⟨q, hq⟩)
  have h2 : checkConds s v true s.minConds = none := by
    rw [checkConds_allow_none]
    intro g hgm _ n hn
    obtain ⟨x, hx, rfl, c, hc, he⟩ := hg.members g hgm n hn
    rw [legalAt_iff h hv (mem_names hx)]
    obtain ⟨q, hq, hl⟩ := hall x.hp (node_hp h hx)
    refine ⟨⟨q, hq⟩, ?_⟩
    intro y hy e q' hq'
    rw [show x.hp.name = x.name from rfl, hq'] at hq
    cases hq
    rw [reach_hp_inj h y hy x.hp (node_hp h hx) e]
    exact hl
  unfold Space.check
  rw [h1, h2]
  simp only
  constructor
  · intro hn
    rw [if_neg]
    intro hb
    obtain ⟨f, hfm, hff⟩ := hf.1 hb
    exact hn f hfm hff
  · intro hn
    rw [if_pos]
    exact hf.2 (by
      unfold NotForbidden at hn
      exact Classical.not_forall.1 hn |>.imp (fun f hf => by
        obtain ⟨h1, h2⟩ := Classical.not_imp.1 hf
        exact ⟨h1, Classical.not_not.1 h2⟩))

end Verif
