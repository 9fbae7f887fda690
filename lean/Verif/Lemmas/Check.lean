import Mathlib.Data.List.Nodup
import Verif.Lemmas.Groups
import Verif.Props.Forbid
import Verif.Props.Meaning

/-!
# From the checks on vectors to the specification on assignments
-/

set_option autoImplicit false

namespace Verif
open Verif.Spec

/-- Every assignment is the assignment of a vector, as far as finitely many names are concerned. -/
theorem asg_realise (ns : List Name) (a : Assign) :
    ∃ idx v, ∀ n ∈ ns, asg idx v n = a n := by
  refine ⟨fun n => ns.idxOf n, ns.map a, ?_⟩
  intro n hn
  unfold asg Vec.at
  have hlt : ns.idxOf n < ns.length := List.idxOf_lt_length_of_mem hn
  rw [List.getD_eq_getElem?_getD, List.getElem?_map, List.getElem?_eq_getElem hlt]
  simp

/-- Same meaning on vectors gives the same meaning on assignments. -/
theorem holds_iff_of_satVec {c d : Cond} (h : ∀ idx v, c.satVec idx v = d.satVec idx v) (a : Assign) :
    Holds a c ↔ Holds a d := by
  obtain ⟨idx, v, hv⟩ := asg_realise (c.parents ++ d.parents) a
  rw [← holds_congr c (a := asg idx v) (fun p hp => hv p (by simp [hp])),
    ← holds_congr d (a := asg idx v) (fun p hp => hv p (by simp [hp])), ← satVec_iff, ← satVec_iff, h]

/-- Equal conditions are equivalent on their parents. -/
theorem Cond.pyEq_equiv (c : Cond) : ∀ d : Cond, c.pyEq d = true → c.equivOnParent d = true := by
  refine Cond.induct (P := fun c => ∀ d, c.pyEq d = true → c.equivOnParent d = true) ?_ ?_ ?_ c
  · intro l d h
    cases d with
    | lit m =>
      simp only [Cond.pyEq, Lit.pyEq, Cond.equivOnParent, Lit.equivOnParent, Bool.and_eq_true] at h ⊢
      exact ⟨h.1.2, h.2⟩
    | and _ => simp [Cond.pyEq] at h
    | or _ => simp [Cond.pyEq] at h
  · intro cs ih d h
    cases d with
    | and ds =>
      obtain ⟨h1, h2, -⟩ := pyEq_and.1 h
      simp only [Cond.equivOnParent, Bool.and_eq_true, decide_eq_true_eq, allEquiv_iff]
      exact ⟨h1, fun c hc => (h2 c hc).imp fun d hd => ⟨hd.1, ih c hc d hd.2⟩⟩
    | lit _ => simp [Cond.pyEq] at h
    | or _ => simp [Cond.pyEq] at h
  · intro cs ih d h
    cases d with
    | or ds =>
      obtain ⟨h1, h2, -⟩ := pyEq_or.1 h
      simp only [Cond.equivOnParent, Bool.and_eq_true, decide_eq_true_eq, allEquiv_iff]
      exact ⟨h1, fun c hc => (h2 c hc).imp fun d hd => ⟨hd.1, ih c hc d hd.2⟩⟩
    | lit _ => simp [Cond.pyEq] at h
    | and _ => simp [Cond.pyEq] at h

theorem holds_pyEq {calls : List Call} (hsep : Separable calls) {c d : Cond} (hc : c ∈ allConds calls) (hd : d ∈ allConds calls)
    (h : c.pyEq d = true) (a : Assign) : Holds a c ↔ Holds a d :=
  hsep c hc d hd (Cond.pyEq_equiv c d h) a

theorem Spec.Separable.oneMeaning {calls : List Call} (hsep : Separable calls) : OneMeaning calls :=
  fun _ hc _ hd h a => holds_pyEq hsep hc hd h a

/-- Equal conditions built from the hyperparameters of the space have the same meaning. -/
theorem oneMeaning_of_own {calls : List Call} {s : Space} (hr : Reach calls s) (ho : OwnConds calls) : OneMeaning calls := by
  intro c hc d hd h a
  have hw := (reach_wf hr).2.1
  have hi := (sinv_of_reach hr).hist
  have hnd : ((allHps calls).map HP.name).Nodup := by
    have : (s.dag.nodes.map Node.hp).map HP.name = namesOf s.dag.nodes := by simp [namesOf, Node.name]
    exact ((hi.hps.map HP.name).nodup_iff).1 (this ▸ hi.ninv.nodup)
  exact holds_iff_of_satVec (C15_equal_conditions_same_meaning_partial (hw c hc) (hw d hd)
    (sameOrders_of_same fun l hl m hm e => List.inj_on_of_nodup_map hnd (ho c hc l hl).1 (ho d hd m hm).1 e) h) a

/-- Histories in which grouped conditions are literals, or conjunctions with the same connective of pairwise
inequivalent literals, are separable. -/
theorem separable_of_plain {calls : List Call} {s : Space} (hr : Reach calls s)
    (h : ∀ c ∈ allConds calls, ∀ d ∈ allConds calls, c.equivOnParent d = true → SamePlain c d)
    (ho : ∀ c ∈ allConds calls, ∀ d ∈ allConds calls, ∀ l ∈ c.dlcs, ∀ m ∈ d.dlcs, l.parent.name = m.parent.name →
      l.parent = m.parent) : Separable calls := by
  intro c hc d hd he a
  exact holds_iff_of_satVec (C15_grouped_same_meaning_partial ((reach_wf hr).2.1 c hc) ((reach_wf hr).2.1 d hd)
    (h c hc d hd he) (sameOrders_of_same (ho c hc d hd)) he) a

variable {calls : List Call} {s : Space}

theorem cond_parents_known (h : Reach calls s) {c : Cond} (hc : c ∈ allConds calls) {p : Name}
    (hp : p ∈ c.parents) : p ∈ s.names := by
  obtain ⟨ch, hch⟩ := wf_child ((reach_wf h).2.1 c hc)
  have : Edge s.com p ch.name := (reach_edge h p ch.name).2
    ⟨c, hc, by simp [childName, hch], by simpa [Cond.parents] using hp⟩
  exact ((reach_ninv h).edges _ _ this).1

theorem holds_represents (h : Reach calls s) {v : Vec} {a : Assign} (hv : Represents s v a) {c : Cond}
    (hc : c ∈ allConds calls) : c.satVec s.idx v = true ↔ Holds a c := by
  rw [satVec_iff]
  exact holds_congr c (fun p hp => asg_of_represents hv (cond_parents_known h hc hp))

/-- The node of a conditional name carries the last condition of the history, which is equal to all others. -/
theorem node_cond (h : Reach calls s) {x : Node} (hx : x ∈ s.com) {c : Cond} (hc : x.cond = some c) :
    c ∈ allConds calls ∧ childName c = some x.name ∧
    ∀ d ∈ allConds calls, childName d = some x.name → c.pyEq d = true := by
  have hi := sinv_of_reach h
  have hn := reach_ninv h
  have h1 : condAt s.com x.name = some c := by
    simp [condAt, findNode_of_mem hn.nodup hx, hc]
  have h2 := h1
  rw [← hi.com, hi.hist.cond] at h2
  obtain ⟨k1, k2⟩ := lastCond_some h2
  refine ⟨k1, k2, ?_⟩
  intro d hd hdn
  cases hch : d.child? with
  | none => simp [childName, hch] at hdn
  | some hp =>
    simp [childName, hch] at hdn
    exact hi.hist.same d hd hp hch c (by rw [hi.com, hdn]; exact h1)

/-- A child of some condition has a node with a condition. -/
theorem node_of_child (h : Reach calls s) {d : Cond} (hd : d ∈ allConds calls) {n : Name}
    (hn : childName d = some n) : ∃ x ∈ s.com, x.name = n ∧ ∃ c, x.cond = some c := by
  have hi := sinv_of_reach h
  cases hl : lastCond (allConds calls) n with
  | none => exact absurd hn (lastCond_none.1 hl d hd)
  | some c =>
    have h1 : condAt s.com n = some c := by rw [← hi.com, hi.hist.cond, hl]
    unfold condAt at h1
    cases hf : findNode s.com n with
    | none => simp [hf] at h1
    | some x =>
      simp [hf] at h1
      exact ⟨x, (findNode_some hf).1, (findNode_some hf).2, c, h1⟩

theorem mem_names {x : Node} (hx : x ∈ s.com) : x.name ∈ s.names := List.mem_map.2 ⟨x, hx, rfl⟩

theorem at_idx {v : Vec} {a : Assign} (hv : Represents s v a) {n : Name} (hn : n ∈ s.names) :
    v.at (s.idx n) = a n := asg_of_represents hv hn

theorem hp_of (h : Reach calls s) {n : Name} {x : HP} : s.hp? n = some x ↔ x ∈ allHps calls ∧ x.name = n := by
  have hi := sinv_of_reach h
  have := hi.hist.hp (n := n) (h := x)
  rw [hi.com] at this
  exact this

theorem legalAt_iff (h : Reach calls s) {v : Vec} {a : Assign} (hv : Represents s v a) {n : Name}
    (hn : n ∈ s.names) :
    s.legalAt v n = true ↔ (∃ q, a n = some q) ∧
      ∀ x ∈ allHps calls, x.name = n → ∀ q, a n = some q → x.kind.legalVec q = true := by
  unfold Space.legalAt
  rw [at_idx hv hn]
  obtain ⟨x, hx, e⟩ := (reach_isNode h n).1 hn
  have hp := (hp_of h).2 ⟨hx, e⟩
  rw [hp]
  cases ha : a n with
  | none => simp
  | some q =>
    simp only [Option.some.injEq, exists_eq', true_and, forall_eq']
    constructor
    · intro hl y hy hyn
      rw [reach_hp_inj h y hy x hx (hyn.trans e.symm)]
      exact hl
    · intro hl
      exact hl x hx e

theorem firstWith_none {p : NV → Bool} {v : Vec} {ns : List Name} :
    firstWith p s v ns = none ↔ ∀ n ∈ ns, p (v.at (s.idx n)) = false := by
  unfold firstWith
  rw [List.find?_eq_none]
  simp

/-- The condition loop accepts exactly if activity and legality of the conditional hyperparameters are
right. -/
theorem checkConds_iff (h : Reach calls s) (hsep : Separable calls) {v : Vec} {a : Assign}
    (hv : Represents s v a) :
    checkConds s v false s.minConds = none ↔ ActivityOk calls a ∧ LegalConditional calls a := by
  have hi := sinv_of_reach h
  have hg := groupsOk_sorted s.com
  rw [← hi.mins] at hg
  rw [checkConds_none]
  -- the condition of a group and those of its members have the same meaning
  have hmean : ∀ g ∈ s.minConds, ∀ c ∈ allConds calls,
      (g.cond = c ∨ g.cond.equivOnParent c = true) → (g.cond.satVec s.idx v = true ↔ Holds a c) := by
    intro g hgm c hc he
    obtain ⟨y, hy, _, hyc⟩ := hg.leader g hgm
    obtain ⟨k1, _, _⟩ := node_cond h hy hyc
    rw [holds_represents h hv k1]
    rcases he with rfl | he
    · rfl
    · exact hsep _ k1 _ hc he a
  constructor
  · intro hall
    have key : ∀ x ∈ s.com, ∀ c, x.cond = some c →
        (Holds a c → s.legalAt v x.name = true) ∧ (¬ Holds a c → a x.name = none) := by
      intro x hx c hc
      obtain ⟨g, hgm, hk, he⟩ := hg.covers x hx c hc
      have hm := hmean g hgm c (node_cond h hx hc).1 he
      obtain ⟨h1, h2⟩ := hall g hgm
      refine ⟨fun hh => h1 (hm.2 hh) _ hk, fun hh => ?_⟩
      have : g.cond.satVec s.idx v = false := by
        cases e : g.cond.satVec s.idx v with
        | false => rfl
        | true => exact absurd (hm.1 e) hh
      rw [← at_idx hv (mem_names hx)]
      exact h2 this _ hk
    constructor
    · intro d hd n hn
      obtain ⟨x, hx, rfl, c, hc⟩ := node_of_child h hd hn
      obtain ⟨k1, k2⟩ := key x hx c hc
      obtain ⟨m1, m2, m3⟩ := node_cond h hx hc
      have hcd := holds_pyEq hsep m1 hd (m3 d hd hn) a
      rw [← hcd]
      constructor
      · rintro ⟨q, hq⟩
        by_cases hh : Holds a c
        · exact hh
        · rw [k2 hh] at hq; cases hq
      · intro hh
        exact ((legalAt_iff h hv (mem_names hx)).1 (k1 hh)).1
    · rintro y hy ⟨d, hd, hdn⟩ q hq
      obtain ⟨x, hx, e, c, hc⟩ := node_of_child h hd hdn
      obtain ⟨k1, k2⟩ := key x hx c hc
      rw [← e] at hq
      have hh : Holds a c := by
        by_cases hh : Holds a c
        · exact hh
        · rw [k2 hh] at hq; cases hq
      exact ((legalAt_iff h hv (mem_names hx)).1 (k1 hh)).2 y hy e.symm q hq
  · rintro ⟨hact, hleg⟩ g hgm
    constructor
    · intro hsat n hn
      obtain ⟨x, hx, rfl, c, hc, he⟩ := hg.members g hgm n hn
      obtain ⟨m1, m2, m3⟩ := node_cond h hx hc
      have hh := (hmean g hgm c m1 he).1 hsat
      rw [legalAt_iff h hv (mem_names hx)]
      refine ⟨(hact c m1 _ m2).2 hh, ?_⟩
      intro y hy e q hq
      exact hleg y hy ⟨c, m1, by rw [e]; exact m2⟩ q (by rw [e]; exact hq)
    · intro hsat n hn
      obtain ⟨x, hx, rfl, c, hc, he⟩ := hg.members g hgm n hn
      obtain ⟨m1, m2, m3⟩ := node_cond h hx hc
      rw [at_idx hv (mem_names hx)]
      cases ha : a x.name with
      | none => rfl
      | some q =>
        have hh := (hact c m1 _ m2).1 ⟨q, ha⟩
        rw [(hmean g hgm c m1 he).2 hh] at hsat
        cases hsat

theorem rootsSet_iff (h : Reach calls s) {v : Vec} {a : Assign} (hv : Represents s v a) :
    firstWith (fun e => !isSet e) s v s.dag.roots = none ↔ RootsSet calls a := by
  rw [firstWith_none]
  constructor
  · intro hall n hk hc
    have := hall n ((C06_roots_no_condition h n).2 ⟨hk, hc⟩)
    rw [at_idx hv ((reach_isNode h n).2 hk)] at this
    cases ha : a n with
    | none => simp [ha, isSet] at this
    | some q => exact ⟨q, rfl⟩
  · intro hall n hn
    obtain ⟨hk, hc⟩ := (C06_roots_no_condition h n).1 hn
    obtain ⟨q, hq⟩ := hall n hk hc
    rw [at_idx hv ((reach_isNode h n).2 hk), hq]
    rfl

/-- What `check_configuration` decides. -/
theorem check_iff (h : Reach calls s) (hsep : Separable calls) (hown : OwnClauses calls) {v : Vec}
    {a : Assign} (hv : Represents s v a) :
    s.check v = none ↔ RootsSet calls a ∧ ActivityOk calls a ∧ LegalConditional calls a ∧
      NotForbidden calls a := by
  unfold Space.check
  rw [← rootsSet_iff h hv]
  have hf := C10_merged_clauses_equivalent h hown hv
  have hc := checkConds_iff h hsep hv
  cases h1 : firstWith (fun e => !isSet e) s v s.dag.roots with
  | some n => simp
  | none =>
    simp only [true_and]
    cases h2 : checkConds s v false s.minConds with
    | some e =>
      rw [h2] at hc
      simp only [reduceCtorEq, false_iff] at hc ⊢
      exact fun k => hc ⟨k.1, k.2.1⟩
    | none =>
      rw [h2] at hc
      obtain ⟨k1, k2⟩ := hc.1 rfl
      simp only
      by_cases hb : (s.fast.any (fun f => f.onVec s.idx v)) = true
      · rw [if_pos hb]
        obtain ⟨f, hfm, hff⟩ := hf.1 hb
        simp only [reduceCtorEq, false_iff]
        exact fun k => k.2.2 f hfm hff
      · rw [if_neg hb]
        simp only [true_iff]
        exact ⟨k1, k2, fun f hfm hff => hb (hf.2 ⟨f, hfm, hff⟩)⟩

/-- Every vector of the right length represents the assignment read off it. -/
theorem represents_asg (h : Reach calls s) {v : Vec} (hl : v.length = s.len) :
    Represents s v (asg s.idx v) := by
  have hn := reach_ninv h
  exact ⟨hl, fun i n hin => by simp only [asg, Space.idx, idx_unique hn.nodup hin]⟩

/-! ## Active hyperparameters and the rigorous validator -/

/-- A tight condition that holds has all its parents set. -/
theorem tight_parents {a : Assign}
    (hr : RootsSet calls a) {c : Cond} (ht : Tight calls c) (hp : ∀ p ∈ c.parents, Known calls p)
    (hh : Holds a c) : ∀ p ∈ c.parents, ∃ q, a p = some q := by
  induction ht with
  | @pos l hne =>
    intro p hpm
    simp only [Cond.parents, Cond.dlcs, List.map_cons, List.map_nil, List.mem_singleton] at hpm
    subst hpm
    rw [holds_lit] at hh
    unfold LitHolds at hh
    cases ht : l.test with
    | isIn vs xs => rw [ht] at hh; obtain ⟨q, _, k⟩ := hh; exact ⟨q, k⟩
    | bin op w x =>
      rw [ht] at hh
      cases op with
      | eq => exact ⟨x, hh⟩
      | ne => exact absurd ⟨w, x, ht⟩ hne
      | lt => obtain ⟨q, k, _⟩ := hh; exact ⟨q, k⟩
      | gt => obtain ⟨q, k, _⟩ := hh; exact ⟨q, k⟩
  | root hc =>
    intro p hpm
    obtain ⟨l, hl, e⟩ := parents_iff.1 hpm
    exact hr p (hp p hpm) (e ▸ hc l hl)
  | @and cs _ ih =>
    intro p hpm
    rw [parents_and] at hpm
    obtain ⟨c, hc, hpc⟩ := mem_parentsL.1 hpm
    refine ih c hc (fun q hq => hp q ?_) (holds_and.1 hh c hc) p hpc
    rw [parents_and]
    exact mem_parentsL.2 ⟨c, hc, hq⟩

theorem isActive_iff (h : Reach calls s) {v : Vec} {a : Assign} (hv : Represents s v a)
    (ht : ∀ c ∈ allConds calls, Tight calls c) (hr : RootsSet calls a) {x : Node} (hx : x ∈ s.com) :
    isActive s v x = true ↔ ∀ c, x.cond = some c → Holds a c := by
  unfold isActive
  cases hc : x.cond with
  | none => simp
  | some c =>
    obtain ⟨m1, m2, m3⟩ := node_cond h hx hc
    simp only [Option.some.injEq, forall_eq']
    have hk : ∀ c ∈ allConds calls, ∀ p ∈ c.parents, Known calls p := fun c hc p hp =>
      (reach_isNode h p).1 (cond_parents_known h hc hp)
    by_cases ha : c.parents.any (fun p => !isSet (v.at (s.idx p))) = true
    · rw [if_pos ha]
      simp only [Bool.false_eq_true, false_iff]
      intro hh
      obtain ⟨p, hp, hpn⟩ := List.any_eq_true.1 ha
      obtain ⟨q, hq⟩ := tight_parents hr (ht c m1) (hk c m1) hh p hp
      rw [at_idx hv (cond_parents_known h m1 hp), hq] at hpn
      cases hpn
    · rw [if_neg ha]
      exact holds_represents h hv m1

theorem mem_active (h : Reach calls s) {v : Vec} {x : Node} (hx : x ∈ s.com) :
    x.name ∈ s.activeNames v ↔ isActive s v x = true := by
  have hn := reach_ninv h
  unfold Space.activeNames
  constructor
  · intro hm
    obtain ⟨y, hy, e⟩ := List.mem_map.1 hm
    obtain ⟨h1, h2⟩ := List.mem_filter.1 hy
    have h3 := findNode_of_mem hn.nodup h1
    have h4 := findNode_of_mem hn.nodup hx
    rw [e, h4] at h3
    cases h3
    exact h2
  · intro ha
    exact List.mem_map.2 ⟨x, List.mem_filter.2 ⟨hx, ha⟩, rfl⟩

theorem rigorousLoop_none {v : Vec} : ∀ {l : List Node}, rigorousLoop s v false l = none ↔
    ∀ x ∈ l, (∀ q, v.at (s.idx x.name) = some q → x.hp.kind.legalVec q = true) ∧
      (x.name ∈ s.activeNames v ↔ ∃ q, v.at (s.idx x.name) = some q) := by
  intro l
  induction l with
  | nil => simp [rigorousLoop]
  | cons x xs ih =>
    rw [List.forall_mem_cons, ← ih]
    conv => lhs; unfold rigorousLoop
    cases hv : v.at (s.idx x.name) with
    | none =>
      by_cases ha : x.name ∈ s.activeNames v <;> simp [isSet, ha]
    | some q =>
      by_cases hl : x.hp.kind.legalVec q = true
      · by_cases ha : x.name ∈ s.activeNames v <;> simp [isSet, ha, hl]
      · simp [isSet, hl]

end Verif
