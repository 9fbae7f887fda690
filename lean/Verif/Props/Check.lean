import Verif.Lemmas.Check

/-!
# C16, C17, C18, C19: the validators
-/

set_option autoImplicit false

namespace Verif
open Verif.Spec

/-- **C16** (partial: grouped conditions must have the same meaning, and legality is only established for
conditional hyperparameters; see the two counterexamples). A vector that `check_configuration` accepts has all
unconditional hyperparameters set, the conditional ones exactly when their condition holds and then with a
legal value, and no clause forbids it. -/
theorem C16_accepted_is_valid_partial {calls : List Call} {s : Space} (h : Reach calls s)
    (hsep : Separable calls) (hown : OwnClauses calls) {v : Vec} {a : Assign} (hv : Represents s v a)
    (hc : s.check v = none) :
    RootsSet calls a ∧ ActivityOk calls a ∧ LegalConditional calls a ∧ NotForbidden calls a :=
  (check_iff h hsep hown hv).1 hc

/-- **C16** (partial). If in addition the unconditional values are legal, the configuration is valid. -/
theorem C16_accepted_legal_roots_partial {calls : List Call} {s : Space} (h : Reach calls s)
    (hsep : Separable calls) (hown : OwnClauses calls) {v : Vec} {a : Assign} (hv : Represents s v a)
    (hroots : LegalRoots calls a) (hc : s.check v = none) : Valid calls a := by
  obtain ⟨h1, h2, h3, h4⟩ := (check_iff h hsep hown hv).1 hc
  refine ⟨h1, h2, ?_, h4⟩
  intro x hx q hq
  by_cases hcond : Conditional calls x.name
  · exact h3 x hx hcond q hq
  · exact hroots x hx hcond q hq

/-- **C17** (partial: grouped conditions must have the same meaning, see the counterexample).  Every valid
configuration is accepted by `check_configuration`. -/
theorem C17_valid_is_accepted_partial {calls : List Call} {s : Space} (h : Reach calls s)
    (hsep : Separable calls) (hown : OwnClauses calls) {v : Vec} {a : Assign} (hv : Represents s v a)
    (hc : Valid calls a) : s.check v = none :=
  (check_iff h hsep hown hv).2 ⟨hc.roots, hc.active, fun x hx _ => hc.legal x hx, hc.allowed⟩

/-- **C18** (partial: also the conditions must be tight and unconditional values legal, see the
counterexamples).  The two validators accept the same vectors. -/
theorem C18_validators_agree_partial {calls : List Call} {s : Space} (h : Reach calls s)
    (hsep : Separable calls) (hown : OwnClauses calls) (htight : ∀ c ∈ allConds calls, Tight calls c)
    {v : Vec} {a : Assign} (hv : Represents s v a) (hroots : LegalRoots calls a) :
    s.check v = none ↔ s.checkRigorous v = none := by
  have hi := sinv_of_reach h
  have hn := reach_ninv h
  rw [check_iff h hsep hown hv]
  unfold Space.checkRigorous
  have hforb : (s.forbs.any (fun f => f.onVec s.idx v)) = true ↔ ∃ f ∈ allForbs calls, Forbids a f := by
    rw [forb_any_iff]
    have hm : ∀ f, f ∈ s.forbs ↔ f ∈ allForbs calls := fun f => hi.hist.forbs.mem_iff
    constructor
    · rintro ⟨f, hf, hfa⟩
      exact ⟨f, (hm f).1 hf, (forbids_represents h hv ((hm f).1 hf)).1 hfa⟩
    · rintro ⟨f, hf, hfa⟩
      exact ⟨f, (hm f).2 hf, (forbids_represents h hv hf).2 hfa⟩
  have hloop : rigorousLoop s v false s.dag.nodes = none ↔
      RootsSet calls a ∧ ActivityOk calls a ∧ LegalConditional calls a := by
    rw [rigorousLoop_none, hi.com]
    have hhp : ∀ x ∈ s.com, x.hp ∈ allHps calls := fun x hx => by
      rw [← hi.com] at hx
      exact hi.hist.hps.mem_iff.1 (List.mem_map.2 ⟨x, hx, rfl⟩)
    have hnode : ∀ y ∈ allHps calls, ∃ x ∈ s.com, x.hp = y := fun y hy => by
      obtain ⟨x, hx, e⟩ := List.mem_map.1 (hi.hist.hps.mem_iff.2 hy)
      exact ⟨x, by rw [← hi.com]; exact hx, e⟩
    constructor
    · intro hall
      have hrs : RootsSet calls a := by
        rintro n ⟨y, hy, rfl⟩ hc
        obtain ⟨x, hx, rfl⟩ := hnode y hy
        have hxc : x.cond = none := by
          cases e : x.cond with
          | none => rfl
          | some c => exact absurd ⟨c, (node_cond h hx e).1, (node_cond h hx e).2.1⟩ hc
        have : x.name ∈ s.activeNames v := (mem_active h hx).2 (by simp [isActive, hxc])
        have := ((hall x hx).2).1 this
        rw [at_idx hv (mem_names hx)] at this
        exact this
      refine ⟨hrs, ?_, ?_⟩
      · intro d hd n hdn
        obtain ⟨x, hx, rfl, c, hc⟩ := node_of_child h hd hdn
        obtain ⟨m1, m2, m3⟩ := node_cond h hx hc
        have hcd := holds_pyEq hsep m1 hd (m3 d hd hdn) a
        have := (hall x hx).2
        rw [mem_active h hx, isActive_iff h hv htight hrs hx, at_idx hv (mem_names hx)] at this
        rw [← hcd, ← this, hc]
        simp
      · intro y hy hc q hq
        obtain ⟨x, hx, rfl⟩ := hnode y hy
        exact (hall x hx).1 q (by rw [at_idx hv (mem_names hx)]; exact hq)
    · rintro ⟨hrs, hact, hleg⟩ x hx
      rw [at_idx hv (mem_names hx), mem_active h hx, isActive_iff h hv htight hrs hx]
      constructor
      · intro q hq
        by_cases hc : Conditional calls x.hp.name
        · exact hleg x.hp (hhp x hx) hc q hq
        · exact hroots x.hp (hhp x hx) hc q hq
      · cases hc : x.cond with
        | none =>
          simp only [reduceCtorEq, false_implies, implies_true, true_iff]
          refine hrs x.name ⟨x.hp, hhp x hx, rfl⟩ ?_
          rintro ⟨d, hd, hdn⟩
          obtain ⟨x', hx', e, c, hc'⟩ := node_of_child h hd hdn
          have h3 := findNode_of_mem hn.nodup hx'
          have h4 := findNode_of_mem hn.nodup hx
          rw [e, h4] at h3
          cases h3
          rw [hc] at hc'; cases hc'
        | some c =>
          obtain ⟨m1, m2, m3⟩ := node_cond h hx hc
          simp only [Option.some.injEq, forall_eq']
          exact (hact c m1 _ m2).symm
  cases hr : rigorousLoop s v false s.dag.nodes with
  | some e =>
    rw [hr] at hloop
    simp only [reduceCtorEq, false_iff] at hloop ⊢
    rw [iff_false]
    exact fun k => hloop ⟨k.1, k.2.1, k.2.2.1⟩
  | none =>
    rw [hr] at hloop
    obtain ⟨k1, k2, k3⟩ := hloop.1 rfl
    simp only
    by_cases hb : (s.forbs.any (fun f => f.onVec s.idx v)) = true
    · rw [if_pos hb]
      obtain ⟨f, hfm, hff⟩ := hforb.1 hb
      simp only [reduceCtorEq, iff_false]
      exact fun k => k.2.2.2 f hfm hff
    · rw [if_neg hb]
      simp only [iff_true]
      exact ⟨k1, k2, k3, fun f hfm hff => hb (hforb.2 ⟨f, hfm, hff⟩)⟩

/-- **C19** (partial: the conditions must be tight, see the counterexamples).  In an accepted vector the
active hyperparameters are exactly those with a value. -/
theorem C19_active_iff_set_partial {calls : List Call} {s : Space} (h : Reach calls s)
    (hsep : Separable calls) (htight : ∀ c ∈ allConds calls, Tight calls c)
    {v : Vec} {a : Assign} (hv : Represents s v a) (hc : s.check v = none) (n : Name) :
    n ∈ s.activeNames v ↔ Known calls n ∧ ∃ q, a n = some q := by
  have hn := reach_ninv h
  unfold Space.check at hc
  have hrs : RootsSet calls a := by
    rw [← rootsSet_iff h hv]
    cases h1 : firstWith (fun e => !isSet e) s v s.dag.roots with
    | none => rfl
    | some n => simp [h1] at hc
  rw [(rootsSet_iff h hv).2 hrs] at hc
  simp only at hc
  have hact : ActivityOk calls a := by
    refine ((checkConds_iff h hsep hv).1 ?_).1
    cases h1 : checkConds s v false s.minConds with
    | none => rfl
    | some n => simp [h1] at hc
  have key : ∀ x ∈ s.com, (x.name ∈ s.activeNames v ↔ ∃ q, a x.name = some q) := by
    intro x hx
    rw [mem_active h hx, isActive_iff h hv htight hrs hx]
    cases hxc : x.cond with
    | none =>
      simp only [reduceCtorEq, false_implies, implies_true, true_iff]
      refine hrs x.name ((reach_isNode h _).1 (mem_names hx)) ?_
      rintro ⟨d, hd, hdn⟩
      obtain ⟨x', hx', e, c, hc'⟩ := node_of_child h hd hdn
      have h3 := findNode_of_mem hn.nodup hx'
      have h4 := findNode_of_mem hn.nodup hx
      rw [e, h4] at h3
      cases h3
      rw [hxc] at hc'; cases hc'
    | some c =>
      obtain ⟨m1, m2, m3⟩ := node_cond h hx hxc
      simp only [Option.some.injEq, forall_eq']
      exact (hact c m1 _ m2).symm
  constructor
  · intro hm
    have hm' := hm
    unfold Space.activeNames at hm'
    obtain ⟨x, hx, rfl⟩ := List.mem_map.1 hm'
    have hx := (List.mem_filter.1 hx).1
    exact ⟨(reach_isNode h _).1 (mem_names hx), (key x hx).1 hm⟩
  · rintro ⟨hk, hq⟩
    obtain ⟨x, hx, rfl⟩ := List.mem_map.1 ((reach_isNode h n).2 hk)
    exact (key x hx).2 hq

/-! ## A space that meets the hypotheses -/

theorem Ex.allConds2 : allConds [Ex.call1, Ex.call2] = [Ex.condX, Ex.condK, Ex.condO] := by
  simp [allConds, Ex.call1, Ex.call2]

theorem Ex.sep2 : Separable [Ex.call1, Ex.call2] := by
  refine separable_of_plain Ex.reach2 ?_ (by decide +kernel)
  rw [Ex.allConds2]
  intro c hc d hd
  simp only [List.mem_cons, List.not_mem_nil, or_false] at hc hd
  rcases hc with rfl | rfl | rfl <;> rcases hd with rfl | rfl | rfl <;> intro he <;>
    first
    | exact trivial
    | exact absurd he (by decide +kernel)
    | skip
  refine ⟨by simp, ?_⟩
  simp only [List.pairwise_cons, List.mem_cons, List.not_mem_nil, or_false, forall_eq]
  refine ⟨?_, by simp⟩
  intro l m h1 h2
  cases h1; cases h2
  decide +kernel

theorem Ex.tight2 : ∀ c ∈ allConds [Ex.call1, Ex.call2], Tight [Ex.call1, Ex.call2] c := by
  rw [Ex.allConds2]
  intro c hc
  simp only [List.mem_cons, List.not_mem_nil, or_false] at hc
  have h1 : ∀ {l : Lit}, (∀ w x, l.test ≠ .bin .ne w x) → ¬ IsNotEquals l := by
    rintro l h ⟨w, x, e⟩; exact h w x e
  rcases hc with rfl | rfl | rfl
  · refine .and ?_
    intro c hc
    simp only [List.mem_cons, List.not_mem_nil, or_false] at hc
    rcases hc with rfl | rfl <;> exact .pos (h1 (by simp [Ex.litX, Ex.litX']))
  · exact .pos (h1 (by simp [Ex.litK]))
  · exact .pos (h1 (by simp [Ex.litO]))

/-- `alg = "b"`, `o = "mid"` and the rest unset would be fine if `forb3` did not forbid `alg = "b"`;
the default configuration is accepted by both validators, and its active names are read off it. -/
example : Ex.sp2.check Ex.vv1 = none ∧ Ex.sp2.checkRigorous Ex.vv1 = none ∧
    Valid [Ex.call1, Ex.call2] (asg Ex.sp2.idx Ex.vv1) ∧
    ("x" ∈ Ex.sp2.activeNames Ex.vv1) := by
  have hc : Ex.sp2.check Ex.vv1 = none := by decide +kernel
  have hv := represents_asg Ex.reach2 (v := Ex.vv1) (by decide +kernel)
  have hl : LegalRoots [Ex.call1, Ex.call2] (asg Ex.sp2.idx Ex.vv1) := by
    intro x hx _ q hq
    have hh : allHps [Ex.call1, Ex.call2] = [Ex.hpX, Ex.hpK, Ex.hpO, Ex.hpAlg, Ex.hpC] := by
      simp [allHps, Ex.call1, Ex.call2]
    have : ∀ x ∈ [Ex.hpX, Ex.hpK, Ex.hpO, Ex.hpAlg, Ex.hpC],
        ((asg Ex.sp2.idx Ex.vv1 x.name).all (fun q => x.kind.legalVec q)) = true := by decide +kernel
    have := this x (hh ▸ hx)
    simpa [hq] using this
  exact ⟨hc, (C18_validators_agree_partial Ex.reach2 Ex.sep2 Ex.own2 Ex.tight2 hv hl).1 hc,
    C16_accepted_legal_roots_partial Ex.reach2 Ex.sep2 Ex.own2 hv hl hc,
    (C19_active_iff_set_partial Ex.reach2 Ex.sep2 Ex.tight2 hv hc "x").2
      ⟨⟨Ex.hpX, by simp [allHps, Ex.call1], rfl⟩, 1/2, by decide +kernel⟩⟩

/-! ## Counterexamples -/

/-- **C16 fails:** the value of an unconditional hyperparameter is never checked; `alg = 1/2` is accepted. -/
theorem C16_illegal_root_accepted :
    ∃ calls s v h q, Reach calls s ∧ v.length = s.len ∧ s.check v = none ∧ h ∈ allHps calls ∧
      v.at (s.idx h.name) = some q ∧ h.kind.legalVec q = false ∧ s.checkRigorous v ≠ none :=
  ⟨[Ex.call1], Ex.sp1, [some (1/2), some 1, none, none, none], Ex.hpAlg, 1/2, Ex.reach1,
    by decide +kernel, by decide +kernel, by simp [allHps, Ex.call1], by decide +kernel, by decide +kernel,
    by decide +kernel⟩

namespace Ex
/-- `k` as root; `x | k > 2 && alg == "a"` and `o | alg == "a" || k > 2`. -/
def callG : Call := ⟨[hpAlg, hpK, hpX, hpO], [condX, condO3], []⟩
def spG : Space := committed {} callG
theorem reachG : Reach [callG] spG :=
  Reach.snoc (calls := []) .nil (by decide +kernel)
    (add_of_stages
      [("alg", some (.str "a")), ("k", some (.int 3)), ("o", some (.str "mid")), ("x", some (.flt 1))]
      [some 0, some (2/9), some 1, some (1/2)]
      [("alg", .str "a"), ("k", .int 3), ("o", .str "mid"), ("x", .flt 1)]
      (by decide +kernel) (by decide +kernel) (by decide +kernel)
      (by decide +kernel) (by decide +kernel) (by decide +kernel))

/-- `k | alg == "a"`, `x | k > 2 || alg == "b"`. -/
def condXor : Cond := .or [.lit litX, .lit ⟨hpX, hpAlg, .bin .eq (.str "b") 1⟩]
def callO : Call := ⟨[hpAlg, hpK, hpX], [condK, condXor], []⟩
def spO : Space := committed {} callO
theorem reachO : Reach [callO] spO :=
  Reach.snoc (calls := []) .nil (by decide +kernel)
    (add_of_stages
      [("alg", some (.str "a")), ("k", some (.int 3)), ("x", some (.flt 1))]
      [some 0, some (2/9), some (1/2)]
      [("alg", .str "a"), ("k", .int 3), ("x", .flt 1)]
      (by decide +kernel) (by decide +kernel) (by decide +kernel)
      (by decide +kernel) (by decide +kernel) (by decide +kernel))

/-- `k | alg == "a"`, `x | k != 2`. -/
def callN : Call := ⟨[hpAlg, hpK, hpX], [condK, .lit litNe], []⟩
def spN : Space := committed {} callN
theorem reachN : Reach [callN] spN :=
  Reach.snoc (calls := []) .nil (by decide +kernel)
    (add_of_stages
      [("alg", some (.str "a")), ("k", some (.int 3)), ("x", some (.flt 1))]
      [some 0, some (2/9), some (1/2)]
      [("alg", .str "a"), ("k", .int 3), ("x", .flt 1)]
      (by decide +kernel) (by decide +kernel) (by decide +kernel)
      (by decide +kernel) (by decide +kernel) (by decide +kernel))
end Ex

/-- **C16 and C17 fail** because an and- and an or-conjunction of the same literals are checked together: with
`alg = "a"`, `k = 1` the condition of `x` is false; the vector with `x` unset is valid and rejected, the
one with `x` set is invalid and accepted. -/
theorem C17_grouped_conjunctions_misjudged :
    ∃ s c v v', Reach [Ex.callG] s ∧ c ∈ allConds [Ex.callG] ∧ childName c = some "x" ∧
      c.satVec s.idx v = false ∧ c.satVec s.idx v' = false ∧
      v.at (s.idx "x") = none ∧ s.check v = some (.activeNotSet "x") ∧ s.checkRigorous v = none ∧
      v'.at (s.idx "x") = some (1/2) ∧ s.check v' = none :=
  ⟨Ex.spG, Ex.condX, [some 0, some 0, some 1, none], [some 0, some 0, some 1, some (1/2)], Ex.reachG,
    by simp [allConds, Ex.callG], by decide +kernel, by decide +kernel, by decide +kernel, by decide +kernel,
    by decide +kernel, by decide +kernel, by decide +kernel, by decide +kernel⟩

/-- **C18 and C19 fail** for an or-conjunction one of whose parents is inactive: `check_configuration` asks for a
value of `x`, the rigorous validator refuses it and `get_active_hyperparameters` does not list it. -/
theorem C18_or_with_inactive_parent_differs :
    ∃ s v, Built s ∧ v.length = s.len ∧ s.check v = none ∧
      s.checkRigorous v = some (.inactiveSet "x") ∧
      v.at (s.idx "x") = some (1/2) ∧ "x" ∉ s.activeNames v :=
  ⟨Ex.spO, [some 1, none, some (1/2)], ⟨_, Ex.reachO⟩, by decide +kernel, by decide +kernel, by decide +kernel,
    by decide +kernel, by decide +kernel⟩

/-- **C18 and C19 fail** for `NotEqualsCondition` with an inactive parent. -/
theorem C18_not_equals_with_inactive_parent_differs :
    ∃ s v, Built s ∧ v.length = s.len ∧ s.check v = none ∧
      s.checkRigorous v = some (.inactiveSet "x") ∧
      v.at (s.idx "x") = some (1/2) ∧ "x" ∉ s.activeNames v :=
  ⟨Ex.spN, [some 1, none, some (1/2)], ⟨_, Ex.reachN⟩, by decide +kernel, by decide +kernel, by decide +kernel,
    by decide +kernel, by decide +kernel⟩

/-- The default configuration of the two-call space meets the hypotheses of C16. -/
example : ActivityOk [Ex.call1, Ex.call2] (asg Ex.sp2.idx Ex.vv1) :=
  (C16_accepted_is_valid_partial Ex.reach2 Ex.sep2 Ex.own2 (represents_asg Ex.reach2 (by decide +kernel)) (by decide +kernel)).2.1

end Verif
