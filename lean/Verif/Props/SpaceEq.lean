import Verif.Lemmas.SpaceEq
import Verif.Props.Serial
import Verif.Props.Atomic

/-!
# C69: equality of spaces
-/

set_option autoImplicit false

namespace Verif
open Verif.Spec

variable {calls calls' calls'' : List Call} {f g h : FSpace}

/-! ## Examples -/

namespace ExE
open Ex

/-- The space after one more call. -/
def step (f : FSpace) (k : Call) : FSpace := ⟨committed f.space k, f.nf.commit (f.space.dag.addAll k.hps k.conds k.forbs).1⟩

theorem reachF_step {calls : List Call} {f : FSpace} {k : Call} (h : ReachF calls f) (hw : k.wf)
    (ha : f.space.add k.hps k.conds k.forbs = (committed f.space k, none)) : ReachF (calls ++ [k]) (step f k) := by
  refine .snoc h hw ?_
  have hd : (f.space.dag.addAll k.hps k.conds k.forbs).2 = none := by
    cases e : f.space.dag.addAll k.hps k.conds k.forbs with
    | mk d o =>
      cases o with
      | none => rfl
      | some e' => simp [Space.add, e] at ha
  unfold FSpace.add
  simp only [ha]
  cases e : f.space.dag.addAll k.hps k.conds k.forbs with
  | mk d o =>
    rw [e] at hd
    simp only at hd
    subst hd
    simp [step, e]

def p : HP := ⟨"p", .cat [.str "a", .str "b", .str "c"], .str "c"⟩
/-- The same choices in another order: equal. -/
def p' : HP := ⟨"p", .cat [.str "b", .str "a", .str "c"], .str "c"⟩
def q : HP := ⟨"q", .cat [.str "u", .str "v"], .str "u"⟩
def notA : Forb := .eq p (.str "a") 0
def notB : Forb := .eq p (.str "b") 1
def onlyC : Cond := .lit ⟨q, p, .bin .eq (.str "c") 2⟩

def vals1 : Dict := [("p", some (.str "c"))]

/-- Both clauses in one call. -/
def kBoth : Call := ⟨[p], [], [notB, notA]⟩
def fBoth : FSpace := step {} kBoth
theorem rBoth : ReachF [kBoth] fBoth := reachF_step .nil (by decide +kernel)
  (add_of_stages vals1 [some 2] [("p", .str "c")]
    (by decide +kernel) (by decide +kernel) (by decide +kernel) (by decide +kernel) (by decide +kernel) (by decide +kernel))

/-- In two calls, the second one first. -/
def kB : Call := ⟨[p], [], [notB]⟩
def kA : Call := ⟨[], [], [notA]⟩
def fB : FSpace := step {} kB
def fBA : FSpace := step fB kA
theorem rB : ReachF [kB] fB := reachF_step .nil (by decide +kernel)
  (add_of_stages vals1 [some 2] [("p", .str "c")]
    (by decide +kernel) (by decide +kernel) (by decide +kernel) (by decide +kernel) (by decide +kernel) (by decide +kernel))
theorem rBA : ReachF [kB, kA] fBA := reachF_step rB (by decide +kernel)
  (add_of_stages vals1 [some 2] [("p", .str "c")]
    (by decide +kernel) (by decide +kernel) (by decide +kernel) (by decide +kernel) (by decide +kernel) (by decide +kernel))

/-- A hyperparameter with a condition in one call, in several calls, and with the clauses in another order. -/
def kOne : Call := ⟨[p, q], [onlyC], [notB, notA]⟩
def kHps : Call := ⟨[q, p], [], []⟩
def kRules : Call := ⟨[], [onlyC], [notA, notB]⟩
def fOne : FSpace := step {} kOne
def fHps : FSpace := step {} kHps
def fTwo : FSpace := step fHps kRules
def vals2 : Dict := [("p", some (.str "c")), ("q", some (.str "u"))]
theorem rOne : ReachF [kOne] fOne := reachF_step .nil (by decide +kernel)
  (add_of_stages vals2 [some 2, some 0] [("p", .str "c"), ("q", .str "u")]
    (by decide +kernel) (by decide +kernel) (by decide +kernel) (by decide +kernel) (by decide +kernel) (by decide +kernel))
theorem rHps : ReachF [kHps] fHps := reachF_step .nil (by decide +kernel)
  (add_of_stages vals2 [some 2, some 0] [("p", .str "c"), ("q", .str "u")]
    (by decide +kernel) (by decide +kernel) (by decide +kernel) (by decide +kernel) (by decide +kernel) (by decide +kernel))
theorem rTwo : ReachF [kHps, kRules] fTwo := reachF_step rHps (by decide +kernel)
  (add_of_stages vals2 [some 2, some 0] [("p", .str "c"), ("q", .str "u")]
    (by decide +kernel) (by decide +kernel) (by decide +kernel) (by decide +kernel) (by decide +kernel) (by decide +kernel))

/-- In clauses: one repeats a value. -/
def kAA : Call := ⟨[p], [], [.isIn p [.str "a", .str "a"] [0, 0]]⟩
def kAB : Call := ⟨[p], [], [.isIn p [.str "a", .str "b"] [0, 1]]⟩
def fAA : FSpace := step {} kAA
def fAB : FSpace := step {} kAB
theorem rAA : ReachF [kAA] fAA := reachF_step .nil (by decide +kernel)
  (add_of_stages vals1 [some 2] [("p", .str "c")]
    (by decide +kernel) (by decide +kernel) (by decide +kernel) (by decide +kernel) (by decide +kernel) (by decide +kernel))
theorem rAB : ReachF [kAB] fAB := reachF_step .nil (by decide +kernel)
  (add_of_stages vals1 [some 2] [("p", .str "c")]
    (by decide +kernel) (by decide +kernel) (by decide +kernel) (by decide +kernel) (by decide +kernel) (by decide +kernel))

/-- The clause `p == "a"`, with the choices in two orders. -/
def kO : Call := ⟨[p], [], [notA]⟩
def kO' : Call := ⟨[p'], [], [.eq p' (.str "a") 1]⟩
def fO : FSpace := step {} kO
def fO' : FSpace := step {} kO'
theorem rO : ReachF [kO] fO := reachF_step .nil (by decide +kernel)
  (add_of_stages vals1 [some 2] [("p", .str "c")]
    (by decide +kernel) (by decide +kernel) (by decide +kernel) (by decide +kernel) (by decide +kernel) (by decide +kernel))
theorem rO' : ReachF [kO'] fO' := reachF_step .nil (by decide +kernel)
  (add_of_stages vals1 [some 2] [("p", .str "c")]
    (by decide +kernel) (by decide +kernel) (by decide +kernel) (by decide +kernel) (by decide +kernel) (by decide +kernel))

theorem apart {fs : List Forb} (h : fs.Pairwise (fun a b => a.render ≠ b.render)) : ClausesApart fs := by
  intro a ha b hb e
  by_contra hne
  induction fs with
  | nil => simp at ha
  | cons x xs ih =>
    rw [List.pairwise_cons] at h
    rcases List.mem_cons.1 ha with rfl | ha'
    · rcases List.mem_cons.1 hb with rfl | hb
      · exact hne rfl
      · exact h.1 b hb e
    · rcases List.mem_cons.1 hb with rfl | hb
      · exact h.1 a (by assumption) e.symm
      · exact ih h.2 (by assumption) hb

/-- `fBA` built again. -/
def fHp : FSpace := step {} fBA.space.hpCall
def fAgain : FSpace := step fHp fBA.space.ruleCall
theorem rHp : ReachF [fBA.space.hpCall] fHp := reachF_step .nil (hpCall_wf rBA.reach)
  (add_of_stages vals1 [some 2] [("p", .str "c")]
    (by decide +kernel) (by decide +kernel) (by decide +kernel) (by decide +kernel) (by decide +kernel) (by decide +kernel))
theorem rAgain : ReachF [fBA.space.hpCall, fBA.space.ruleCall] fAgain := reachF_step rHp (ruleCall_wf rBA.reach)
  (add_of_stages vals1 [some 2] [("p", .str "c")]
    (by decide +kernel) (by decide +kernel) (by decide +kernel) (by decide +kernel) (by decide +kernel) (by decide +kernel))

end ExE

/-! ## What is compared -/

/-- **C69.** Two spaces are equal exactly if they have equal hyperparameters in the same order with equal conditions,
equal clauses in the same order, and for each hyperparameter the same list of literal clauses about it.  Nothing else
(depths, children) is compared that this does not determine. -/
theorem C69_equal_iff (hf : ReachF calls f) (hg : ReachF calls' g) : f.eq g = true ↔ SameContent f g :=
  eq_iff_content hf hg

example : SameContent ExE.fOne ExE.fTwo := (C69_equal_iff ExE.rOne ExE.rTwo).1 (by decide +kernel)
example : ¬ SameContent ExE.fBoth ExE.fBA := fun h =>
  absurd ((C69_equal_iff ExE.rBoth ExE.rBA).2 h) (by decide +kernel)

/-- **C69.** Every space is equal to itself. -/
theorem C69_reflexive (hf : ReachF calls f) : f.eq f = true :=
  (C69_equal_iff hf hf).2 ⟨ListEq.refl HP.pyEq_refl _, ListEq.refl condOptEq_refl _, ListEq.refl Forb.pyEq_refl _,
    ListEq.refl Forb.pyEq_refl _, fun _ _ => ListEq.refl Forb.pyEq_refl _⟩

example : ExE.fTwo.eq ExE.fTwo = true := C69_reflexive ExE.rTwo

/-- **C69.** When `add` rejects an item, the lists that are compared for each hyperparameter stay as they were, also if other
items of the call had been accepted. -/
theorem C69_rejected_lists {f g : FSpace} {k : Call} {e : Err} (he : RejectErr e) (h : f.add k = (g, some e)) (n : Name) :
    g.nf n = f.nf n := by
  unfold FSpace.add at h
  simp only at h
  have h2 : (f.space.add k.hps k.conds k.forbs).2 = some e := by
    split at h <;> exact (Prod.mk.inj h).2
  rw [add_structural (rejectErr_structural he)] at h2
  cases hg : f.space.dag.addAll k.hps k.conds k.forbs with
  | mk d o =>
    rw [hg] at h h2
    simp only at h2
    subst h2
    simp only at h
    rw [← (Prod.mk.inj h).1]

/-- The first clause of the call is accepted, the second one is about an unknown hyperparameter. -/
example : (ExE.fB.add ⟨[], [], [ExE.notA, .eq ExE.q (.str "u") 0]⟩).2 = some (.hpNotFound "q") ∧
    (ExE.fB.add ⟨[], [], [ExE.notA, .eq ExE.q (.str "u") 0]⟩).1.space.forbs.length = 2 ∧ ExE.fB.space.forbs.length = 1 := by decide +kernel

/-- **C69** (partial: calls with one item, as in C08). A space is equal to what it was before a call that was rejected. -/
theorem C69_rejected_equal_partial (hf : ReachF calls f) {k : Call} (hk : k.wf)
    (h1 : k.hps.length + k.conds.length + k.forbs.length = 1) {e : Err} (he : RejectErr e) (hcyc : e ≠ .cyclic)
    (hpar : ∀ p, e = .parentNotFound p → ∃ l, k.conds = [.lit l]) (h : f.add k = (g, some e)) :
    f.eq g = true ∧ g.eq f = true := by
  have hnf : g.nf = f.nf := funext (C69_rejected_lists he h)
  have hs : g.space = f.space := by
    have hh : f.space.add k.hps k.conds k.forbs = (g.space, some e) := by
      unfold FSpace.add at h
      simp only at h
      split at h <;> (rw [← (Prod.mk.inj h).2, ← (Prod.mk.inj h).1])
    exact C08_single_item_unchanged_partial hf.reach hk h1 he hcyc hpar hh
  have : g = f := by
    cases g
    cases f
    simp only at hnf hs
    rw [hnf, hs]
  rw [this]
  exact ⟨C69_reflexive hf, C69_reflexive hf⟩

/-- **C69.** Equality of spaces is transitive. -/
theorem C69_transitive (hf : ReachF calls f) (hg : ReachF calls' g) (hh : ReachF calls'' h) (h1 : f.eq g = true)
    (h2 : g.eq h = true) : f.eq h = true := by
  rw [C69_equal_iff hf hg] at h1
  rw [C69_equal_iff hg hh] at h2
  rw [C69_equal_iff hf hh]
  have ft : ∀ a b c : Forb, a.pyEq b = true → b.pyEq c = true → a.pyEq c = true := fun a _ _ => Forb.pyEq_trans a
  have ht : ∀ a b c : HP, a.pyEq b = true → b.pyEq c = true → a.pyEq c = true := fun _ _ _ => HP.pyEq_trans
  exact ⟨ListEq.trans ht h1.hps h2.hps, ListEq.trans condOptEq_trans h1.conds h2.conds,
    ListEq.trans ft h1.uncond h2.uncond, ListEq.trans ft h1.condF h2.condF,
    fun n hn => ListEq.trans ft (h1.nodes n hn) (h2.nodes n (content_names h1 ▸ hn))⟩

example : ExE.fOne.eq ExE.fOne = true :=
  C69_transitive ExE.rOne ExE.rTwo ExE.rOne (by decide +kernel) (by decide +kernel)

/-- **C69, guarded.** Equality of spaces is symmetric, unless an in clause of the left space repeats a value. -/
theorem C69_symmetric_partial (hf : ReachF calls f) (hg : ReachF calls' g) (hn : NoRepeats calls) (he : f.eq g = true) :
    g.eq f = true := by
  rw [C69_equal_iff hf hg] at he
  rw [C69_equal_iff hg hf]
  have i := sinv_of_reach hf.reach
  have w := reach_wf hf.reach
  have wn := fun x (hx : x ∈ f.space.com) => node_wf hf.reach hx
  have key : ∀ a ∈ allForbs calls, ∀ b, a.pyEq b = true → b.pyEq a = true := fun a ha b e =>
    Forb.pyEq_symm a (w.2.2 a ha) (hn a ha) e
  have kl : ∀ c ∈ allForbs calls, ∀ a ∈ c.dlcs, ∀ b, a.pyEq b = true → b.pyEq a = true := by
    intro c hc a ha b e
    exact Forb.pyEq_symm a (forb_dlcs_wf c (w.2.2 c hc) a ha) (fun x vs xs hm => hn c hc x vs xs (forb_dlcs_dlcs c a ha _ hm)) e
  refine ⟨ListEq.symm ?_ he.hps, ListEq.symm ?_ he.conds,
    ListEq.symm (fun a ha => key a (i.hist.forbs.mem_iff.1 (by simp [ha]))) he.uncond,
    ListEq.symm (fun a ha => key a (i.hist.forbs.mem_iff.1 (by simp [ha]))) he.condF, fun n hm => ListEq.symm ?_
      (he.nodes n (content_names he ▸ hm))⟩
  · intro a ha b e
    obtain ⟨x, hx, rfl⟩ := List.mem_map.1 ha
    exact HP.pyEq_symm (wn x hx) e
  · intro a ha b e
    obtain ⟨x, hx, rfl⟩ := List.mem_map.1 ha
    rcases condOptEq_iff.1 e with ⟨e1, e2⟩ | ⟨c, d, e1, e2, e3⟩
    · rw [e1, e2]; rfl
    · rw [e1, e2]
      exact Cond.pyEq_symm (Cond.wf_wf0 (w.2.1 c (node_cond_mem hf.reach hx e1))) e3
  · intro a ha
    obtain ⟨c, hc, hd⟩ := mem_nf hf ha
    exact kl c hc a hd

example : ExE.fTwo.eq ExE.fOne = true :=
  C69_symmetric_partial ExE.rOne ExE.rTwo (by
    intro a ha x vs xs hm
    simp only [allForbs, ExE.kOne, List.flatMap_cons, List.flatMap_nil, List.append_nil, List.mem_cons, List.not_mem_nil,
      or_false] at ha
    rcases ha with rfl | rfl <;> simp [ExE.notA, ExE.notB, Forb.dlcs] at hm) (by decide +kernel)

/-- **C69 fails** without this: `==` of spaces is not symmetric, and the two spaces accept different vectors. -/
theorem C69_not_symmetric : ∃ calls calls' f g v, ReachF calls f ∧ ReachF calls' g ∧ f.eq g = true ∧ g.eq f = false ∧
    f.space.check v = none ∧ g.space.check v ≠ none :=
  ⟨_, _, ExE.fAA, ExE.fAB, [some 1], ExE.rAA, ExE.rAB, by decide +kernel, by decide +kernel, by decide +kernel,
    by decide +kernel⟩

/-! ## Same content, other history -/

/-- **C69, guarded.** Two spaces with the same hyperparameters, equal conditions and the same clauses are equal, in
whatever order and in however many calls they were built, if all clauses of each of them come in one call and different
clauses are printed differently. -/
theorem C69_same_content_equal_partial (hf : ReachF calls f) (hg : ReachF calls' g)
    (hp : (allHps calls).Perm (allHps calls')) (hc : SameConds (allConds calls) (allConds calls'))
    (hfo : (allForbs calls).Perm (allForbs calls')) (hap : ClausesApart (allForbs calls)) (ho : ClausesAtOnce calls)
    (ho' : ClausesAtOnce calls') : f.eq g = true :=
  same_content_eq hf hg hp hc hfo hap ho ho'

example : ExE.fOne.eq ExE.fTwo = true :=
  C69_same_content_equal_partial ExE.rOne ExE.rTwo (List.Perm.swap _ _ _)
    ⟨fun c hc => ⟨c, hc, Cond.pyEq_refl c⟩, fun c hc => ⟨c, hc, Cond.pyEq_refl c⟩⟩ (List.Perm.swap _ _ _)
    (ExE.apart (by decide +kernel))
    ⟨[], ExE.kOne, [], rfl, by simp, by simp⟩ ⟨[ExE.kHps], ExE.kRules, [], rfl, by simp [ExE.kHps], by simp⟩

/-- **C69 fails** otherwise: the same hyperparameter and the same two clauses, added in one call or in two, make two
spaces that are not equal, although they have the same list of clauses and accept the same vectors. -/
theorem C69_history_unequal : ∃ calls calls' f g, ReachF calls f ∧ ReachF calls' g ∧ (allHps calls) = (allHps calls') ∧
    allForbs calls = allForbs calls' ∧ f.space = g.space ∧ f.eq g = false :=
  ⟨_, _, ExE.fBoth, ExE.fBA, ExE.rBoth, ExE.rBA, rfl, rfl, rfl, by decide +kernel⟩

/-! ## Copies -/

/-- **C69, guarded.** A space that is built again from the hyperparameters, conditions and clauses of a space, as by
`from_serialized_dict` of its dictionary, is equal to it, if its clauses came in one call. -/
theorem C69_rebuilt_equal_partial (hf : ReachF calls f) (hown : OwnClauses calls) (hap : ClausesApart (allForbs calls))
    (ho : ClausesAtOnce calls) : ∃ g, ReachF [f.space.hpCall, f.space.ruleCall] g ∧ f.eq g = true ∧ g.eq f = true := by
  obtain ⟨s1, s2, -, -, -, h2, -⟩ := rebuild hf.reach hown
  obtain ⟨nf, hg⟩ := reachF_of_reach h2
  have i := sinv_of_reach hf.reach
  have w := reach_wf hf.reach
  have eH : allHps [f.space.hpCall, f.space.ruleCall] = f.space.com.map Node.hp := by
    simp [allHps, Space.hpCall, Space.ruleCall]
  have eC : allConds [f.space.hpCall, f.space.ruleCall] = f.space.com.filterMap Node.cond := by
    simp [allConds, Space.hpCall, Space.ruleCall]
  have eF : allForbs [f.space.hpCall, f.space.ruleCall] = f.space.forbs := by
    simp [allForbs, Space.hpCall, Space.ruleCall]
  have hH : (allHps calls).Perm (allHps [f.space.hpCall, f.space.ruleCall]) := by
    rw [eH, ← i.com]
    exact i.hist.hps.symm
  have hF : (allForbs calls).Perm (allForbs [f.space.hpCall, f.space.ruleCall]) := by
    rw [eF]
    exact i.hist.forbs.symm
  have hC : SameConds (allConds calls) (allConds [f.space.hpCall, f.space.ruleCall]) := by
    rw [eC]
    constructor
    · intro c hc
      obtain ⟨x, hx⟩ := wf_child (w.2.1 c hc)
      have hsome : ∃ d, lastCond (allConds calls) x.name = some d := by
        cases e : lastCond (allConds calls) x.name with
        | some d => exact ⟨d, rfl⟩
        | none => exact absurd (by simp [childName, hx]) (lastCond_none.1 e c hc)
      obtain ⟨d, hd⟩ := hsome
      have hda : condAt f.space.com x.name = some d := by rw [← i.com, i.hist.cond, hd]
      have hsame := i.hist.same c hc x hx d (by rw [i.com]; exact hda)
      refine ⟨d, ?_, Cond.pyEq_symm (Cond.wf_wf0 (w.2.1 d (lastCond_some hd).1)) hsame⟩
      unfold condAt at hda
      cases e : findNode f.space.com x.name with
      | none => simp [e] at hda
      | some y =>
        rw [e] at hda
        exact List.mem_filterMap.2 ⟨y, (findNode_some e).1, hda⟩
    · intro d hd
      obtain ⟨x, hx, hxc⟩ := List.mem_filterMap.1 hd
      exact ⟨d, node_cond_mem hf.reach hx hxc, Cond.pyEq_refl d⟩
  have hC' : SameConds (allConds [f.space.hpCall, f.space.ruleCall]) (allConds calls) := by
    have w2 := (reach_wf h2).2.1
    constructor
    · intro d hd
      obtain ⟨c, hc, e⟩ := hC.2 d hd
      exact ⟨c, hc, Cond.pyEq_symm (Cond.wf_wf0 (w.2.1 c hc)) e⟩
    · intro c hc
      obtain ⟨d, hd, e⟩ := hC.1 c hc
      exact ⟨d, hd, Cond.pyEq_symm (Cond.wf_wf0 (w.2.1 c hc)) e⟩
  have ho2 : ClausesAtOnce [f.space.hpCall, f.space.ruleCall] :=
    ⟨[f.space.hpCall], f.space.ruleCall, [], rfl, by simp [Space.hpCall], by simp⟩
  exact ⟨⟨s2, nf⟩, hg, same_content_eq hf hg hH hC hF hap ho ho2, same_content_eq hg hf hH.symm hC' hF.symm
    (fun a ha b hb => hap a (hF.mem_iff.2 ha) b (hF.mem_iff.2 hb)) ho2 ho⟩

example : ∃ g, ReachF [ExE.fTwo.space.hpCall, ExE.fTwo.space.ruleCall] g ∧ ExE.fTwo.eq g = true ∧ g.eq ExE.fTwo = true :=
  C69_rebuilt_equal_partial ExE.rTwo (by unfold OwnClauses; decide +kernel) (ExE.apart (by decide +kernel))
    ⟨[ExE.kHps], ExE.kRules, [], rfl, by simp [ExE.kHps], by simp⟩

/-- **C69 fails** otherwise: a space whose clauses were added in two calls is not equal to what is built again from its
hyperparameters, conditions and clauses. -/
theorem C69_rebuilt_unequal : ∃ calls f, ReachF calls f ∧ OwnConds calls ∧ OwnClauses calls ∧ ClausesApart (allForbs calls) ∧
    (∃ g, ReachF [f.space.hpCall, f.space.ruleCall] g) ∧
    ∀ g, ReachF [f.space.hpCall, f.space.ruleCall] g → f.eq g = false :=
  ⟨_, ExE.fBA, ExE.rBA, by unfold OwnConds; decide +kernel, by unfold OwnClauses; decide +kernel,
    ExE.apart (by decide +kernel), ⟨_, ExE.rAgain⟩, fun g hg => by
      rw [← reachF_unique ExE.rAgain hg]; decide +kernel⟩

/-! ## What equal spaces have in common -/

/-- **C69, guarded.** Equal spaces accept the same vectors and reject the others with the same errors, if equal
categorical hyperparameters list their choices in the same order and no in clause repeats a value. -/
theorem C69_equal_same_check_partial (hf : ReachF calls f) (hg : ReachF calls' g) (hoc : OwnConds calls)
    (hoc' : OwnConds calls') (hown : OwnClauses calls) (hown' : OwnClauses calls') (hnr : NoRepeats calls)
    (hch : SameChoices calls calls') (he : f.eq g = true) (v : Vec) (al : Bool) :
    f.space.check v al = g.space.check v al :=
  equal_check hf hg hoc hoc' hown hown' hnr hch he v al

example (v : Vec) (al : Bool) : ExE.fOne.space.check v al = ExE.fTwo.space.check v al :=
  C69_equal_same_check_partial ExE.rOne ExE.rTwo (by unfold OwnConds; decide +kernel) (by unfold OwnConds; decide +kernel)
    (by unfold OwnClauses; decide +kernel) (by unfold OwnClauses; decide +kernel) (by
      intro a ha x vs xs hm
      simp only [allForbs, ExE.kOne, List.flatMap_cons, List.flatMap_nil, List.append_nil, List.mem_cons, List.not_mem_nil,
        or_false] at ha
      rcases ha with rfl | rfl <;> simp [ExE.notA, ExE.notB, Forb.dlcs] at hm) (by
      intro a ha b hb e cs ds h1 h2
      have : ∀ a ∈ allHps [ExE.kOne], ∀ b ∈ allHps [ExE.kHps, ExE.kRules], a.pyEq b = true → a = b := by decide +kernel
      have := this a ha b hb e
      subst this
      rw [h1] at h2
      cases h2
      exact valsEq_refl _) (by decide +kernel) v al

/-- **C69 fails** for equal spaces in general: the order of choices is not compared, but vectors depend on it. -/
theorem C69_equal_spaces_differ : ∃ calls calls' f g v, ReachF calls f ∧ ReachF calls' g ∧ NoRepeats calls ∧ f.eq g = true ∧
    g.eq f = true ∧ f.space.check v = none ∧ g.space.check v ≠ none := by
  refine ⟨_, _, ExE.fO, ExE.fO', [some 1], ExE.rO, ExE.rO', ?_, by decide +kernel, by decide +kernel, by decide +kernel,
    by decide +kernel⟩
  intro a ha x vs xs hm
  simp only [allForbs, ExE.kO, List.flatMap_cons, List.flatMap_nil, List.append_nil, List.mem_cons, List.not_mem_nil,
    or_false] at ha
  subst ha
  simp [ExE.notA, Forb.dlcs] at hm

/-- A clause about an unknown hyperparameter is rejected, the space equals itself as it was before. -/
example : ExE.fB.eq (ExE.fB.add ⟨[], [], [.eq ExE.q (.str "u") 0]⟩).1 = true ∧
    ∀ n, (ExE.fB.add ⟨[], [], [.eq ExE.q (.str "u") 0]⟩).1.nf n = ExE.fB.nf n := by
  have h : ExE.fB.add ⟨[], [], [.eq ExE.q (.str "u") 0]⟩ =
      ((ExE.fB.add ⟨[], [], [.eq ExE.q (.str "u") 0]⟩).1, some (.hpNotFound "q")) := by
    rw [← show (ExE.fB.add ⟨[], [], [.eq ExE.q (.str "u") 0]⟩).2 = some (.hpNotFound "q") by decide +kernel]
  exact ⟨(C69_rejected_equal_partial ExE.rB (by decide +kernel) rfl (e := .hpNotFound "q") trivial (by simp) (by simp) h).1, C69_rejected_lists (e := .hpNotFound "q") trivial h⟩

end Verif
