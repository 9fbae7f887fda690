import Verif.Spec.Errors
import Verif.Lemmas.Build
import Verif.Lemmas.Rebuild
import Verif.Lemmas.EvalVal
import Verif.Lemmas.Subst
import Verif.Lemmas.RandomNeighbor
import Verif.Props.Check
import Verif.Props.Accept
import Verif.Props.Change

/-!
# C74: an exception says what is wrong
-/

set_option autoImplicit false

namespace Verif
open Verif.Spec

variable {calls : List Call} {s : Space} {k : Call}

/-! ## The validation -/

/-- What the loop over the conditions raises. -/
theorem checkConds_raised {v : Vec} {al : Bool} : ∀ {cs : List CNode} {e : Err}, checkConds s v al cs = some e →
    ∃ g ∈ cs, (g.cond.satVec s.idx v = true ∧ ∃ n ∈ g.kids,
        (isSet (v.at (s.idx n)) = false ∧ e = .activeNotSet n) ∨
        (isSet (v.at (s.idx n)) = true ∧ s.legalAt v n = false ∧ e = .illegalVector n)) ∨
      (g.cond.satVec s.idx v = false ∧ al = false ∧ ∃ n ∈ g.kids, isSet (v.at (s.idx n)) = true ∧
        (e = .inactiveSet n ∨ ∃ h q, s.hp? n = some h ∧ v.at (s.idx n) = some q ∧ h.kind.toVal q = none ∧ e = .valueError))
  | [], e, h => by simp [checkConds] at h
  | g :: gs, e, h => by
    unfold checkConds at h
    split at h
    · rename_i hs
      split at h
      · rename_i n hn
        cases h
        unfold firstWith at hn
        exact ⟨g, by simp, .inl ⟨hs, n, List.mem_of_find?_eq_some hn, .inl ⟨by simpa using List.find?_some hn, rfl⟩⟩⟩
      · rename_i hnone
        split at h
        · rename_i n hn
          cases h
          refine ⟨g, by simp, .inl ⟨hs, n, List.mem_of_find?_eq_some hn, .inr ⟨?_, by simpa using List.find?_some hn, rfl⟩⟩⟩
          have := firstWith_none.1 hnone n (List.mem_of_find?_eq_some hn)
          simpa using this
        · obtain ⟨g', h1, h2⟩ := checkConds_raised h; exact ⟨g', List.mem_cons_of_mem _ h1, h2⟩
    · rename_i hs
      have hs' : g.cond.satVec s.idx v = false := by simpa using hs
      split at h
      · obtain ⟨g', h1, h2⟩ := checkConds_raised h; exact ⟨g', List.mem_cons_of_mem _ h1, h2⟩
      · rename_i hal
        have hal' : al = false := by simpa using hal
        split at h
        · rename_i n hn
          unfold firstWith at hn
          have hset : isSet (v.at (s.idx n)) = true := by
            have := List.find?_some hn
            exact this
          refine ⟨g, by simp, .inr ⟨hs', hal', n, List.mem_of_find?_eq_some hn, hset, ?_⟩⟩
          split at h
          · rename_i h1 q e1 e2
            split at h
            · cases h; exact .inl rfl
            · rename_i hv
              cases h
              exact .inr ⟨h1, q, e1, e2, hv, rfl⟩
          · cases h; exact .inl rfl
        · obtain ⟨g', h1, h2⟩ := checkConds_raised h; exact ⟨g', List.mem_cons_of_mem _ h1, h2⟩

/-- **C74** (partial: conditions that the code groups have the same meaning, clauses are about hyperparameters of the space;
see `C17_grouped_conjunctions_misjudged`). The exception of `check_configuration` is one of five, and what it says is true of
the vector: a reported active hyperparameter is active and has no value; a reported illegal value belongs to an active
hyperparameter and is illegal; a reported inactive hyperparameter is inactive and has a value; if a forbidden clause is reported,
some clause of the space forbids the vector. -/
theorem C74_check_partial (h : Reach calls s) (hsep : Separable calls) (hown : OwnClauses calls) {v : Vec} {a : Assign}
    (hv : Represents s v a) {al : Bool} {e : Err} (he : s.check v al = some e) : TellsTruth calls a al e := by
  have hi := sinv_of_reach h
  have hg := groupsOk_sorted s.com
  rw [← hi.mins] at hg
  unfold Space.check at he
  split at he
  · rename_i n hn
    cases he
    unfold firstWith at hn
    obtain ⟨hk, hc⟩ := (C06_roots_no_condition h n).1 (List.mem_of_find?_eq_some hn)
    have hset := List.find?_some hn
    rw [at_idx hv ((reach_isNode h n).2 hk)] at hset
    refine ⟨hk, fun c hc1 hc2 => absurd ⟨c, hc1, hc2⟩ hc, ?_⟩
    cases ha : a n with
    | none => rfl
    | some q => simp [ha, isSet] at hset
  · split at he
    · rename_i e' hcc
      cases he
      obtain ⟨g, hgm, hh⟩ := checkConds_raised hcc
      -- the members of the group have the meaning of its condition
      have hmem : ∀ n ∈ g.kids, n ∈ s.names ∧ Known calls n ∧ (g.cond.satVec s.idx v = true ↔ ActiveIn calls a n) := by
        intro n hn
        obtain ⟨x, hx, rfl, c, hc, hec⟩ := hg.members g hgm n hn
        obtain ⟨m1, m2, m3⟩ := node_cond h hx hc
        obtain ⟨y, hy, _, hyc⟩ := hg.leader g hgm
        obtain ⟨k1, _, _⟩ := node_cond h hy hyc
        refine ⟨mem_names hx, (reach_isNode h _).1 (mem_names hx), ?_⟩
        rw [holds_represents h hv k1]
        have e1 : Holds a g.cond ↔ Holds a c := by
          rcases hec with e | e
          · rw [e]
          · exact hsep _ k1 _ m1 e a
        rw [e1]
        constructor
        · intro hh d hd hdn
          exact (holds_pyEq hsep m1 hd (m3 d hd hdn) a).1 hh
        · intro ha
          exact ha c m1 m2
      rcases hh with ⟨hs, n, hn, ⟨h1, rfl⟩ | ⟨h1, h2, rfl⟩⟩ | ⟨hs, hal, n, hn, h1, rfl | ⟨x, q, h2, h3, h4, rfl⟩⟩
      · obtain ⟨m1, m2, m3⟩ := hmem n hn
        rw [at_idx hv m1] at h1
        refine ⟨m2, m3.1 hs, ?_⟩
        cases ha : a n with
        | none => rfl
        | some q => simp [ha, isSet] at h1
      · obtain ⟨m1, ⟨y, hy, rfl⟩, m3⟩ := hmem n hn
        rw [at_idx hv m1] at h1
        refine ⟨y, hy, rfl, m3.1 hs, ?_⟩
        cases ha : a y.name with
        | none => simp [ha, isSet] at h1
        | some q =>
          refine ⟨q, rfl, ?_⟩
          cases hl : y.kind.legalVec q with
          | false => rfl
          | true =>
            exfalso
            have : s.legalAt v y.name = true := by
              rw [legalAt_iff h hv m1]
              refine ⟨⟨q, ha⟩, ?_⟩
              intro z hz hzn q' hq'
              rw [ha] at hq'
              cases hq'
              have e1 := (hp_of h (n := y.name)).2 ⟨hz, hzn⟩
              have e2 := (hp_of h (n := y.name)).2 ⟨hy, rfl⟩
              rw [e1] at e2
              cases e2
              exact hl
            rw [h2] at this
            cases this
      · obtain ⟨m1, m2, m3⟩ := hmem n hn
        rw [at_idx hv m1] at h1
        refine ⟨hal, m2, ?_, ?_⟩
        · intro hact
          rw [m3.2 hact] at hs
          cases hs
        · cases ha : a n with
          | none => simp [ha, isSet] at h1
          | some q => exact ⟨q, rfl⟩
      · obtain ⟨m1, m2, m3⟩ := hmem n hn
        obtain ⟨x1, rfl⟩ := (hp_of h).1 h2
        rw [at_idx hv m1] at h3
        refine ⟨hal, x, x1, ?_, q, h3, h4⟩
        intro hact
        rw [m3.2 hact] at hs
        cases hs
    · split at he
      · rename_i hf
        cases he
        exact (C10_merged_clauses_equivalent h hown hv).1 hf
      · cases he

/-! ## Building a configuration from values -/

theorem toVal_of_legal {h : HP} {v : Val} {x : Rat} (hx : h.kind.toVec v = some x) : h.kind.toVal x ≠ none := by
  cases hk : h.kind with
  | cat cs =>
    rw [hk] at hx
    simp only [Kind.toVec, Option.map_eq_some_iff] at hx
    obtain ⟨i, hi, rfl⟩ := hx
    obtain ⟨w, h1, h2⟩ := seqIndex_some hi
    simp [Kind.toVal, closeToInt_nat, rint_nat, pyIndex_nat, h1]
  | ord cs =>
    rw [hk] at hx
    simp only [Kind.toVec, Option.map_eq_some_iff] at hx
    obtain ⟨i, hi, rfl⟩ := hx
    obtain ⟨w, h1, h2⟩ := seqIndex_some hi
    simp [Kind.toVal, closeToInt_nat, rint_nat, pyIndex_nat, h1]
  | const c => simp [Kind.toVal]
  | int l u => simp [Kind.toVal]
  | flt l u => simp [Kind.toVal]

/-- What the loop over the values raises. -/
theorem fillValues_raised {d : Dict} : ∀ {ns : List Node} {v : Vec} {vals : List (Name × Val)} {e : Err},
    (∀ x ∈ ns, x.hp.wf = true) → fillValues s d ns v vals = .error e →
    ∃ x ∈ ns, ∃ w, d.lookup x.name = some (some w) ∧ x.hp.kind.legalValue w = false ∧ e = .illegalValue x.name := by
  intro ns
  induction ns with
  | nil => intro v vals e _ h; cases h
  | cons x xs ih =>
    intro v vals e hns h
    have hxs : ∀ y ∈ xs, y.hp.wf = true := fun y hy => hns y (List.mem_cons_of_mem _ hy)
    have lift : (∃ y ∈ xs, ∃ w, d.lookup y.name = some (some w) ∧ y.hp.kind.legalValue w = false ∧ e = .illegalValue y.name) →
        ∃ y ∈ x :: xs, ∃ w, d.lookup y.name = some (some w) ∧ y.hp.kind.legalValue w = false ∧ e = .illegalValue y.name :=
      fun ⟨y, h1, h2⟩ => ⟨y, List.mem_cons_of_mem _ h1, h2⟩
    simp only [fillValues] at h
    split at h
    · exact lift (ih hxs h)
    · exact lift (ih hxs h)
    · split at h
      · rename_i w hd hl
        cases h
        exact ⟨x, by simp, w, hd, by simpa using hl, rfl⟩
      · rename_i w _ hl
        simp only [Bool.not_eq_true', Bool.not_eq_false] at hl
        obtain ⟨q, hq⟩ := legal_toVec (roundVal_legal (hns x (List.mem_cons_self ..)) hl)
        rw [hq] at h
        exact lift (ih hxs h)

/-- **C74** (partial as above). The exception of `Configuration(space, values=...)` says what is wrong with the dictionary: a key
that is no name of the space (a plain `ValueError`), a value that is illegal for the named hyperparameter
(`IllegalValueError`), or what the validation says about the values. -/
theorem C74_values_partial (h : Reach calls s) (hsep : Separable calls) (hown : OwnClauses calls) {d : Dict} {al : Bool} {e : Err}
    (he : Config.ofValues s d al = .error e) :
    (e = .valueError ∧ ∃ kv ∈ d, ¬ Known calls kv.1) ∨
    (∃ x ∈ allHps calls, ∃ w, e = .illegalValue x.name ∧ d.lookup x.name = some (some w) ∧ x.kind.legalValue w = false) ∨
    (e ≠ .valueError ∧ ∃ a, Describes calls d a ∧ TellsTruth calls a al e) := by
  have hi := sinv_of_reach h
  have hn := reach_ninv h
  have hnode : ∀ y ∈ allHps calls, ∃ x ∈ s.com, x.hp = y := fun y hy => by
    obtain ⟨x, hx, e⟩ := List.mem_map.1 (hi.hist.hps.mem_iff.2 hy)
    exact ⟨x, by rw [← hi.com]; exact hx, e⟩
  have hhp : ∀ x ∈ s.com, x.hp ∈ allHps calls := fun x hx => by
    rw [← hi.com] at hx
    exact hi.hist.hps.mem_iff.1 (List.mem_map.2 ⟨x, hx, rfl⟩)
  unfold Config.ofValues at he
  split at he
  · rename_i hunk
    cases he
    left
    refine ⟨rfl, ?_⟩
    rw [List.any_eq_true] at hunk
    obtain ⟨kv, h1, h2⟩ := hunk
    simp only [Bool.and_eq_true, decide_eq_true_eq] at h2
    refine ⟨kv, h1, fun hk => h2.1 ?_⟩
    rw [hi.com]
    exact (reach_isNode h _).2 hk
  · split at he
    · rename_i e' hf
      cases he
      right; left
      rw [hi.com] at hf
      obtain ⟨x, hx, w, h1, h2, h3⟩ := fillValues_raised (fun x hx => node_wf h hx) hf
      exact ⟨x.hp, hhp x hx, w, h3, h1, h2⟩
    · rename_i v vals hf
      split at he
      · rename_i e' hc
        cases he
        right; right
        rw [hi.com] at hf
        obtain ⟨f1, f2, _, _⟩ := fillValues_spec hf (idx_nodup h) hn.nodup
          (fun x hx => by rw [List.length_replicate]; exact idx_lt h (mem_names hx)) (by simp)
        have hv : Represents s v (asg s.idx v) := represents_asg h (by rw [f1]; simp)
        have hasg : ∀ x ∈ s.com, asg s.idx v x.name = v.at (s.idx x.name) := fun x hx => (at_idx hv (mem_names hx)).symm
        have ht := C74_check_partial h hsep hown hv hc
        have hd : Describes calls d (asg s.idx v) := by
          intro y hy
          obtain ⟨x, hx, rfl⟩ := hnode y hy
          have hb : asg s.idx v x.hp.name = v.at (s.idx x.name) := hasg x hx
          rw [hb]
          rcases f2 x hx with ⟨w, q, g1, g2, g3, g4, g5⟩ | ⟨g1, g2, g3⟩
          · exact .inl ⟨w, g1, by rw [g4, g3]⟩
          · exact .inr ⟨g1, g2⟩
        refine ⟨?_, _, hd, ht⟩
        rintro rfl
        obtain ⟨_, y, hy, _, q, hq, hno⟩ := ht
        rcases hd y hy with ⟨w, g1, g2⟩ | ⟨g1, g2⟩
        · rw [hq] at g2
          exact toVal_of_legal g2.symm hno
        · rw [hq] at g2
          cases g2
      · cases he

/-! ## `add` -/

theorem lit_satVal_defined {l : Lit} (hw : l.wf = true) {d : Dict} {o : Option Val} (hd : d.lookup l.parent.name = some o)
    (hl : ∀ w, o = some w → l.parent.kind.legalValue w = true) : ∃ b, l.satVal d = .ok b := by
  cases o with
  | none => exact ⟨false, by simp [Lit.satVal, Dict.get, hd, bind, Except.bind]⟩
  | some w =>
    obtain ⟨x, hx⟩ := legal_toVec (hl w rfl)
    exact ⟨_, lit_satVal hw (idx := fun _ => 0) (v := [some x]) (.inr ⟨w, x, hd, hl w rfl, hx, rfl⟩) (fun _ => ⟨w, hd⟩)⟩

mutual
theorem satVal_defined : ∀ (c : Cond) {d : Dict}, (∀ l ∈ c.dlcs, ∃ b, l.satVal d = .ok b) → ∃ b, c.satVal d = .ok b
  | .lit l, d, h => by
    obtain ⟨b, hb⟩ := h l (by simp [Cond.dlcs])
    exact ⟨b, by simpa [Cond.satVal] using hb⟩
  | .and cs, d, h => by
    obtain ⟨b, hb⟩ := satValAll_defined cs (d := d) (by simpa [Cond.dlcs] using h)
    exact ⟨b, by simpa [Cond.satVal] using hb⟩
  | .or cs, d, h => by
    obtain ⟨b, hb⟩ := satValAny_defined cs (d := d) (by simpa [Cond.dlcs] using h)
    exact ⟨b, by simpa [Cond.satVal] using hb⟩
theorem satValAll_defined : ∀ (cs : List Cond) {d : Dict}, (∀ l ∈ Cond.dlcsL cs, ∃ b, l.satVal d = .ok b) →
    ∃ b, Cond.satValAll d cs = .ok b
  | [], d, h => ⟨true, by simp [Cond.satValAll]⟩
  | c :: cs, d, h => by
    obtain ⟨b, hb⟩ := satVal_defined c (d := d) (fun l hl => h l (by simp [Cond.dlcsL, hl]))
    obtain ⟨b', hb'⟩ := satValAll_defined cs (d := d) (fun l hl => h l (by simp [Cond.dlcsL, hl]))
    unfold Cond.satValAll
    cases b
    · exact ⟨false, by simp [hb, bind, Except.bind]⟩
    · exact ⟨b', by simpa [hb, bind, Except.bind] using hb'⟩
theorem satValAny_defined : ∀ (cs : List Cond) {d : Dict}, (∀ l ∈ Cond.dlcsL cs, ∃ b, l.satVal d = .ok b) →
    ∃ b, Cond.satValAny d cs = .ok b
  | [], d, h => ⟨false, by simp [Cond.satValAny]⟩
  | c :: cs, d, h => by
    obtain ⟨b, hb⟩ := satVal_defined c (d := d) (fun l hl => h l (by simp [Cond.dlcsL, hl]))
    obtain ⟨b', hb'⟩ := satValAny_defined cs (d := d) (fun l hl => h l (by simp [Cond.dlcsL, hl]))
    unfold Cond.satValAny
    cases b
    · exact ⟨b', by simpa [hb, bind, Except.bind] using hb'⟩
    · exact ⟨true, by simp [hb, bind, Except.bind]⟩
end

theorem lookup_isSome_append {d : Dict} {n m : Name} {o : Option Val} (h : (d.lookup n).isSome = true ∨ n = m) :
    ((d ++ [(m, o)]).lookup n).isSome = true := by
  rw [List.lookup_append]
  rcases h with h | rfl
  · cases hl : d.lookup n with
    | none => rw [hl] at h; cases h
    | some x => rfl
  · cases hl : d.lookup n with
    | none => simp
    | some x => rfl

/-- If parents come first and values are legal for the parents of the conditions, the loop over the defaults ends. -/
theorem defaultValues_total : ∀ {ns : List Node} {d : Dict},
    (∀ pre x post, ns = pre ++ x :: post → ∀ c, x.cond = some c → ∀ p ∈ c.parents,
      (d.lookup p).isSome = true ∨ p ∈ pre.map Node.name) →
    (∀ x ∈ ns, ∀ c, x.cond = some c → ∀ l ∈ c.dlcs, l.wf = true ∧
      (∀ w, d.lookup l.parent.name = some (some w) → l.parent.kind.legalValue w = true) ∧
      ∀ y ∈ ns, y.name = l.parent.name → l.parent.kind.legalValue y.hp.default = true) →
    ∃ d', defaultValues ns d = .ok d'
  | [], d, _, _ => ⟨d, rfl⟩
  | x :: xs, d, h1, h2 => by
    have next : ∀ o, (∀ w, o = some w → w = x.hp.default) → ∃ d', defaultValues xs (d ++ [(x.name, o)]) = .ok d' := by
      intro o ho
      apply defaultValues_total
      · intro pre y post e c hc p hp
        rcases h1 (x :: pre) y post (by rw [e]; rfl) c hc p hp with h | h
        · exact .inl (lookup_isSome_append (.inl h))
        · simp only [List.map_cons, List.mem_cons] at h
          rcases h with h | h
          · exact .inl (lookup_isSome_append (.inr h))
          · exact .inr h
      · intro y hy c hc l hl
        obtain ⟨g1, g2, g3⟩ := h2 y (by simp [hy]) c hc l hl
        refine ⟨g1, ?_, fun z hz => g3 z (by simp [hz])⟩
        intro w hw
        rw [List.lookup_append] at hw
        cases hd : d.lookup l.parent.name with
        | some o' =>
          rw [hd] at hw
          simp only [Option.some_or, Option.some.injEq] at hw
          subst hw
          exact g2 w hd
        | none =>
          rw [hd] at hw
          simp only [Option.none_or] at hw
          rw [List.lookup_cons] at hw
          split at hw
          · rename_i hn
            have hn' : l.parent.name = x.name := by simpa using hn
            cases hw
            rw [ho w rfl]
            exact g3 x (by simp) hn'.symm
          · cases hw
    unfold defaultValues
    cases hc : x.cond with
    | none => exact next _ (by rintro w e; cases e; rfl)
    | some c =>
      simp only
      have hpar : ∀ p ∈ c.parents, (d.lookup p).isSome = true := by
        intro p hp
        rcases h1 [] x xs rfl c hc p hp with h | h
        · exact h
        · simp at h
      rw [if_neg (by
        rw [List.any_eq_true]
        rintro ⟨p, hp, hno⟩
        have := hpar p hp
        cases hl : d.lookup p with
        | none => rw [hl] at this; cases this
        | some o => rw [hl] at hno; cases hno)]
      obtain ⟨b, hb⟩ := satVal_defined c (d := d) (by
        intro l hl
        obtain ⟨g1, g2, _⟩ := h2 x (by simp) c hc l hl
        have := hpar l.parent.name (by simp only [Cond.parents, List.mem_map]; exact ⟨l, hl, rfl⟩)
        cases hd : d.lookup l.parent.name with
        | none => rw [hd] at this; cases this
        | some o => exact lit_satVal_defined g1 hd (fun w hw => g2 w (by rw [hd, hw])))
      rw [hb]
      cases b
      · exact next none (by simp)
      · exact next _ (by rintro w e; cases e; rfl)

/-- The defaults of a space whose conditions are about its own hyperparameters can be computed. -/
theorem pre_defaultValues {H : List HP} {C : List Cond} {F : List Forb} (p : Pre s H C F)
    (hown : ∀ c ∈ C, ∀ l ∈ c.dlcs, l.parent ∈ H) : ∃ d, defaultValues s.dag.nodes [] = .ok d := by
  have hni := p.hist.ninv
  apply defaultValues_total
  · intro pre x post e c hc q hq
    have hx : x ∈ s.dag.nodes := by rw [e]; simp
    have hcx : condAt s.dag.nodes x.name = some c := by
      simp [condAt, findNode_of_mem hni.nodup hx, hc]
    have he : Edge s.dag.nodes q x.name := by
      rw [edge_iff_childAt]
      rw [(hni.child q x.name c).2 ⟨hcx, hq⟩]
      rfl
    have hlt := hni.good _ _ he
    obtain ⟨y, hy, hyn⟩ := List.mem_map.1 (hni.edges _ _ he).1
    right
    have hys := hy
    rw [e] at hy
    have hdy : depthOf s.dag.nodes q = y.depth := by
      rw [← hyn]; simp [depthOf, findNode_of_mem hni.nodup hys]
    have hdx : depthOf s.dag.nodes x.name = x.depth := by
      simp [depthOf, findNode_of_mem hni.nodup hx]
    rw [List.mem_append, List.mem_cons] at hy
    rcases hy with hy | rfl | hy
    · exact List.mem_map.2 ⟨y, hy, hyn⟩
    · omega
    · exfalso
      have hs := p.sorted
      rw [← p.com, e, List.pairwise_append] at hs
      have := (List.pairwise_cons.1 hs.2.1).1 y hy
      simp only [keyLe, Bool.or_eq_true, Bool.and_eq_true, decide_eq_true_eq] at this
      omega
  · intro x hx c hc l hl
    have hcx : condAt s.dag.nodes x.name = some c := by
      simp [condAt, findNode_of_mem hni.nodup hx, hc]
    have hcC : c ∈ C := by
      have := p.hist.cond x.name
      rw [hcx] at this
      exact (lastCond_some this.symm).1
    obtain ⟨hw, _, _⟩ := hni.cond _ _ hcx
    refine ⟨wf0_lit (by simp only [Cond.wf, Bool.and_eq_true] at hw; exact hw.1) l hl, by simp, ?_⟩
    intro y hy hyn
    have hpH := hown c hcC l hl
    obtain ⟨z, hz, hzp⟩ := List.mem_map.1 (p.hist.hps.mem_iff.2 hpH)
    have e1 := findNode_of_mem hni.nodup hz
    have e2 := findNode_of_mem hni.nodup hy
    have hzn : z.name = y.name := by rw [hyn, ← hzp]; rfl
    rw [hzn, e2] at e1
    cases e1
    rw [← hzp]
    exact HP.wf_legal (hni.hpwf y.name y.hp (by simp [hpAt, e2]))

theorem optInsert_lasts {firsts : List EqPart} {last : EqPart} : ∀ {acc : List ((Name × List (Name × Rat)) × OptGroup)},
    (∀ g ∈ acc, g.2.lasts ≠ []) → ∀ g ∈ optInsert firsts last acc, g.2.lasts ≠ []
  | [], _, g, hg => by
    simp only [optInsert, List.mem_singleton] at hg
    subst hg
    simp
  | (k, g0) :: rest, h, g, hg => by
    simp only [optInsert] at hg
    split at hg
    · rcases List.mem_cons.1 hg with rfl | hg
      · simp
      · exact h g (by simp [hg])
    · rcases List.mem_cons.1 hg with rfl | hg
      · exact h (k, g0) (by simp)
      · exact optInsert_lasts (fun g hg => h g (by simp [hg])) g hg

theorem optGroups_cases : ∀ {ps : List (List EqPart)} {acc : List ((Name × List (Name × Rat)) × OptGroup)},
    (∀ g ∈ acc, g.2.lasts ≠ []) →
    optGroups ps acc = .error .valueError ∨ ∃ gs, optGroups ps acc = .ok gs ∧ ∀ g ∈ gs, g.2.lasts ≠ []
  | [], acc, h => .inr ⟨acc, rfl, h⟩
  | p :: ps, acc, h => by
    unfold optGroups
    cases splitLast p with
    | none => exact .inl rfl
    | some r => exact optGroups_cases (optInsert_lasts h)

/-- Regrouping the clauses raises nothing but a plain `ValueError`. -/
theorem optimizedForbs_raised {idx : Name → Nat} {fs : List Forb} {e : Err} (h : optimizedForbs idx fs = .error e) :
    e = .valueError := by
  unfold optimizedForbs at h
  simp only at h
  rcases optGroups_cases (ps := (fs.filterMap Forb.eqConj?).map (sortBy (fun a b => decide (idx a.hp.name ≤ idx b.hp.name))))
    (acc := []) (by simp) with h1 | ⟨gs, h1, h2⟩
  · rw [h1] at h
    cases h
    rfl
  · rw [h1] at h
    simp only at h
    split at h
    · rename_i e' he
      cases h
      obtain ⟨g, hg, hge⟩ := mapExcept_error he
      unfold optEmit at hge
      simp only at hge
      split at hge
      · cases hge
      · rename_i h0
        exact absurd h0 (h2 g hg)
      · unfold mkForbIn at hge
        split at hge
        · simp [bind, Except.bind] at hge
        · simp [bind, Except.bind] at hge
          exact hge.symm
    · cases h

theorem valueErrorClass_of {e : Err} (h : e.isValueError = true) : ValueErrorClass e := by
  cases e <;> simp [Err.isValueError] at h <;> trivial

/-- **C74** (partial: the conditions are about hyperparameters of the space; see `C74_foreign_parent_type_error`). A call of
`add` raises nothing but `ValueError`s: one of the exceptions about arguments that do not fit, the plain `ValueError` of the
clauses, or the exception of the check of the default configuration.  In particular no `KeyError`, `IndexError` or `TypeError`
escapes from the bookkeeping. -/
theorem C74_add_partial (h : Reach calls s) (hk : k.wf) (hoc : OwnConds (calls ++ [k])) {e : Err}
    (he : (s.add k.hps k.conds k.forbs).2 = some e) : ValueErrorClass e := by
  by_cases hfit : Fits calls k
  · obtain ⟨g, hg, hi⟩ := addAll_ok h hk hfit
    unfold Space.add at he
    rw [hg] at he
    simp only at he
    cases hc : s.commit g with
    | mk s1 e1 =>
      rw [hc] at he
      cases e1 with
      | some e1 =>
        simp only [Option.some.injEq] at he
        subst he
        unfold Space.commit at hc
        simp only at hc
        split at hc
        · rename_i e' ho
          cases hc
          rw [optimizedForbs_raised ho]
          trivial
        · cases hc
      | none =>
        obtain ⟨m1, m2, m3, m4, m5, m6, m7, m8, m9⟩ := commit_ok hi hc
        simp only at he
        have hp : Pre { s1 with len := s1.dag.nodes.length } (allHps (calls ++ [k])) (allConds (calls ++ [k]))
            (allForbs (calls ++ [k])) := by
          refine ⟨m1, m2, ?_, m4, ?_, m7, m8⟩
          · simp only [m3]
            exact sortBy_pairwise (le := fun a b : Node => keyLe (a.depth, a.name) (b.depth, b.name))
              (fun a b => keyLe_total _ _) (fun a b c => keyLe_trans _ _ _) _
          · simp only [m2]
        split at he
        · rename_i e' hd
          simp only [Option.some.injEq] at he
          subst he
          unfold Space.defaultConfig at hd
          obtain ⟨d, hdv⟩ := pre_defaultValues hp (fun c hc l hl => (hoc c hc l hl).1)
          rw [hdv] at hd
          simp only at hd
          unfold Config.ofValues at hd
          split at hd
          · cases hd; trivial
          · split at hd
            · rename_i e'' hf
              cases hd
              refine valueErrorClass_of (fillValues_valueError ?_ hf)
              intro x hx
              exact m1.ninv.hpwf x.name x.hp (by simp [hpAt, findNode_of_mem m1.ninv.nodup hx])
            · split at hd
              · rename_i e'' hch
                cases hd
                exact valueErrorClass_of (check_valueError hch)
              · cases hd
        · cases he
  · obtain ⟨e', he', hm⟩ := (C58_misfit_error_iff h hk).2 hfit
    rw [he] at he'
    cases he'
    cases e <;> simp [MisfitError] at hm <;> trivial

/-! ## Assigning one value -/

/-- **C74** (partial as above). The exception of `config[name] = value` says what is wrong: there is no such name (`KeyError`),
the value is illegal, or what the validation says about the changed configuration, which has the new value and the old values
of everything that does not depend on it. -/
theorem C74_set_partial (h : Reach calls s) (hsep : Separable calls) (hown : OwnClauses calls) {c : Config} {a : Assign}
    (hv : Represents s c.vec a) {n : Name} {w : Val} {e : Err} (he : (c.setItem s n w).2 = some e) :
    (e = .keyError ∧ ¬ Known calls n) ∨
    (∃ x ∈ allHps calls, x.name = n ∧ x.kind.legalValue w = false ∧ e = .illegalValue n) ∨
    (∃ x ∈ allHps calls, x.name = n ∧ ∃ b, b n = x.kind.toVec w ∧
      (∀ m, Known calls m → m ≠ n → ¬ Path (ParentOf calls) n m → b m = a m) ∧ TellsTruth calls b false e) := by
  have hi := sinv_of_reach h
  unfold Config.setItem at he
  split at he
  · rename_i hf
    simp only [Option.some.injEq] at he
    refine .inl ⟨he.symm, fun hk => ?_⟩
    rw [hi.com] at hf
    exact findNode_none.1 hf ((reach_isNode h n).2 hk)
  · rename_i x hf
    rw [hi.com] at hf
    have hx : x ∈ s.com := (findNode_name hf).1
    have hxn : x.name = n := (findNode_name hf).2
    have hxh : x.hp ∈ allHps calls := by
      rw [← hi.com] at hx
      exact hi.hist.hps.mem_iff.1 (List.mem_map.2 ⟨x, hx, rfl⟩)
    have hnn : n ∈ s.names := hxn ▸ mem_names hx
    split at he
    · rename_i hl
      simp only [Option.some.injEq] at he
      exact .inr (.inl ⟨x.hp, hxh, hxn, by simpa using hl, he.symm⟩)
    · rename_i hl
      simp only [Bool.not_eq_true', Bool.not_eq_false] at hl
      obtain ⟨q, hq⟩ := legal_toVec hl
      rw [hq] at he
      simp only at he
      split at he
      · rename_i e' hc
        simp only [Option.some.injEq] at he
        subst he
        have hlen : (s.changeHp c.vec n q (s.idx n)).length = s.len := by rw [changeHp_length]; exact hv.1
        have hb := represents_asg h hlen
        refine .inr (.inr ⟨x.hp, hxh, hxn, asg s.idx (s.changeHp c.vec n q (s.idx n)), ?_, ?_, C74_check_partial h hsep hown hb hc⟩)
        · rw [hq, ← at_idx hb hnn]
          exact changeHp_at h hv.1 hnn
        · intro m hm hne hp
          have hmn := (reach_isNode h m).2 hm
          rw [← at_idx hb hmn, ← at_idx hv hmn]
          exact changeHp_other h hv.1 hnn hmn hne hp
      · cases he

/-! ## Non-vacuity and counterexamples -/

namespace ExX
open Ex

/-- Each kind of message of the validation, on the space of the examples. -/
theorem messages : sp2.check [some 0, none, some 0, some 1, none] = some (.activeNotSet "c") ∧
    sp2.check [some 0, some 1, some 5, some 1, none] = some (.illegalVector "k") ∧
    sp2.check [some 0, some 1, some 0, some 1, some 0] = some (.inactiveSet "x") ∧
    sp2.check [some 1, some 1, none, some 1, none] = some .forbidden := by decide +kernel

example : ∃ h ∈ allHps [call1, call2], h.name = "k" ∧ ActiveIn [call1, call2] (asg sp2.idx [some 0, some 1, some 5, some 1, none]) "k" ∧
    ∃ q, asg sp2.idx [some 0, some 1, some 5, some 1, none] "k" = some q ∧ h.kind.legalVec q = false :=
  C74_check_partial reach2 sep2 own2 (represents_asg reach2 (by decide +kernel)) messages.2.1

/-- The three kinds of exceptions for a dictionary. -/
theorem dicts : (match Config.ofValues sp2 [("zz", some (.int 1))] with | .error e => decide (e = .valueError) | .ok _ => false) = true ∧
    (match Config.ofValues sp2 [("k", some (.int 99))] with | .error e => decide (e = .illegalValue "k") | .ok _ => false) = true ∧
    (match Config.ofValues sp2 [("alg", some (.str "a"))] with | .error e => decide (e = .activeNotSet "c") | .ok _ => false) = true := by
  decide +kernel

example {e : Err} (he : Config.ofValues sp2 [("alg", some (.str "a"))] = .error e) :=
  C74_values_partial reach2 sep2 own2 he

/-- A parameter `p` with choices, and another object with the same name that is an integer or an ordered list. -/
def p : HP := ⟨"p", .cat [.str "a", .str "b"], .str "a"⟩
def pInt : HP := ⟨"p", .int 1 10, .int 1⟩
def pOrd : HP := ⟨"p", .ord [.str "lo", .str "hi"], .str "lo"⟩
def q : HP := ⟨"q", .cat [.str "a", .str "b"], .str "a"⟩
def kInt : Call := ⟨[p, q], [.lit ⟨q, pInt, .bin .gt (.int 4) (1/3)⟩], []⟩
def kOrd : Call := ⟨[p, q], [.lit ⟨q, pOrd, .bin .gt (.str "lo") 0⟩], []⟩
/-- With the own hyperparameter, but a default that is forbidden. -/
def kForb : Call := ⟨[p, q], [.lit ⟨q, p, .bin .eq (.str "a") 0⟩], [.eq q (.str "a") 0]⟩

example : ValueErrorClass .forbidden :=
  C74_add_partial (s := {}) (k := kForb) .nil (by decide +kernel) (by
    intro c hc l hl
    simp only [allConds, kForb, List.nil_append, List.flatMap_cons, List.flatMap_nil, List.append_nil, List.mem_singleton] at hc
    subst hc
    simp only [Cond.dlcs, List.mem_singleton] at hl
    subst hl
    simp [allHps, kForb]) (e := .forbidden) (by decide +kernel)

example {c : Config} (hv : Represents sp2 c.vec (asg sp2.idx c.vec)) {e : Err} (he : (c.setItem sp2 "alg" (.str "b")).2 = some e) :=
  C74_set_partial reach2 sep2 own2 hv he

theorem set_forbidden : ((⟨vv1, none, false⟩ : Config).setItem sp2 "alg" (.str "b")).2 = some .forbidden := by decide +kernel

end ExX

/-- **C74 fails for conditions about other objects:** a condition may be built with a parent that only has the name of a
hyperparameter of the space.  `add` does not notice, compares the default of the space's own hyperparameter (a string) with the
number in the condition, and a `TypeError` escapes. -/
theorem C74_foreign_parent_type_error : ∃ k : Call, k.wf ∧ (({} : Space).add k.hps k.conds k.forbs).2 = some .typeError ∧
    (({} : Space).add k.hps k.conds k.forbs).1.names = ["p", "q"] :=
  ⟨ExX.kInt, by decide +kernel, by decide +kernel, by decide +kernel⟩

/-- **C74 fails for conditions about other objects:** with an ordinal parent that does not know the value, a `KeyError` escapes. -/
theorem C74_foreign_parent_key_error : ∃ k : Call, k.wf ∧ (({} : Space).add k.hps k.conds k.forbs).2 = some .keyError :=
  ⟨ExX.kOrd, by decide +kernel, by decide +kernel⟩

end Verif
