import Verif.Props.Union
import Verif.Props.Accept
import Verif.Lemmas.Value

/-!
# C136: `add_configuration_space` with a parent hyperparameter, when it raises or is interrupted
-/

set_option autoImplicit false

namespace Verif.UnionCut
open Verif.Spec

variable {calls subs : List Call} {s s1 s' sub : Space} {pfx delim : String}

theorem mapExcept_error {α β : Type} {f : α → Except Err β} {e : Err} {l : List α} (hl : l ≠ []) (h : ∀ x ∈ l, f x = .error e) :
    mapExcept f l = .error e := by
  cases l with
  | nil => exact absurd rfl hl
  | cons x l =>
    unfold mapExcept
    rw [h x List.mem_cons_self]

/-- Some added hyperparameter is a root of the result. -/
theorem root_there (h : Reach calls s) (hs : Reach subs sub) (hp : PrintApart subs) (hone : OneMeaning subs)
    (hc : ∀ x y, Known subs x → Known subs y → ¬ Clash pfx delim x y) (ha : s.addSpace pfx sub delim none = (s1, none))
    {m : Name} (hm : Known subs m) (hroot : ¬ Conditional subs m) :
    ∃ x ∈ (sub.renamedCall (newName pfx delim)).hps, x.name = newName pfx delim m ∧ s1.isRoot x.name = true := by
  have hr := apart_of_no_clash hc
  have h' := Reach.snoc h (renamedCall_wf hs hp hr) (addSpace_none ha)
  have j := joined_of_add hs hp hone hr h'
  have hk := (j.known (newName pfx delim m)).2 (.inr ⟨m, hm, rfl⟩)
  have hi := (isRoot_iff h' hk).2 (fun hcond => hroot ((j.conditional_new h hs hm).1 hcond))
  obtain ⟨y, hy, rfl⟩ := hm
  exact ⟨y.rename (newName pfx delim), List.mem_map.2 ⟨y, (hps_perm hs).mem_iff.2 hy, rfl⟩, rfl, hi⟩

/-- What `add_configuration_space` leaves when it ends after the first of its two calls of `add` (configuration_space.py:430): the added space is there
and nothing guards it, and it cannot be added again. -/
theorem C136_after_first_call (h : Reach calls s) (hs : Reach subs sub) (hp : PrintApart subs) (hone : OneMeaning subs)
    (hc : ∀ x y, Known subs x → Known subs y → ¬ Clash pfx delim x y) (ha : s.addSpace pfx sub delim none = (s1, none))
    {m : Name} (hm : Known subs m) :
    ∃ all, Reach all s1 ∧ (∀ a, Valid all a ↔ Valid calls a ∧ Valid subs (a.part (newName pfx delim))) ∧
      ∀ parent, ∃ n, (s1.addSpace pfx sub delim parent).2 = some (.alreadyExists n) := by
  obtain ⟨all, h1, h2, _, h4⟩ := C62_disjoint_union h hs hp hone hc ha
  exact ⟨all, h1, h4, fun parent => C44_name_taken h1 hs (.inl ⟨m, hm, (h2 _).2 (.inr ⟨m, hm, rfl⟩)⟩)⟩

/-- **C136**, false of the code: if the value is not legal for the parent hyperparameter, `add_configuration_space` raises ValueError and leaves the
added space in the space without its guard: exactly the space that the call without a parent gives.  There every valid configuration has a valid
configuration of the added space in it, whatever the value of the parent is, and the call cannot be repeated with a legal value. -/
theorem C136_illegal_value (h : Reach calls s) (hs : Reach subs sub) (hp : PrintApart subs) (hone : OneMeaning subs)
    (hc : ∀ x y, Known subs x → Known subs y → ¬ Clash pfx delim x y) (ha : s.addSpace pfx sub delim none = (s1, none))
    {m : Name} (hm : Known subs m) (hroot : ¬ Conditional subs m) {p : HP} {v : Val} (hv : p.kind.legalValue v = false) :
    s.addSpace pfx sub delim (some (p, v)) = (s1, some .valueError) ∧
      ∃ all, Reach all s1 ∧ (∀ a, Valid all a ↔ Valid calls a ∧ Valid subs (a.part (newName pfx delim))) ∧
        ∀ w, ∃ n, (s1.addSpace pfx sub delim (some (p, w))).2 = some (.alreadyExists n) := by
  obtain ⟨all, h1, h2, h3⟩ := C136_after_first_call h hs hp hone hc ha hm
  refine ⟨?_, all, h1, h2, fun w => h3 _⟩
  obtain ⟨x, hx, _, hxr⟩ := root_there h hs hp hone hc ha hm hroot
  have hg : guards s1 (sub.renamedCall (newName pfx delim)).hps p v = .error .valueError := by
    unfold guards
    apply mapExcept_error
    · exact List.ne_nil_of_mem (List.mem_filter.2 ⟨hx, hxr⟩)
    · intro y _
      have : mkBin .eq y p v = .error .valueError := by
        unfold mkBin
        split
        · rfl
        · simp [hv]
      rw [this]
  unfold Space.addSpace
  simp only
  rw [addSpace_none ha]
  simp only
  rw [hg]

/-- **C136**, false of the code: the same if the parent hyperparameter is not in the space.  The call raises ParentNotFoundError, and what it leaves
is the space that the call without a parent gives. -/
theorem C136_unknown_parent (h : Reach calls s) (hs : Reach subs sub) (hp : PrintApart subs) (hone : OneMeaning subs)
    (hc : ∀ x y, Known subs x → Known subs y → ¬ Clash pfx delim x y) (ha : s.addSpace pfx sub delim none = (s1, none))
    {m : Name} (hm : Known subs m) (hroot : ¬ Conditional subs m) {p : HP} {v : Val} {cs : List Cond}
    (hpar : findNode s1.dag.nodes p.name = none) (hpw : p.wf = true)
    (hg : guards s1 (sub.renamedCall (newName pfx delim)).hps p v = .ok cs) :
    s.addSpace pfx sub delim (some (p, v)) = (s1, some (.parentNotFound p.name)) ∧
      ∃ all, Reach all s1 ∧ (∀ a, Valid all a ↔ Valid calls a ∧ Valid subs (a.part (newName pfx delim))) ∧
        ∀ q w, ∃ n, (s1.addSpace pfx sub delim (some (q, w))).2 = some (.alreadyExists n) := by
  obtain ⟨all, h1, h2, h3⟩ := C136_after_first_call h hs hp hone hc ha hm
  refine ⟨?_, all, h1, h2, fun q w => h3 _⟩
  have hr := apart_of_no_clash hc
  have hk := renamedCall_wf hs hp hr
  obtain ⟨x, hx, _, hxr⟩ := root_there h hs hp hone hc ha hm hroot
  obtain ⟨k1, k2⟩ := guards_ok hpw hk.1 hg
  obtain ⟨z, _, hz⟩ := k2 x hx hxr
  cases cs with
  | nil => cases hz
  | cons c cs =>
    obtain ⟨_, y, hy, hyr, q, _, rfl⟩ := k1 c List.mem_cons_self
    have hi := reach_ninv h1
    have hcom : s1.dag.nodes = s1.com := (sinv_of_reach h1).com
    have hfind : ∃ n, findNode s1.com y.name = some n ∧ n.cond = none := by
      unfold Space.isRoot at hyr
      cases hf : findNode s1.com y.name with
      | none => rw [hf] at hyr; cases hyr
      | some n =>
        refine ⟨n, rfl, ?_⟩
        rw [hf] at hyr
        cases hcn : n.cond with
        | none => rfl
        | some d =>
          obtain ⟨hd1, _, _⟩ := node_cond h1 (List.mem_of_find?_eq_some hf) hcn
          obtain ⟨p', hp'⟩ := exists_parent ((reach_wf h1).2.1 d hd1)
          have := (hi.parent y.name p' d).2 ⟨by simp [condAt, hf, hcn], hp'⟩
          have he : n.parents = [] := List.isEmpty_iff.1 hyr
          simp [parentAt, hf, he] at this
    obtain ⟨n, hn, hnc⟩ := hfind
    have hadd : s1.dag.addCondition (.lit ⟨y, p, .bin .eq v q⟩) = (s1.dag, some (.parentNotFound p.name)) := by
      rw [← hcom] at hn
      have e1 : (Cond.lit ⟨y, p, .bin .eq v q⟩).child? = some y := rfl
      have e2 : (Cond.lit ⟨y, p, .bin .eq v q⟩).parents = [p.name] := rfl
      unfold Dag.addCondition addCondNodes
      simp only [e1, e2, hn, hnc, Option.any_none, Bool.false_eq_true, if_false, addCondLoop, addCondParent, hpar]
    have hadd' : s1.add [] (.lit ⟨y, p, .bin .eq v q⟩ :: cs) [] = (s1, some (.parentNotFound p.name)) := by
      unfold Space.add Dag.addAll
      simp only [runAll, hadd]
    unfold Space.addSpace
    simp only
    rw [addSpace_none ha]
    simp only
    rw [hg]
    simp only [List.isEmpty_cons, Bool.false_eq_true, if_false]
    exact hadd'

theorem mapExcept_all {α β : Type} {f : α → Except Err β} : ∀ {l : List α}, (∀ x ∈ l, ∃ y, f x = .ok y) → ∃ r, mapExcept f l = .ok r
  | [], _ => ⟨[], rfl⟩
  | x :: xs, h => by
    obtain ⟨y, hy⟩ := h x (by simp)
    obtain ⟨r, hr⟩ := mapExcept_all (fun z hz => h z (List.mem_cons_of_mem _ hz))
    exact ⟨y :: r, by simp [mapExcept, hy, hr]⟩

/-- Edges from one vertex into a part that no edge leaves make no cycle, if the vertex is outside. -/
theorem acyclic_into {E G : Name → Name → Prop} {M : Name → Prop} {p : Name} (hp : ¬ M p) (hE : ∀ a b, E a b → M a → M b)
    (hG : ∀ a b, G a b → E a b ∨ (a = p ∧ M b)) (ac : Acyclic E) : Acyclic G := by
  have inside : ∀ {a b : Name}, Path G a b → M a → Path E a b ∧ M b := by
    intro a b h
    induction h with
    | edge e =>
      intro ha
      rcases hG _ _ e with e | ⟨rfl, _⟩
      · exact ⟨.edge e, hE _ _ e ha⟩
      · exact absurd ha hp
    | cons e _ ih =>
      intro ha
      rcases hG _ _ e with e | ⟨rfl, _⟩
      · obtain ⟨h1, h2⟩ := ih (hE _ _ e ha)
        exact ⟨.cons e h1, h2⟩
      · exact absurd ha hp
  have outside : ∀ {a b : Name}, Path G a b → Path E a b ∨ M b := by
    intro a b h
    induction h with
    | edge e =>
      rcases hG _ _ e with e | ⟨_, h⟩
      · exact .inl (.edge e)
      · exact .inr h
    | cons e hp' ih =>
      rcases hG _ _ e with e | ⟨_, h⟩
      · exact ih.imp_left (.cons e)
      · exact .inr (inside hp' h).2
  intro a h
  rcases outside h with h' | h'
  · exact ac a h'
  · exact ac a (inside h h').1

/-- **C136 (partial).**  If the parent hyperparameter is one of the space and the value is legal for it, and the added space can be added without a
guard, then the call does not raise any of the errors by which `add` says that its arguments do not fit: all guards are made and accepted, and only the
check of the default configuration is left.

What is missing: that nothing stays if the call raises, which is false of the code (`C136_illegal_value`, `C136_unknown_parent`). -/
theorem C136_guards_fit_partial (h : Reach calls s) (hs : Reach subs sub) (hp : PrintApart subs) (hone : OneMeaning subs)
    (hc : ∀ x y, Known subs x → Known subs y → ¬ Clash pfx delim x y) (ha : s.addSpace pfx sub delim none = (s1, none))
    {p : HP} {v : Val} (hpm : p ∈ allHps calls) (hv : p.kind.legalValue v = true) {e : Err}
    (he : (s.addSpace pfx sub delim (some (p, v))).2 = some e) : ¬ MisfitError e := by
  have hr := apart_of_no_clash hc
  have hk := renamedCall_wf hs hp hr
  have h' := Reach.snoc h hk (addSpace_none ha)
  have j := joined_of_add hs hp hone hr h'
  have hpw := (reach_wf h).1 p hpm
  have hpk : Known calls p.name := ⟨p, hpm, rfl⟩
  have hnew : ∀ x ∈ (sub.renamedCall (newName pfx delim)).hps, ∃ m, Known subs m ∧ newName pfx delim m = x.name := by
    intro x hx
    obtain ⟨y, hy, rfl⟩ := List.mem_map.1 hx
    exact ⟨y.name, ⟨y, (hps_perm hs).mem_iff.1 hy, rfl⟩, rfl⟩
  obtain ⟨q, hq⟩ := legal_toVec hv
  obtain ⟨cs, hg⟩ : ∃ cs, guards s1 (sub.renamedCall (newName pfx delim)).hps p v = .ok cs := by
    unfold guards
    apply mapExcept_all
    intro x hx
    obtain ⟨m, hm, hmx⟩ := hnew x (List.mem_filter.1 hx).1
    have hne : x.pyEq p = false := by
      cases hpe : x.pyEq p with
      | false => rfl
      | true =>
        have := HP.pyEq_name hpe
        exact absurd (this.symm.trans hmx.symm) (j.disj _ m hpk hm)
    refine ⟨.lit ⟨x, p, .bin .eq v q⟩, ?_⟩
    have : mkBin .eq x p v = .ok ⟨x, p, .bin .eq v q⟩ := by
      simp [mkBin, hne, hv, hq]
    rw [this]
  obtain ⟨k1, _⟩ := guards_ok hpw hk.1 hg
  have hkc : Call.wf ⟨[], cs, []⟩ := ⟨by simp, fun c hc => (k1 c hc).1, by simp⟩
  have hkn : ∀ n, Known ((calls ++ [sub.renamedCall (newName pfx delim)]) ++ [⟨[], cs, []⟩]) n ↔
      Known (calls ++ [sub.renamedCall (newName pfx delim)]) n := by
    intro n
    unfold Known
    rw [allHps_snoc (calls ++ _)]
    simp
  have hfit : Fits (calls ++ [sub.renamedCall (newName pfx delim)]) ⟨[], cs, []⟩ := by
    refine ⟨?_, ?_, ?_, ?_, ?_, by simp⟩
    · rw [allHps_snoc (calls ++ _)]
      simp only [List.append_nil]
      exact ((hps_perm h').map HP.name).nodup_iff.1 (hps_nodup h')
    · intro c hc' n hn
      obtain ⟨_, x, hx, _, _, _, rfl⟩ := k1 c hc'
      have : x.name = n := by simpa [childName, Cond.child?, Cond.dlcs] using hn
      subst this
      rw [hkn, j.known]
      obtain ⟨m, hm, e⟩ := hnew x hx
      exact .inr ⟨m, hm, e⟩
    · intro c hc' l hl
      obtain ⟨_, x, hx, _, _, _, rfl⟩ := k1 c hc'
      simp only [Cond.dlcs, List.mem_singleton] at hl
      subst hl
      rw [hkn, j.known]
      exact .inl hpk
    · intro c hc' y hy e'
      obtain ⟨_, x, hx, hxr, q1, hq1, rfl⟩ := k1 c hc'
      have hcn : childName (Cond.lit ⟨x, p, .bin .eq v q1⟩) = some x.name := rfl
      rw [hcn] at e'
      rw [allConds_snoc (calls ++ _), List.mem_append] at hy
      obtain ⟨m, hm, hmx⟩ := hnew x hx
      rcases hy with hy | hy
      · exact absurd ⟨y, hy, e'⟩ ((isRoot_iff h' ((j.known _).2 (.inr ⟨m, hm, hmx⟩))).1 hxr)
      · obtain ⟨_, x', hx', _, q2, hq2, rfl⟩ := k1 y hy
        have hn : x'.name = x.name := by simpa [childName, Cond.child?, Cond.dlcs] using e'
        have hin : ∀ z ∈ (sub.renamedCall (newName pfx delim)).hps, z ∈ s1.com.map Node.hp := by
          intro z hz
          refine (hps_perm h').mem_iff.2 ?_
          rw [allHps_snoc]
          exact List.mem_append_right _ hz
        have : x' = x := List.inj_on_of_nodup_map (hps_nodup h') (hin _ hx') (hin _ hx) hn
        subst this
        rw [hq1] at hq2
        cases hq2
        exact Cond.pyEq_refl _
    · have hdisj : ¬ ∃ m, Known subs m ∧ newName pfx delim m = p.name := by
        rintro ⟨m, hm, e⟩
        exact j.disj _ m hpk hm e.symm
      refine acyclic_into (E := ParentOf (calls ++ [sub.renamedCall (newName pfx delim)])) (M := fun n => ∃ m, Known subs m ∧ newName pfx delim m = n)
        (p := p.name) hdisj ?_ ?_ ?_
      · rintro a b ⟨c, hc', e', l, hl, rfl⟩ ⟨m, hm, e''⟩
        rcases j.conds c hc' with hc' | ⟨d, hd, rfl⟩
        · exact absurd e''.symm (j.disj _ m (lit_names_known h hc' hl).2 hm)
        · rw [rename_childName] at e'
          cases hd' : childName d with
          | none => rw [hd'] at e'; cases e'
          | some n =>
            rw [hd'] at e'
            exact ⟨n, known_of_child hs hd hd', by simpa using e'⟩
      · rintro a b ⟨c, hc', e', l, hl, rfl⟩
        rw [allConds_snoc (calls ++ _), List.mem_append] at hc'
        rcases hc' with hc' | hc'
        · exact .inl ⟨c, hc', e', l, hl, rfl⟩
        · obtain ⟨_, x, hx, _, _, _, rfl⟩ := k1 c hc'
          simp only [Cond.dlcs, List.mem_singleton] at hl
          subst hl
          have : x.name = b := by simpa [childName, Cond.child?, Cond.dlcs] using e'
          subst this
          exact .inr ⟨rfl, hnew x hx⟩
      · rw [← parentRel_iff]
        exact (sinv_of_reach h').hist.acyclic
  intro hm
  unfold Space.addSpace at he
  simp only at he
  rw [addSpace_none ha] at he
  simp only at he
  rw [hg] at he
  simp only at he
  split at he
  · cases he
  · exact (C58_misfit_error_iff h' hkc).1 ⟨e, he, hm⟩ hfit

/-! ## A concrete case -/

section
open Ex ExU

theorem knownK : Known [ExU.callS] "k" := ⟨hpK, by decide +kernel, rfl⟩
theorem rootK : ¬ Conditional [ExU.callS] "k" := by
  rintro ⟨c, hc, e⟩
  have : c = .lit litX := by simpa [allConds, ExU.callS] using hc
  subst this
  revert e
  decide +kernel

/-- The space with `alg` and the space with `k` and `x`: the value `"zzz"` is no choice of `alg`. -/
example : spM.addSpace "p" ExU.spS ":" (some (hpAlg, .str "zzz")) = (spU, some .valueError) :=
  (C136_illegal_value reachM ExU.reachS apartS sepS.oneMeaning clashS addU knownK rootK (by decide +kernel)).1

/-- Then `k` is there although `alg` does not have the value that was meant, and a configuration without it is refused. -/
example : spU.check [some 1, some (3/9), some 0] = none ∧ spU.check [some 1, none, none] ≠ none := by decide +kernel

/-- With a legal value of a hyperparameter of the space nothing is said to be unfit; here the call returns. -/
example : spM.addSpace "p" ExU.spS ":" (some (hpAlg, .str "a")) = (spUG, none) := addUG
example : ∀ e, (spM.addSpace "p" ExU.spS ":" (some (hpAlg, .str "b"))).2 = some e → ¬ MisfitError e := fun _ he =>
  C136_guards_fit_partial reachM ExU.reachS apartS sepS.oneMeaning clashS addU (by decide +kernel) (by decide +kernel) he

def other : HP := ⟨"other", .cat [.str "a", .str "b"], .str "a"⟩

/-- A parent that is not in the space. -/
example : spM.addSpace "p" ExU.spS ":" (some (other, .str "a")) = (spU, some (.parentNotFound "other")) :=
  (C136_unknown_parent reachM ExU.reachS apartS sepS.oneMeaning clashS addU knownK rootK (by decide +kernel) (by decide +kernel)
    (cs := [.lit ⟨hpK.rename (newName "p" ":"), other, .bin .eq (.str "a") 0⟩]) (by rfl)).1

/-- **C136**, false of the code: also with a legal value of a hyperparameter of the space the call may raise, although the added space can be added
without a guard.  Here the added space has `x | k != 5`, and by default `alg` does not have the value: in the default configuration `k` is unset, the
values say that `x` is inactive and the vector says that it is active.  Everything that was added stays. -/
theorem C136_legal_value_raises : ∃ (calls subs : List Call) (s sub : Space), Reach calls s ∧ Reach subs sub ∧ hpAlg ∈ allHps calls ∧
    hpAlg.kind.legalValue (.str "b") = true ∧ (s.addSpace "p" sub ":" none).2 = none ∧
    (s.addSpace "p" sub ":" (some (hpAlg, .str "b"))).2 = some (.activeNotSet "p:x") ∧
    (s.addSpace "p" sub ":" (some (hpAlg, .str "b"))).1.names = ["alg", "p:k", "p:x"] :=
  ⟨[callM], [callD], spM, spD, reachM, reachD, by decide +kernel, by decide +kernel, by decide +kernel, by decide +kernel, by decide +kernel⟩

end

end Verif.UnionCut
