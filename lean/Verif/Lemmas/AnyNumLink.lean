import Verif.Lemmas.AnyNumSample
import Verif.Lemmas.F64Check
import Verif.Model.AnyNumInst

/-!
# The functions over any arithmetic are those of the other models
-/

set_option autoImplicit false
set_option linter.unusedSectionVars false

namespace Verif.AnyNum
open Verif Verif.F64

variable {calls : List Call} {s : Space}

theorem filterMap_getD {k : Val → Option Rat} {vs : List Val} (h : ∀ v ∈ vs, ∃ x, k v = some x) :
    vs.filterMap k = vs.map (fun v => (k v).getD 0) := by
  induction vs with
  | nil => rfl
  | cons v vs ih =>
    obtain ⟨x, e⟩ := h v (by simp)
    rw [List.filterMap_cons, List.map_cons, e, ih (fun w hw => h w (by simp [hw]))]
    rfl

/-- The values of the literals are legal. -/
theorem lit_values {l : Lit} (hw : l.wf = true) :
    (∀ op v x, l.test = .bin op v x → l.parent.kind.legalValue v = true ∧ l.parent.kind.toVec v = some x) ∧
    (∀ vs xs, l.test = .isIn vs xs → (∀ v ∈ vs, l.parent.kind.legalValue v = true) ∧ xs = vs.filterMap l.parent.kind.toVec) := by
  unfold Lit.wf at hw
  rw [Bool.and_eq_true, Bool.and_eq_true, Bool.and_eq_true] at hw
  obtain ⟨-, ht⟩ := hw
  constructor
  · intro op v x e
    rw [e] at ht
    simp only [Bool.and_eq_true, decide_eq_true_eq] at ht
    exact ht.1
  · intro vs xs e
    rw [e] at ht
    simp only [Bool.and_eq_true, List.all_eq_true, decide_eq_true_eq] at ht
    exact ht

theorem wf0L_iff {cs : List Cond} : Cond.wf0L cs = true ↔ ∀ c ∈ cs, c.wf0 = true := by
  induction cs with
  | nil => simp [Cond.wf0L]
  | cons c cs ih => simp [Cond.wf0L, ih]

/-! ## Conditions -/

theorem exact_entry {l : Lit} (hw : l.wf = true) (e : NV) : onEntry exact l.parent l.test e = l.test.onEntry e := by
  obtain ⟨h1, h2⟩ := lit_values hw
  cases ht : l.test with
  | bin op v x =>
    have := (h1 op v x ht).2
    cases op <;> cases e <;> simp [onEntry, Test.onEntry, exact, this]
  | isIn vs xs =>
    obtain ⟨h3, h4⟩ := h2 vs xs ht
    rw [filterMap_getD (fun v hv => legal_toVec (h3 v hv))] at h4
    simp only [onEntry, Test.onEntry, h4]
    cases e <;> rfl

theorem linear64_entry {l : Lit} (hw : l.wf = true) (e : NV) :
    onEntry linear64 l.parent l.test e = (test64 l.parent.kind l.test).onEntry e := by
  obtain ⟨h1, h2⟩ := lit_values hw
  cases ht : l.test with
  | bin op v x => cases op <;> cases e <;> rfl
  | isIn vs xs =>
    obtain ⟨h3, -⟩ := h2 vs xs ht
    simp only [test64, onEntry, Test.onEntry, filterMap_getD (fun v hv => legal_toVec64 (h3 v hv))]
    cases e <;> rfl

theorem exact_satVec {idx : Name → Nat} {v : Vec} (c : Cond) (hw : c.wf0 = true) : satVec exact idx v c = c.satVec idx v := by
  induction c using Cond.induct with
  | hl l => exact exact_entry hw _
  | ha cs ih =>
    have h : ∀ c ∈ cs, satVec exact idx v c = c.satVec idx v := fun c hc => by
      simp only [Cond.wf0, Bool.and_eq_true] at hw
      exact ih c hc (wf0L_iff.1 hw.2 c hc)
    clear ih hw
    simp only [satVec, Cond.satVec]
    induction cs with
    | nil => rfl
    | cons c cs ih =>
      simp only [satVecAll, Cond.satVecAll]
      rw [h c (by simp), ih (fun d hd => h d (by simp [hd]))]
  | ho cs ih =>
    have h : ∀ c ∈ cs, satVec exact idx v c = c.satVec idx v := fun c hc => by
      simp only [Cond.wf0, Bool.and_eq_true] at hw
      exact ih c hc (wf0L_iff.1 hw.2 c hc)
    clear ih hw
    simp only [satVec, Cond.satVec]
    induction cs with
    | nil => rfl
    | cons c cs ih =>
      simp only [satVecAny, Cond.satVecAny]
      rw [h c (by simp), ih (fun d hd => h d (by simp [hd]))]

theorem linear64_satVec {idx : Name → Nat} {v : Vec} (c : Cond) (hw : c.wf0 = true) :
    satVec linear64 idx v c = (cond64 c).satVec idx v := by
  induction c using Cond.induct with
  | hl l => exact linear64_entry hw _
  | ha cs ih =>
    have h : ∀ c ∈ cs, satVec linear64 idx v c = (cond64 c).satVec idx v := fun c hc => by
      simp only [Cond.wf0, Bool.and_eq_true] at hw
      exact ih c hc (wf0L_iff.1 hw.2 c hc)
    clear ih hw
    simp only [satVec, Cond.satVec, cond64]
    induction cs with
    | nil => rfl
    | cons c cs ih =>
      simp only [satVecAll, Cond.satVecAll, cond64L]
      rw [h c (by simp), ih (fun d hd => h d (by simp [hd]))]
  | ho cs ih =>
    have h : ∀ c ∈ cs, satVec linear64 idx v c = (cond64 c).satVec idx v := fun c hc => by
      simp only [Cond.wf0, Bool.and_eq_true] at hw
      exact ih c hc (wf0L_iff.1 hw.2 c hc)
    clear ih hw
    simp only [satVec, Cond.satVec, cond64]
    induction cs with
    | nil => rfl
    | cons c cs ih =>
      simp only [satVecAny, Cond.satVecAny, cond64L]
      rw [h c (by simp), ih (fun d hd => h d (by simp [hd]))]

theorem group_wf (h : Reach calls s) {g : CNode} (hg : g ∈ s.minConds) : g.cond.wf0 = true := by
  have := (reach_wf h).2.1 _ (cond_known h hg)
  unfold Cond.wf at this
  rw [Bool.and_eq_true] at this
  exact this.1

/-! ## Clauses -/

theorem exact_rel (op : RelOp) (l r : HP) (a b : NV) : relEntries exact op l r a b = relOnEntries op l r a b := by
  cases a with
  | none => rfl
  | some x => cases b with
    | none => rfl
    | some y =>
      simp only [relEntries, relOnEntries]
      rw [show exact.toVal l x = l.kind.toVal x from rfl, show exact.toVal r y = r.kind.toVal y from rfl]
      cases l.kind.toVal x <;> cases r.kind.toVal y <;> rfl

theorem exact_onVec {idx : Name → Nat} {v : Vec} (f : Forb) (hw : f.wf = true) : onVec exact idx v f = f.onVec idx v := by
  induction f using Forb.induct with
  | he h w x =>
    simp only [Forb.wf, Bool.and_eq_true, decide_eq_true_eq] at hw
    simp only [onVec, eqEntry, Forb.onVec, exact, hw.2, AVec.at, Vec.at]
    cases v.getD (idx h.name) none <;> rfl
  | hi h ws xs =>
    simp only [Forb.wf, Bool.and_eq_true, List.all_eq_true, decide_eq_true_eq] at hw
    have h4 := hw.2
    rw [filterMap_getD (fun v hv => legal_toVec (hw.1.2 v hv))] at h4
    simp only [onVec, inEntry, Forb.onVec, h4, AVec.at, Vec.at]
    cases v.getD (idx h.name) none <;> rfl
  | hr op l r => exact exact_rel op l r _ _
  | ha cs ih =>
    have h : ∀ c ∈ cs, onVec exact idx v c = c.onVec idx v := fun c hc => ih c hc (by
      simp only [Forb.wf] at hw
      clear ih
      induction cs with
      | nil => cases hc
      | cons d ds ihd =>
        simp only [Forb.wfL, Bool.and_eq_true] at hw
        rcases List.mem_cons.1 hc with rfl | hc
        · exact hw.1
        · exact ihd hw.2 hc)
    clear ih hw
    simp only [onVec, Forb.onVec]
    induction cs with
    | nil => rfl
    | cons c cs ih =>
      simp only [onVecAll, Forb.onVecAll]
      rw [h c (by simp), ih (fun d hd => h d (by simp [hd]))]

/-- The values of the in clauses have entries. -/
inductive Converts : Forb → Prop where
  | eq {h : HP} {w : Val} {x : Rat} : Converts (.eq h w x)
  | isIn {h : HP} {ws : List Val} {xs : List Rat} : (∀ w ∈ ws, ∃ x, toVec64 h.kind w = some x) → Converts (.isIn h ws xs)
  | rel {op : RelOp} {l r : HP} : Converts (.rel op l r)
  | and {fs : List Forb} : (∀ f ∈ fs, Converts f) → Converts (.and fs)

theorem linear64_rel (op : RelOp) (l r : HP) (a b : NV) : relEntries linear64 op l r a b = rel64 op l r a b := by
  cases a with
  | none => rfl
  | some x => cases b with
    | none => rfl
    | some y =>
      simp only [relEntries, rel64]
      rw [show linear64.toVal l x = toVal64 l.kind x from rfl, show linear64.toVal r y = toVal64 r.kind y from rfl]
      cases toVal64 l.kind x <;> cases toVal64 r.kind y <;> rfl

theorem linear64_onVec {idx : Name → Nat} {v : Vec} (f : Forb) (hw : Converts f) :
    onVec linear64 idx v f = onVec64 idx v (forb64 f) := by
  induction f using Forb.induct with
  | he h w x =>
    simp only [onVec, eqEntry, forb64, onVec64, AVec.at, Vec.at]
    cases v.getD (idx h.name) none <;> rfl
  | hi h ws xs =>
    cases hw with
    | isIn hw =>
      simp only [onVec, inEntry, forb64, onVec64, filterMap_getD hw, AVec.at, Vec.at]
      cases v.getD (idx h.name) none <;> rfl
  | hr op l r => exact linear64_rel op l r _ _
  | ha cs ih =>
    cases hw with
    | and hw =>
      have h : ∀ c ∈ cs, onVec linear64 idx v c = onVec64 idx v (forb64 c) := fun c hc => ih c hc (hw c hc)
      clear ih hw
      simp only [onVec, forb64, onVec64]
      induction cs with
      | nil => rfl
      | cons c cs ih =>
        simp only [onVecAll, forb64L, onVecAll64]
        rw [h c (by simp), ih (fun d hd => h d (by simp [hd]))]

theorem converts_wf (f : Forb) (hw : f.wf = true) : Converts f := by
  induction f using Forb.induct with
  | he h w x => exact .eq
  | hi h ws xs =>
    simp only [Forb.wf, Bool.and_eq_true, List.all_eq_true, decide_eq_true_eq] at hw
    exact .isIn (fun w hww => legal_toVec64 (hw.1.2 w hww))
  | hr op l r => exact .rel
  | ha cs ih =>
    refine .and (fun c hc => ih c hc ?_)
    simp only [Forb.wf] at hw
    clear ih
    induction cs with
    | nil => cases hc
    | cons d ds ihd =>
      simp only [Forb.wfL, Bool.and_eq_true] at hw
      rcases List.mem_cons.1 hc with rfl | hc
      · exact hw.1
      · exact ihd hw.2 hc

theorem legal64_toVec64 {k : Kind} {v : Val} (h : legalValue64 k v = true) : ∃ x, toVec64 k v = some x := by
  cases k with
  | int l u =>
    simp only [legalValue64] at h
    simp only [toVec64]
    cases hn : v.num? with
    | none => rw [hn] at h; cases h
    | some q => exact ⟨_, rfl⟩
  | flt l u =>
    simp only [legalValue64] at h
    simp only [toVec64]
    cases hn : v.num? with
    | none => rw [hn] at h; cases h
    | some q => exact ⟨_, rfl⟩
  | cat cs => exact legal_toVec (k := .cat cs) h
  | ord cs => exact legal_toVec (k := .ord cs) h
  | const c => exact legal_toVec (k := .const c) h

/-! ## Merging in doubles -/

def groupD (kg : (Name × List (Name × Rat)) × OptGroup) : (Name × List (Name × Rat)) × OptGroup :=
  (kg.1, ⟨kg.2.firsts.map part64, kg.2.lasts.map part64⟩)

theorem optKeyD (fs : List EqPart) (l : EqPart) : Verif.optKey (fs.map part64) (part64 l) = optKey linear64 fs l := by
  unfold Verif.optKey optKey
  rw [List.map_map]
  rfl

theorem optInsertD {fs : List EqPart} {l : EqPart} : ∀ acc,
    Verif.optInsert (fs.map part64) (part64 l) (acc.map groupD) = (optInsert linear64 fs l acc).map groupD
  | [] => by
    simp only [List.map_nil, Verif.optInsert, optInsert, List.map_cons]
    rw [optKeyD]
    rfl
  | (k, g) :: rest => by
    have ih := optInsertD (fs := fs) (l := l) rest
    simp only [List.map_cons]
    have e5 : groupD (k, g) = (k, ⟨g.firsts.map part64, g.lasts.map part64⟩) := rfl
    rw [e5]
    simp only [Verif.optInsert, optInsert, optKeyD]
    split
    · simp [groupD]
    · simp only [List.map_cons, ih, e5]

theorem optGroupsD : ∀ (ps : List (List EqPart)) (acc),
    Verif.optGroups (ps.map (List.map part64)) (acc.map groupD) = (optGroups linear64 ps acc).map (List.map groupD)
  | [], acc => rfl
  | p :: ps, acc => by
    simp only [List.map_cons, Verif.optGroups, optGroups, splitLast_map]
    cases splitLast p with
    | none => rfl
    | some fl =>
      obtain ⟨fs, l⟩ := fl
      simp only [Option.map_some]
      rw [optInsertD]
      exact optGroupsD ps _

theorem optEmitD (g : OptGroup) :
    optEmit64 ⟨g.firsts.map part64, g.lasts.map part64⟩ = (optEmit linear64 g).map forb64 := by
  obtain ⟨fs, ls⟩ := g
  have hfirst : forb64L (fs.map (fun p => Forb.eq p.hp p.value p.vval)) =
      (fs.map part64).map (fun p => Forb.eq p.hp p.value p.vval) := by
    rw [forb64L_eq, List.map_map, List.map_map]
    rfl
  have happ : ∀ a b, forb64L (a ++ b) = forb64L a ++ forb64L b := by
    intro a b
    simp only [forb64L_eq, List.map_append]
  unfold optEmit64 optEmit
  match ls with
  | [] => rfl
  | [l] =>
    simp only [List.map_cons, List.map_nil, Except.map, forb64, happ, hfirst]
    rfl
  | l :: m :: ms =>
    have hvals : ((l :: m :: ms).map part64).map (fun p => p.value) = (l :: m :: ms).map (fun p => p.value) := by
      rw [List.map_map]
      rfl
    simp only [List.map_cons] at hvals ⊢
    have hp1 : (part64 l).hp = l.hp := rfl
    simp only [hvals, bind, Except.bind, mkForbIn64, hp1]
    have hlin : linear64.legalValue l.hp = legalValue64 l.hp.kind := rfl
    rw [hlin]
    by_cases hall : (l.value :: m.value :: ms.map (fun p => p.value)).all (legalValue64 l.hp.kind) = true
    · simp only [hall, if_true, Except.map, forb64, happ, hfirst]
      rfl
    · simp only [hall, Except.map]
      rfl

theorem mapExceptD : ∀ gs : List ((Name × List (Name × Rat)) × OptGroup),
    mapExcept (fun g => optEmit64 g.2) (gs.map groupD) = (mapExcept (fun g => optEmit linear64 g.2) gs).map (List.map forb64)
  | [] => rfl
  | g :: gs => by
    simp only [List.map_cons, mapExcept]
    have : optEmit64 (groupD g).2 = (optEmit linear64 g.2).map forb64 := optEmitD g.2
    rw [this, mapExceptD gs]
    cases optEmit linear64 g.2 with
    | error e => rfl
    | ok f => cases mapExcept (fun g => optEmit linear64 g.2) gs <;> rfl

theorem optimizedD (idx : Name → Nat) (fs : List Forb) :
    optimizedForbs64 idx (fs.map forb64) = (optimizedForbs linear64 idx fs).map (List.map forb64) := by
  have hrest : (fs.map forb64).filter (fun f => f.eqConj?.isNone) =
      (fs.filter (fun f => f.eqConj?.isNone)).map forb64 := by
    rw [List.filter_map]
    congr 1
    refine List.filter_congr (fun f _ => ?_)
    simp [eqConj64]
  have hparts : ((fs.map forb64).filterMap Forb.eqConj?).map
      (sortBy (fun a b => decide (idx a.hp.name ≤ idx b.hp.name))) =
      ((fs.filterMap Forb.eqConj?).map (sortBy (fun a b => decide (idx a.hp.name ≤ idx b.hp.name)))).map
        (List.map part64) := by
    rw [List.filterMap_map]
    have : (Forb.eqConj? ∘ forb64) = fun f => (Forb.eqConj? f).map (List.map part64) := by
      funext f
      exact eqConj64 f
    rw [this, ← List.map_filterMap, List.map_map, List.map_map]
    refine List.map_congr_left (fun p _ => ?_)
    exact sortBy_map64 part64 _ (fun _ _ => rfl) p
  unfold optimizedForbs64 optimizedForbs
  simp only
  rw [hrest, hparts]
  have := optGroupsD ((fs.filterMap Forb.eqConj?).map (sortBy (fun a b => decide (idx a.hp.name ≤ idx b.hp.name)))) []
  simp only [List.map_nil] at this
  rw [this]
  cases optGroups linear64 ((fs.filterMap Forb.eqConj?).map (sortBy (fun a b => decide (idx a.hp.name ≤ idx b.hp.name)))) [] with
  | error e => rfl
  | ok gs =>
    simp only [Except.map]
    rw [mapExceptD gs]
    cases mapExcept (fun g => optEmit linear64 g.2) gs with
    | error e => rfl
    | ok cs => simp [Except.map]

theorem mapExcept_ok_mem {γ δ : Type} {f : γ → Except Err δ} : ∀ {xs : List γ} {ys : List δ}, mapExcept f xs = .ok ys →
    ∀ y ∈ ys, ∃ x ∈ xs, f x = .ok y
  | [], ys, h => by
    simp only [mapExcept, Except.ok.injEq] at h
    subst h
    simp
  | x :: xs, ys, h => by
    simp only [mapExcept] at h
    split at h
    · cases h
    · rename_i y hy
      split at h
      · cases h
      · rename_i zs hzs
        cases h
        intro z hz
        rcases List.mem_cons.1 hz with rfl | hz
        · exact ⟨x, by simp, hy⟩
        · obtain ⟨x', h1, h2⟩ := mapExcept_ok_mem hzs z hz
          exact ⟨x', by simp [h1], h2⟩

theorem fast64_link (h : Reach calls s) :
    fast64 s = (fast linear64 s).map forb64 ∧ ∀ f ∈ fast linear64 s, Converts f := by
  have hi := sinv_of_reach h
  unfold fast64 fast
  rw [optimizedD]
  cases ho : optimizedForbs linear64 s.idx s.forbs with
  | error e => exact ⟨rfl, by simp⟩
  | ok fs =>
    refine ⟨rfl, ?_⟩
    intro f hf
    simp only at hf
    unfold optimizedForbs at ho
    simp only at ho
    split at ho
    · cases ho
    · split at ho
      · cases ho
      · rename_i cs hcs
        cases ho
        rcases List.mem_append.1 hf with hf | hf
        · exact converts_wf f (hi.hist.forbWf f (hi.hist.forbs.mem_iff.1 (List.mem_filter.1 hf).1))
        · obtain ⟨g, -, hg⟩ := mapExcept_ok_mem hcs f hf
          unfold optEmit at hg
          simp only at hg
          split at hg
          · cases hg
            refine .and (fun c hc => ?_)
            simp only [List.mem_append, List.mem_map, List.mem_singleton] at hc
            rcases hc with ⟨p, -, rfl⟩ | rfl <;> exact .eq
          · cases hg
          · split at hg
            · rename_i hall
              cases hg
              refine .and (fun c hc => ?_)
              simp only [List.mem_append, List.mem_map, List.mem_singleton] at hc
              rcases hc with ⟨p, -, rfl⟩ | rfl
              · exact .eq
              · refine .isIn (fun w hw => legal64_toVec64 ?_)
                exact List.all_eq_true.1 hall w hw
            · cases hg

end Verif.AnyNum
