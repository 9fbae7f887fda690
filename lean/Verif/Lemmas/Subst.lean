import Verif.Spec.Subst
import Verif.Lemmas.Rebuild
import Verif.Lemmas.Grid
import Verif.Lemmas.EvalVal
import Verif.Props.Construct

/-!
# Substitution, printing and rebuilding
-/

set_option autoImplicit false

namespace Verif
open Verif.Spec

/-! ## Constructors give back what was built -/

theorem remake_cat {h : HP} (hw : h.wf = true) {cs : List Val} (hk : h.kind = .cat cs) {w : Option (List Rat)}
    (hb : badWeights cs w = false) : mkCat h.name cs (some h.default) w = .ok h := by
  obtain ⟨n, k, d⟩ := h
  simp only at hk
  subst hk
  simp only [HP.wf, Bool.and_eq_true, Bool.not_eq_true'] at hw
  have hl : d.pyIn cs = true := hw.2
  simp [mkCat, hw.1.2, hb, badDefault, hl, hw.1.1, finishHP, Kind.legalValue]

theorem remake_ord {h : HP} (hw : h.wf = true) {cs : List Val} (hk : h.kind = .ord cs) :
    mkOrd h.name cs (some h.default) = .ok h := by
  obtain ⟨n, k, d⟩ := h
  simp only at hk
  subst hk
  simp only [HP.wf, Bool.and_eq_true, Bool.not_eq_true'] at hw
  have hl : d.pyIn cs = true := hw.2
  simp [mkOrd, hw.1.2, hl, finishHP, Kind.legalValue]

theorem remake_const {h : HP} (hw : h.wf = true) {v : Val} (hk : h.kind = .const v) : mkConst h.name v = .ok h := by
  obtain ⟨n, k, d⟩ := h
  simp only at hk
  subst hk
  simp only [HP.wf, Bool.and_eq_true, decide_eq_true_eq] at hw
  obtain ⟨rfl, hl⟩ := hw
  unfold mkConst
  rw [finishHP_ok]
  exact ⟨rfl, hl⟩

theorem remake_int {h : HP} (hw : h.wf = true) {l u : Int} (hk : h.kind = .int l u) :
    ∃ m : Int, h.default = .int m ∧ mkInt h.name l u (some (m : Rat)) = .ok h := by
  obtain ⟨n, k, d⟩ := h
  simp only at hk
  subst hk
  have hw' := hw
  simp only [HP.wf, Bool.and_eq_true, decide_eq_true_eq] at hw
  cases d with
  | flt q => simp at hw
  | str q => simp at hw
  | int m =>
    refine ⟨m, rfl, ?_⟩
    have hlu : l < u := hw.1.1
    have hm : l ≤ m ∧ m ≤ u := by
      have := hw.2
      simp [Kind.legalValue, Val.num?] at this
      rw [rint_int] at this
      exact this.1
    obtain ⟨hp, h1, h2, h3⟩ := C48_integer_accepts (n := n) hlu (d := some m) (by rintro _ ⟨⟩; exact hm)
    have h4 := C48_integer h1
    have : hp = ⟨n, .int l u, .int m⟩ := by
      obtain ⟨n', k', d'⟩ := hp
      simp only at h2 h3 h4 ⊢
      rw [h2, h3 m rfl, h4.2.1]
    subst this
    exact h1

theorem remake_flt {h : HP} (hw : h.wf = true) {l u : Rat} (hk : h.kind = .flt l u) :
    ∃ m : Rat, h.default = .flt m ∧ mkFlt h.name l u (some m) = .ok h := by
  obtain ⟨n, k, d⟩ := h
  simp only at hk
  subst hk
  simp only [HP.wf, Bool.and_eq_true, decide_eq_true_eq] at hw
  cases d with
  | int q => simp at hw
  | str q => simp at hw
  | flt m =>
    refine ⟨m, rfl, ?_⟩
    obtain ⟨⟨⟨h1, h2, h3⟩, h4⟩, h5⟩ := hw
    simp only [decide_eq_true_eq] at h4
    simp only [mkFlt, h2, h3, h4]
    rw [if_neg (by simpa using h1)]
    exact finishHP_ok.2 ⟨rfl, h5⟩

/-- `to_uniform` of a hyperparameter without priors is the hyperparameter. -/
theorem toUniform_self {h : HP} (hw : h.wf = true) : h.toUniform = .ok h := by
  unfold HP.toUniform
  cases hk : h.kind with
  | cat cs => exact remake_cat hw hk rfl
  | ord cs => rfl
  | const v => rfl
  | int l u =>
    obtain ⟨m, h1, h2⟩ := remake_int hw hk
    rw [h1]
    exact h2
  | flt l u =>
    obtain ⟨m, h1, h2⟩ := remake_flt hw hk
    rw [h1]
    exact h2

theorem mapExcept_id {α : Type} {f : α → Except Err α} : ∀ {l : List α}, (∀ x ∈ l, f x = .ok x) → mapExcept f l = .ok l
  | [], _ => rfl
  | x :: l, h => by
    unfold mapExcept
    rw [h x (by simp), mapExcept_id (fun y hy => h y (by simp [hy]))]

theorem mapExcept_map {α β : Type} {f : α → Except Err β} {g : α → β} : ∀ {l : List α}, (∀ x ∈ l, f x = .ok (g x)) →
    mapExcept f l = .ok (l.map g)
  | [], _ => rfl
  | x :: l, h => by
    unfold mapExcept
    rw [h x (by simp), mapExcept_map (fun y hy => h y (by simp [hy]))]
    rfl

theorem mapExcept_error {α β : Type} {f : α → Except Err β} : ∀ {l : List α} {e : Err}, mapExcept f l = .error e →
    ∃ x ∈ l, f x = .error e
  | [], e, h => by simp [mapExcept] at h
  | x :: xs, e, h => by
    unfold mapExcept at h
    split at h
    · rename_i e' he
      cases h
      exact ⟨x, by simp, he⟩
    · split at h
      · rename_i e' he
        cases h
        obtain ⟨y, hy, hye⟩ := mapExcept_error he
        exact ⟨y, by simp [hy], hye⟩
      · cases h

theorem mapExcept_forall₂ {α β : Type} {f : α → Except Err β} : ∀ {l : List α} {r : List β}, mapExcept f l = .ok r →
    List.Forall₂ (fun x y => f x = .ok y) l r
  | [], r, h => by simp only [mapExcept, Except.ok.injEq] at h; subst h; exact .nil
  | x :: l, r, h => by
    unfold mapExcept at h
    split at h
    · cases h
    · rename_i y hy
      split at h
      · cases h
      · rename_i ys hys
        cases h
        exact .cons hy (mapExcept_forall₂ hys)

/-! ## Lookup of members -/

/-- Every hyperparameter of the space is found under its name. -/
def Looked (s : Space) : Prop := ∀ h ∈ s.com.map Node.hp, s.hp? h.name = some h

theorem looked {calls : List Call} {s : Space} (h : Reach calls s) : Looked s := by
  intro x hx
  obtain ⟨y, hy, rfl⟩ := List.mem_map.1 hx
  exact hp?_node h hy

theorem getHP_ok {s : Space} (hl : Looked s) {h : HP} (hh : h ∈ s.com.map Node.hp) : s.getHP h.name = .ok h := by
  unfold Space.getHP
  rw [hl h hh]

theorem getHP_some {s : Space} {n : Name} {h : HP} (hg : s.getHP n = .ok h) : h ∈ s.com.map Node.hp ∧ h.name = n := by
  unfold Space.getHP at hg
  split at hg
  · rename_i g hp
    cases hg
    unfold Space.hp? findNode at hp
    cases hf : s.com.find? (fun x => x.name == n) with
    | none => rw [hf] at hp; cases hp
    | some x =>
      rw [hf] at hp
      cases hp
      have h1 := List.mem_of_find?_eq_some hf
      have h2 := List.find?_some hf
      exact ⟨List.mem_map.2 ⟨x, h1, rfl⟩, by simpa [Node.name] using h2⟩
  · cases hg

theorem mkBin_own {l : Lit} (hw : l.wf = true) {op : BOp} {v : Val} {x : Rat} (ht : l.test = .bin op v x) :
    mkBin op l.child l.parent v = .ok l := by
  obtain ⟨c, p, t⟩ := l
  simp only at ht
  subst ht
  simp only [Lit.wf, Bool.and_eq_true, decide_eq_true_eq, Bool.not_eq_true'] at hw
  obtain ⟨⟨⟨h1, _⟩, _⟩, ⟨h2, h3⟩, h4⟩ := hw
  simp only [mkBin, h1, h2, h3]
  have : ((op == .lt || op == .gt) && !p.kind.orderable) = false := by
    revert h4
    cases (op == BOp.lt || op == BOp.gt) <;> cases p.kind.orderable <;> simp
  rw [this]
  rfl

theorem mkIn_own {l : Lit} (hw : l.wf = true) {vs : List Val} {xs : List Rat} (ht : l.test = .isIn vs xs) :
    mkIn l.child l.parent vs = .ok l := by
  obtain ⟨c, p, t⟩ := l
  simp only at ht
  subst ht
  simp only [Lit.wf, Bool.and_eq_true, decide_eq_true_eq, Bool.not_eq_true'] at hw
  obtain ⟨⟨⟨h1, _⟩, _⟩, h2, h3⟩ := hw
  simp only [mkIn, h1, h2, if_true, h3]
  rfl

theorem substLit_own {s : Space} (hl : Looked s) {l : Lit} (hw : l.wf = true) (hp : l.parent ∈ s.com.map Node.hp)
    (hc : l.child ∈ s.com.map Node.hp) : substLit s l = .ok l := by
  unfold substLit
  rw [getHP_ok hl hp, getHP_ok hl hc]
  cases ht : l.test with
  | bin op v x => exact mkBin_own hw ht
  | isIn vs xs => exact mkIn_own hw ht

theorem substLits_own {s : Space} (hl : Looked s) {ls : List Lit} (hw : ∀ l ∈ ls, l.wf = true)
    (hm : ∀ l ∈ ls, l.parent ∈ s.com.map Node.hp ∧ l.child ∈ s.com.map Node.hp) :
    substLits s ls = .ok (ls.map Cond.lit) := by
  unfold substLits
  apply mapExcept_map
  intro l h
  rw [substLit_own hl (hw l h) (hm l h).1 (hm l h).2]

theorem dlcsL_lits (ls : List Lit) : Cond.dlcsL (ls.map Cond.lit) = ls := by
  induction ls with
  | nil => rfl
  | cons l ls ih => simp [Cond.dlcsL, Cond.dlcs, ih]

/-- The number of literals is at least the number of components. -/
theorem dlcs_pos {c : Cond} (h : c.wf0 = true) : 0 < c.dlcs.length := by
  induction c using Cond.induct with
  | hl l => simp [Cond.dlcs]
  | ha cs ih =>
    obtain ⟨h1, h2⟩ := wf0_and.1 h
    match cs, h1 with
    | c :: _ :: _, _ =>
      have := ih c (by simp) (h2 c (by simp))
      simp only [Cond.dlcs, Cond.dlcsL, List.length_append]
      omega
  | ho cs ih =>
    obtain ⟨h1, h2⟩ := wf0_or.1 h
    match cs, h1 with
    | c :: _ :: _, _ =>
      have := ih c (by simp) (h2 c (by simp))
      simp only [Cond.dlcs, Cond.dlcsL, List.length_append]
      omega

theorem dlcsL_length : ∀ {cs : List Cond}, (∀ c ∈ cs, c.wf0 = true) → cs.length ≤ (Cond.dlcsL cs).length
  | [], _ => by simp
  | c :: cs, h => by
    have h1 := dlcs_pos (h c (by simp))
    have h2 := dlcsL_length (cs := cs) (fun d hd => h d (by simp [hd]))
    simp only [Cond.dlcsL, List.length_append, List.length_cons]
    omega

theorem substCond_and {s : Space} (hl : Looked s) {cs : List Cond} (hw : (Cond.and cs).wf = true)
    (hm : CondIn s (.and cs)) : substCond s (.and cs) = .ok (.and ((Cond.dlcsL cs).map Cond.lit)) := by
  simp only [Cond.wf, Bool.and_eq_true] at hw
  obtain ⟨h1, h2⟩ := wf0_and.1 hw.1
  have e : substLits s (Cond.dlcsL cs) = _ := substLits_own hl (wf0_lit hw.1) hm
  simp only [substCond, e]
  have := dlcsL_length h2
  simp only [mkAnd, List.length_map, dlcsL_lits]
  rw [if_neg (by omega), if_pos (by simpa [Cond.dlcs] using hw.2)]

theorem substCond_or {s : Space} (hl : Looked s) {cs : List Cond} (hw : (Cond.or cs).wf = true)
    (hm : CondIn s (.or cs)) : substCond s (.or cs) = .ok (.or ((Cond.dlcsL cs).map Cond.lit)) := by
  simp only [Cond.wf, Bool.and_eq_true] at hw
  obtain ⟨h1, h2⟩ := wf0_or.1 hw.1
  have e : substLits s (Cond.dlcsL cs) = _ := substLits_own hl (wf0_lit hw.1) hm
  simp only [substCond, e]
  have := dlcsL_length h2
  simp only [mkOr, List.length_map, dlcsL_lits]
  rw [if_neg (by omega), if_pos (by simpa [Cond.dlcs] using hw.2)]

theorem substCond_lit {s : Space} (hl : Looked s) {l : Lit} (hw : (Cond.lit l).wf = true) (hm : CondIn s (.lit l)) :
    substCond s (.lit l) = .ok (.lit l) := by
  simp only [Cond.wf, Bool.and_eq_true] at hw
  have h := hm l (by simp [Cond.dlcs])
  simp only [substCond, substLit_own hl (wf0_lit hw.1 l (by simp [Cond.dlcs])) h.1 h.2]

theorem substCond_flat {s : Space} (hl : Looked s) {c : Cond} (hf : Flat c) (hw : c.wf = true) (hm : CondIn s c) :
    substCond s c = .ok c := by
  cases hf with
  | lit l => exact substCond_lit hl hw hm
  | and ls => rw [substCond_and hl hw hm, dlcsL_lits]
  | or ls => rw [substCond_or hl hw hm, dlcsL_lits]

theorem holds_allAnd {a : Assign} {c : Cond} (h : AllAnd c) : Holds a c ↔ ∀ l ∈ c.dlcs, LitHolds a l := by
  induction c using Cond.induct with
  | hl l =>
    constructor
    · rintro ⟨⟩ m hm; simp [Cond.dlcs] at hm; subst hm; assumption
    · exact fun h => .lit (h l (by simp [Cond.dlcs]))
  | ha cs ih =>
    cases h with
    | and h =>
      constructor
      · rintro ⟨⟩ l hl
        rename_i hh
        obtain ⟨c, hc, hl⟩ := mem_dlcsL.1 hl
        exact (ih c hc (h c hc)).1 (hh c hc) l hl
      · intro hh
        exact .and fun c hc => (ih c hc (h c hc)).2 fun l hl => hh l (mem_dlcsL.2 ⟨c, hc, hl⟩)
  | ho cs ih => cases h

theorem holds_allOr {a : Assign} {c : Cond} (h : AllOr c) : Holds a c ↔ ∃ l ∈ c.dlcs, LitHolds a l := by
  induction c using Cond.induct with
  | hl l =>
    constructor
    · rintro ⟨⟩; exact ⟨l, by simp [Cond.dlcs], by assumption⟩
    · rintro ⟨m, hm, h'⟩; simp [Cond.dlcs] at hm; subst hm; exact .lit h'
  | ho cs ih =>
    cases h with
    | or h =>
      constructor
      · rintro ⟨⟩
        rename_i c hh hc
        obtain ⟨l, hl, hh⟩ := (ih c hc (h c hc)).1 hh
        exact ⟨l, mem_dlcsL.2 ⟨c, hc, hl⟩, hh⟩
      · rintro ⟨l, hl, hh⟩
        obtain ⟨c, hc, hl⟩ := mem_dlcsL.1 hl
        exact .or hc ((ih c hc (h c hc)).2 ⟨l, hl, hh⟩)
  | ha cs ih => cases h

theorem substLit_namesake {s : Space} {l m : Lit} (h : substLit s l = .ok m) : Namesake s l m := by
  unfold substLit at h
  split at h
  · cases h
  · rename_i p hp
    split at h
    · cases h
    · rename_i c hc
      obtain ⟨h1, h2⟩ := getHP_some hp
      obtain ⟨h3, h4⟩ := getHP_some hc
      cases ht : l.test with
      | bin op v x =>
        rw [ht] at h
        simp only [mkBin] at h
        repeat' split at h
        all_goals cases h
        exact ⟨h3, h4, h1, h2, by rw [ht]; exact ⟨rfl, rfl⟩⟩
      | isIn vs xs =>
        rw [ht] at h
        simp only [mkIn] at h
        repeat' split at h
        all_goals cases h
        exact ⟨h3, h4, h1, h2, by rw [ht]⟩

theorem substLits_namesake {s : Space} {ls : List Lit} {ds : List Cond} (h : substLits s ls = .ok ds) :
    List.Forall₂ (Namesake s) ls (Cond.dlcsL ds) := by
  have := mapExcept_forall₂ h
  clear h
  induction this with
  | nil => exact .nil
  | cons hx _ ih =>
    split at hx
    · cases hx
    · rename_i m hm
      cases hx
      exact .cons (substLit_namesake hm) ih

theorem substCond_namesake {s : Space} {c d : Cond} (h : substCond s c = .ok d) :
    List.Forall₂ (Namesake s) c.dlcs d.dlcs := by
  cases c with
  | lit l =>
    simp only [substCond] at h
    split at h
    · cases h
    · rename_i m hm
      cases h
      exact .cons (substLit_namesake hm) .nil
  | and cs =>
    simp only [substCond] at h
    split at h
    · cases h
    · rename_i ds hds
      unfold mkAnd at h
      repeat' split at h
      all_goals cases h
      exact substLits_namesake hds
  | or cs =>
    simp only [substCond] at h
    split at h
    · cases h
    · rename_i ds hds
      unfold mkOr at h
      repeat' split at h
      all_goals cases h
      exact substLits_namesake hds

theorem substForbs_id {s : Space} : ∀ {fs : List Forb}, (∀ f ∈ fs, substForb s f = .ok f) → substForbs s fs = .ok fs
  | [], _ => by simp [substForbs]
  | f :: fs, h => by
    unfold substForbs
    rw [h f (by simp), substForbs_id (fun g hg => h g (by simp [hg]))]

theorem wfL_iff' {cs : List Forb} : Forb.wfL cs = true ↔ ∀ c ∈ cs, c.wf = true := by
  induction cs with
  | nil => simp [Forb.wfL]
  | cons c cs ih => simp [Forb.wfL, ih]

theorem mkForbEq_own {h : HP} {v : Val} {x : Rat} (hw : (Forb.eq h v x).wf = true) : mkForbEq h v = .ok (.eq h v x) := by
  simp only [Forb.wf, Bool.and_eq_true, decide_eq_true_eq] at hw
  simp [mkForbEq, hw.1.2, hw.2]

theorem mkForbIn_own {h : HP} {vs : List Val} {xs : List Rat} (hw : (Forb.isIn h vs xs).wf = true) :
    mkForbIn h vs = .ok (.isIn h vs xs) := by
  simp only [Forb.wf, Bool.and_eq_true, decide_eq_true_eq] at hw
  rw [mkForbIn, if_pos hw.1.2, hw.2]

theorem substForb_own {s : Space} (hl : Looked s) {f : Forb} (hw : f.wf = true) (hm : ForbIn s f) :
    substForb s f = .ok f := by
  induction f using Forb.induct with
  | he h v x =>
    unfold substForb
    rw [getHP_ok hl (hm h (by simp [clauseHps]))]
    exact mkForbEq_own hw
  | hi h vs xs =>
    unfold substForb
    rw [getHP_ok hl (hm h (by simp [clauseHps]))]
    exact mkForbIn_own hw
  | hr op l r =>
    unfold substForb
    rw [getHP_ok hl (hm l (by simp [clauseHps])), getHP_ok hl (hm r (by simp [clauseHps]))]
  | ha cs ih =>
    simp only [Forb.wf] at hw
    rw [wfL_iff'] at hw
    unfold substForb
    rw [substForbs_id fun f hf => ih f hf (hw f hf) fun x hx => hm x (by
      simp only [clauseHps]
      exact mem_clauseHpsL.2 ⟨f, hf, hx⟩)]

/-! ## The list of conditions -/

theorem uniqueBy_eq {α : Type} {key : α → String} : ∀ {seen : List String} {l : List α},
    (∀ x ∈ l, key x ∉ seen) → (l.map key).Nodup → uniqueBy key seen l = l
  | _, [], _, _ => rfl
  | seen, x :: l, h1, h2 => by
    unfold uniqueBy
    rw [if_neg (h1 x (by simp))]
    simp only [List.map_cons, List.nodup_cons] at h2
    rw [uniqueBy_eq _ h2.2]
    intro y hy hmem
    rcases List.mem_cons.1 hmem with e | e
    · exact h2.1 (List.mem_map.2 ⟨y, hy, e⟩)
    · exact h1 y (by simp [hy]) e

/-- When conditions print apart, `space.conditions` has the condition of every node. -/
theorem conditions_eq {calls : List Call} {s : Space} (h : Reach calls s) (hp : PrintApart calls) :
    s.conditions = s.com.filterMap Node.cond := by
  unfold Space.conditions
  apply uniqueBy_eq (by simp)
  have hn := (reach_ninv h).nodup
  have hmem : ∀ x ∈ s.com, ∀ c, x.cond = some c → c ∈ allConds calls ∧ childName c = some x.name := by
    intro x hx c hc
    have : lastCond (allConds calls) x.name = some c := by
      rw [← (sinv_of_reach h).hist.cond, (sinv_of_reach h).com]
      simp [condAt, findNode_of_mem hn hx, hc]
    exact lastCond_some this
  have key : ∀ l : Nodes, (∀ x ∈ l, x ∈ s.com) → (namesOf l).Nodup →
      ((l.filterMap Node.cond).map Cond.render).Nodup := by
    intro l
    induction l with
    | nil => intro _ _; simp
    | cons x l ih =>
      intro h1 h2
      simp only [namesOf, List.map_cons, List.nodup_cons] at h2
      have ih := ih (fun y hy => h1 y (by simp [hy])) h2.2
      cases hc : x.cond with
      | none => simpa [List.filterMap_cons, hc] using ih
      | some c =>
        rw [List.filterMap_cons, hc, List.map_cons, List.nodup_cons]
        refine ⟨?_, ih⟩
        intro hm
        obtain ⟨d, hd, e⟩ := List.mem_map.1 hm
        obtain ⟨y, hy, hyd⟩ := List.mem_filterMap.1 hd
        obtain ⟨c1, c2⟩ := hmem x (h1 x (by simp)) c hc
        obtain ⟨d1, d2⟩ := hmem y (h1 y (by simp [hy])) d hyd
        have := hp d d1 c c1 e
        rw [c2, d2] at this
        simp only [Option.some.injEq] at this
        exact h2.1 (this ▸ List.mem_map.2 ⟨y, hy, rfl⟩)
  exact key s.com (fun x hx => hx) hn

/-! ## Conditions over plain names print apart -/

theorem Cond.render_shape {c : Cond} (hc : c.wf0 = true) :
    ∃ (k : Nat) (rest : List Char) (l : Lit), c.dlcs.head? = some l ∧
      c.render.toList = List.replicate k '(' ++ (l.child.name.toList ++ (' ' :: '|' :: rest)) := by
  induction c using Cond.induct with
  | hl l =>
    have e : (" | " : String).toList = [' ', '|', ' '] := rfl
    refine ⟨0, ' ' :: (l.parent.name.toList ++ String.toList (match l.test with
      | .bin op v _ => " " ++ op.render ++ " " ++ v.render
      | .isIn vs _ => " in {" ++ ", ".intercalate (vs.map Val.render) ++ "}")), l, by simp [Cond.dlcs], ?_⟩
    simp only [Cond.render, Lit.render, String.toList_append, e, List.replicate_zero, List.nil_append, List.append_assoc,
      List.cons_append]
    rfl
  | ha cs ih =>
    obtain ⟨h1, h2⟩ := wf0_and.1 hc
    match cs, h1 with
    | c :: d :: ds, _ =>
      obtain ⟨k, rest, l, e1, e2⟩ := ih c (by simp) (h2 c (by simp))
      refine ⟨k + 1, rest ++ (" && ".toList ++ ((Cond.renderL " && " (d :: ds)).toList ++ ")".toList)), l, ?_, ?_⟩
      · simp [Cond.dlcs, Cond.dlcsL, List.head?_append, e1]
      · simp only [Cond.render, Cond.renderL, String.toList_append, e2, List.replicate_succ, List.cons_append,
          List.append_assoc]
        rfl
  | ho cs ih =>
    obtain ⟨h1, h2⟩ := wf0_or.1 hc
    match cs, h1 with
    | c :: d :: ds, _ =>
      obtain ⟨k, rest, l, e1, e2⟩ := ih c (by simp) (h2 c (by simp))
      refine ⟨k + 1, rest ++ (" || ".toList ++ ((Cond.renderL " || " (d :: ds)).toList ++ ")".toList)), l, ?_, ?_⟩
      · simp [Cond.dlcs, Cond.dlcsL, List.head?_append, e1]
      · simp only [Cond.render, Cond.renderL, String.toList_append, e2, List.replicate_succ, List.cons_append,
          List.append_assoc]
        rfl

theorem strip_parens {n : List Char} (h : '(' ∉ n) {rest : List Char} : ∀ k : Nat,
    (List.replicate k '(' ++ (n ++ ' ' :: '|' :: rest)).dropWhile (· == '(') = n ++ ' ' :: '|' :: rest
  | 0 => by
    cases n with
    | nil => simp
    | cons c n =>
      have : c ≠ '(' := fun e => h (by simp [e])
      simp [this]
  | k + 1 => by
    rw [List.replicate_succ, List.cons_append, List.dropWhile_cons_of_pos (by simp)]
    exact strip_parens h k

theorem upto_bar {n : List Char} (h : '|' ∉ n) {rest : List Char} :
    (n ++ ' ' :: '|' :: rest).takeWhile (· != '|') = n ++ [' '] := by
  induction n with
  | nil => simp
  | cons c n ih =>
    have : c ≠ '|' := fun e => h (by simp [e])
    simp only [List.cons_append]
    rw [List.takeWhile_cons_of_pos (by simpa using this), ih (fun e => h (by simp [e]))]

theorem render_child {c d : Cond} (hc : c.wf0 = true) (hd : d.wf0 = true)
    (pc : ∀ l ∈ c.dlcs, PlainName l.child.name) (pd : ∀ l ∈ d.dlcs, PlainName l.child.name)
    (h : c.render = d.render) : childName c = childName d := by
  obtain ⟨k, r, l, e1, e2⟩ := Cond.render_shape hc
  obtain ⟨k', r', l', e1', e2'⟩ := Cond.render_shape hd
  have p1 := pc l (List.mem_of_head? e1)
  have p2 := pd l' (List.mem_of_head? e1')
  have hh := congrArg (fun t : String => (t.toList.dropWhile (· == '(')).takeWhile (· != '|')) h
  simp only [e2, e2', strip_parens p1.2, strip_parens p2.2, upto_bar p1.1, upto_bar p2.1] at hh
  have hn : l.child.name = l'.child.name := String.toList_injective (List.append_cancel_right hh)
  simp [childName, Cond.child?, e1, e1', hn]

theorem printApart_of_plain {calls : List Call} {s : Space} (h : Reach calls s) (hoc : OwnConds calls)
    (hp : ∀ x ∈ allHps calls, PlainName x.name) : PrintApart calls := by
  have hw : ∀ c ∈ allConds calls, c.wf0 = true := fun c hc => by
    have := (reach_wf h).2.1 c hc
    simp only [Cond.wf, Bool.and_eq_true] at this
    exact this.1
  intro c hc d hd e
  exact render_child (hw c hc) (hw d hd) (fun l hl => hp _ (hoc c hc l hl).2) (fun l hl => hp _ (hoc d hd l hl).2) e

end Verif
