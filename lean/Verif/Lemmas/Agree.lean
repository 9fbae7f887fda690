import Verif.Lemmas.AnyNumLink
import Verif.Lemmas.AnyNumChange
import Verif.Lemmas.F64Config
import Verif.Spec.Agree

/-!
# Two arithmetics that order the values alike
-/

set_option autoImplicit false
set_option linter.unusedSectionVars false

namespace Verif.AnyNum
open Verif Verif.Spec.Any
open Verif.Spec (Known Conditional childName At clauseHps clauseHpsL OwnClauses testVals clauseVals relPairs NamedValues)

variable {α β α' β' : Type} [DecidableEq α] [DecidableEq α'] {A : Arith α β} {B : Arith α' β'} {P : HP → Val → Prop}
variable {calls : List Call} {s : Space}

/-- Entries of the same value. -/
def Ent (A : Arith α β) (B : Arith α' β') (P : HP → Val → Prop) (h : HP) (a : Option α) (b : Option α') : Prop :=
  ∃ o : Option Val, (∀ w, o = some w → Good B P h w) ∧ a = o.map (A.toVec h) ∧ b = o.map (B.toVec h)

theorem Ent.none {h : HP} : Ent A B P h Option.none Option.none := ⟨Option.none, ⟨fun _ k => (by cases k), rfl, rfl⟩⟩

theorem Ent.some {h : HP} {w : Val} (hw : Good B P h w) : Ent A B P h (some (A.toVec h w)) (some (B.toVec h w)) :=
  ⟨Option.some w, ⟨fun _ k => (by cases k; exact hw), rfl, rfl⟩⟩

theorem Ent.isSome {h : HP} {a : Option α} {b : Option α'} (he : Ent A B P h a b) : a.isSome = b.isSome := by
  obtain ⟨o, -, rfl, rfl⟩ := he
  cases o <;> rfl

structure AgreeVec (A : Arith α β) (B : Arith α' β') (P : HP → Val → Prop) (calls : List Call) (s : Space) (v : AVec α) (v' : AVec α') :
    Prop where
  len : v.length = s.len
  len' : v'.length = s.len
  same : ∀ h ∈ allHps calls, Ent A B P h (v.at (s.idx h.name)) (v'.at (s.idx h.name))

theorem agreeVec_of {a : NamedValues} (ha : GoodAll B P calls a) {v : AVec α} {v' : AVec α'} (hv : VectorOf A calls s a v)
    (hv' : VectorOf B calls s a v') : AgreeVec A B P calls s v v' :=
  ⟨hv.1, hv'.1, fun h hh => ⟨a h.name, ha h hh, hv.2 h hh, hv'.2 h hh⟩⟩

open Classical in
theorem of_agreeVec (hr : Reach calls s) {v : AVec α} {v' : AVec α'} (h : AgreeVec A B P calls s v v') :
    ∃ a, GoodAll B P calls a ∧ VectorOf A calls s a v ∧ VectorOf B calls s a v' := by
  choose f h1 h2 h3 using h.same
  have key : ∀ g (hg : g ∈ allHps calls),
      (if k : ∃ x ∈ allHps calls, x.name = g.name then f k.choose k.choose_spec.1 else none) = f g hg := by
    intro g hg
    have k : ∃ x ∈ allHps calls, x.name = g.name := ⟨g, hg, rfl⟩
    have e : k.choose = g := reach_hp_inj hr _ k.choose_spec.1 _ hg k.choose_spec.2
    have : ∀ x (hx : x ∈ allHps calls), x = g → f x hx = f g hg := fun x hx e => by subst e; rfl
    rw [dif_pos k]
    exact this _ _ e
  refine ⟨fun n => if k : ∃ x ∈ allHps calls, x.name = n then f k.choose k.choose_spec.1 else none, ?_, ⟨h.len, ?_⟩, h.len', ?_⟩
  · intro g hg w hw
    exact h1 g hg w ((key g hg).symm.trans hw)
  · intro g hg
    exact (h2 g hg).trans (congrArg (Option.map _) (key g hg).symm)
  · intro g hg
    exact (h3 g hg).trans (congrArg (Option.map _) (key g hg).symm)

/-! ## Conditions -/

section
variable (hr : Reach calls s) (hg : Agree A B calls P)
include hr hg

theorem onEntry_agree {l : Lit} {c : Cond} (hc : c ∈ allConds calls) (hl : l ∈ c.dlcs) {a : Option α} {b : Option α'}
    (he : Ent A B P l.parent a b) : onEntry A l.parent l.test a = onEntry B l.parent l.test b := by
  obtain ⟨h1, h2⟩ := hg.conds c hc l hl
  obtain ⟨o, ho, rfl, rfl⟩ := he
  cases o with
  | none =>
    cases l.test with
    | bin op w x => cases op <;> rfl
    | isIn ws xs => rfl
  | some w =>
    have hw := ho w rfl
    cases ht : l.test with
    | bin op u x =>
      have hu : Good B P l.parent u := h2 u (by simp [ht, testVals])
      cases op with
      | eq =>
        simp only [onEntry, Option.map_some]
        exact decide_eq_decide.2 (hg.eq _ h1 _ _ hw hu)
      | ne =>
        simp only [onEntry, Option.map_some]
        exact decide_eq_decide.2 (not_congr (hg.eq _ h1 _ _ hw hu))
      | lt => exact hg.lt _ h1 _ _ hw hu
      | gt => exact hg.lt _ h1 _ _ hu hw
    | isIn us xs =>
      simp only [onEntry, Option.map_some]
      refine decide_eq_decide.2 ?_
      simp only [List.mem_map]
      have hu : ∀ u ∈ us, Good B P l.parent u := fun u hu => h2 u (by simpa [ht, testVals] using hu)
      exact ⟨fun ⟨u, hm, e⟩ => ⟨u, hm, (hg.eq _ h1 _ _ (hu u hm) hw).1 e⟩, fun ⟨u, hm, e⟩ => ⟨u, hm, (hg.eq _ h1 _ _ (hu u hm) hw).2 e⟩⟩

theorem satVec_agree {v : AVec α} {v' : AVec α'} (hv : AgreeVec A B P calls s v v') {c : Cond} (hc : c ∈ allConds calls) :
    satVec A s.idx v c = satVec B s.idx v' c := by
  suffices ∀ d : Cond, (∀ l ∈ d.dlcs, l ∈ c.dlcs) → satVec A s.idx v d = satVec B s.idx v' d from this c (fun _ h => h)
  intro d
  induction d using Cond.induct with
  | hl l =>
    intro hd
    have hl := hd l (by simp [Cond.dlcs])
    exact onEntry_agree hr hg hc hl (hv.same _ (hg.conds c hc l hl).1)
  | ha cs ih =>
    intro hd
    have h : ∀ d ∈ cs, satVec A s.idx v d = satVec B s.idx v' d := fun d hdm =>
      ih d hdm (fun l hl => hd l (by rw [Cond.dlcs]; exact mem_dlcsL.2 ⟨d, hdm, hl⟩))
    rw [Bool.eq_iff_iff]
    simp only [satVec, satVecAll_iff]
    exact ⟨fun k d hd => by rw [← h d hd]; exact k d hd, fun k d hd => by rw [h d hd]; exact k d hd⟩
  | ho cs ih =>
    intro hd
    have h : ∀ d ∈ cs, satVec A s.idx v d = satVec B s.idx v' d := fun d hdm =>
      ih d hdm (fun l hl => hd l (by rw [Cond.dlcs]; exact mem_dlcsL.2 ⟨d, hdm, hl⟩))
    rw [Bool.eq_iff_iff]
    simp only [satVec, satVecAny_iff]
    exact ⟨fun ⟨d, hd, k⟩ => ⟨d, hd, by rw [← h d hd]; exact k⟩, fun ⟨d, hd, k⟩ => ⟨d, hd, by rw [h d hd]; exact k⟩⟩

/-! ## Clauses -/

theorem onVec_agree {v : AVec α} {v' : AVec α'} (hv : AgreeVec A B P calls s v v') {f : Forb} (hf : f ∈ allForbs calls) :
    onVec A s.idx v f = onVec B s.idx v' f := by
  suffices ∀ d : Forb, (∀ h ∈ clauseHps d, h ∈ clauseHps f) → (∀ p ∈ clauseVals d, p ∈ clauseVals f) →
      (∀ p ∈ relPairs d, p ∈ relPairs f) → onVec A s.idx v d = onVec B s.idx v' d from this f (fun _ h => h) (fun _ h => h) (fun _ h => h)
  obtain ⟨g1, g2⟩ := hg.clauses f hf
  intro d
  induction d using Forb.induct with
  | he h w x =>
    intro k1 k2 _
    have hh := g1 h (k1 h (by simp [clauseHps]))
    have hw := g2 (h, w) (k2 _ (by simp [clauseVals]))
    obtain ⟨o, ho, e1, e2⟩ := hv.same h hh
    simp only [onVec, e1, e2]
    cases o with
    | none => rfl
    | some u =>
      simp only [eqEntry, Option.map_some]
      exact decide_eq_decide.2 (hg.eq _ hh _ _ (ho u rfl) hw)
  | hi h ws xs =>
    intro k1 k2 _
    have hh := g1 h (k1 h (by simp [clauseHps]))
    have hw : ∀ w ∈ ws, Good B P h w := fun w hm => g2 (h, w) (k2 _ (by simpa [clauseVals] using hm))
    obtain ⟨o, ho, e1, e2⟩ := hv.same h hh
    simp only [onVec, e1, e2]
    cases o with
    | none => rfl
    | some u =>
      simp only [inEntry, Option.map_some]
      refine decide_eq_decide.2 ?_
      simp only [List.mem_map]
      exact ⟨fun ⟨w, hm, e⟩ => ⟨w, hm, (hg.eq _ hh _ _ (hw w hm) (ho u rfl)).1 e⟩,
        fun ⟨w, hm, e⟩ => ⟨w, hm, (hg.eq _ hh _ _ (hw w hm) (ho u rfl)).2 e⟩⟩
  | hr op l r =>
    intro k1 _ k3
    have hl := g1 l (k1 l (by simp [clauseHps]))
    have hr' := g1 r (k1 r (by simp [clauseHps]))
    obtain ⟨o, ho, e1, e2⟩ := hv.same l hl
    obtain ⟨p, hp, e3, e4⟩ := hv.same r hr'
    simp only [onVec, e1, e2, e3, e4]
    cases o with
    | none => rfl
    | some x => cases p with
      | none => rfl
      | some y => exact hg.rels f hf (l, r) (k3 _ (by simp [relPairs])) op x y (ho x rfl) (hp y rfl)
  | ha cs ih =>
    intro k1 k2 k3
    have h : ∀ d ∈ cs, onVec A s.idx v d = onVec B s.idx v' d := fun d hdm => ih d hdm
      (fun x hx => k1 x (by simp only [clauseHps]; exact mem_clauseHpsL.2 ⟨d, hdm, hx⟩))
      (fun x hx => k2 x (by simp only [clauseVals]; exact F64.mem_clauseValsL.2 ⟨d, hdm, hx⟩))
      (fun x hx => k3 x (by simp only [relPairs]; exact F64.mem_relPairsL.2 ⟨d, hdm, hx⟩))
    rw [Bool.eq_iff_iff]
    simp only [onVec, onVecAll_iff]
    exact ⟨fun k d hd => by rw [← h d hd]; exact k d hd, fun k d hd => by rw [h d hd]; exact k d hd⟩

omit hr in
theorem ownClauses_agree : OwnClauses calls := fun f hf => (hg.clauses f hf).1

omit hr hg in
theorem inClause_vals {f : Forb} {h : HP} {w : Val} (hi : InClause h w f) : (h, w) ∈ clauseVals f := by
  induction hi with
  | eq => simp [clauseVals]
  | isIn hm => simpa [clauseVals] using hm
  | and hm _ ih =>
    simp only [clauseVals]
    exact F64.mem_clauseValsL.2 ⟨_, hm, ih⟩

omit hr hg in
theorem inClause_hps {f : Forb} {h : HP} {w : Val} (hi : InClause h w f) : h ∈ clauseHps f := by
  induction hi with
  | eq => simp [clauseHps]
  | isIn _ => simp [clauseHps]
  | and hm _ ih =>
    simp only [clauseHps]
    exact mem_clauseHpsL.2 ⟨_, hm, ih⟩

omit hr in
theorem legalClauses_right : LegalClauses B calls := fun f hf _ _ hi => ((hg.clauses f hf).2 _ (inClause_vals hi)).2

omit hr in
theorem legalClauses_left : LegalClauses A calls := fun f hf h w hi => by
  have k := (hg.clauses f hf).2 _ (inClause_vals hi)
  have hh : h ∈ clauseHps f := inClause_hps hi
  rw [hg.values h ((hg.clauses f hf).1 h hh) w k.1]
  exact k.2

theorem forbs_agree {v : AVec α} {v' : AVec α'} (hv : AgreeVec A B P calls s v v') :
    s.forbs.any (fun f => onVec A s.idx v f) = s.forbs.any (fun f => onVec B s.idx v' f) := by
  have hmem : ∀ f, f ∈ s.forbs ↔ f ∈ allForbs calls := fun f => (sinv_of_reach hr).hist.forbs.mem_iff
  rw [Bool.eq_iff_iff]
  simp only [List.any_eq_true]
  exact ⟨fun ⟨f, hf, k⟩ => ⟨f, hf, by rw [← onVec_agree hr hg hv ((hmem f).1 hf)]; exact k⟩,
    fun ⟨f, hf, k⟩ => ⟨f, hf, by rw [onVec_agree hr hg hv ((hmem f).1 hf)]; exact k⟩⟩

omit hg in
/-- The merged clauses forbid what the clauses forbid. -/
theorem fast_any {γ δ : Type} [DecidableEq γ] {C : Arith γ δ} (hown : OwnClauses calls) (hl : LegalClauses C calls) {v : AVec γ}
    (hlen : v.length = s.len) : (fast C s).any (fun f => onVec C s.idx v f) = s.forbs.any (fun f => onVec C s.idx v f) := by
  have hmem : ∀ f, f ∈ s.forbs ↔ f ∈ allForbs calls := fun f => (sinv_of_reach hr).hist.forbs.mem_iff
  rw [Bool.eq_iff_iff, merged_iff hr hown hl (represents_asg hr hlen), forb_any_iff]
  simp only [hmem]

theorem fast_agree {v : AVec α} {v' : AVec α'} (hv : AgreeVec A B P calls s v v') :
    (fast A s).any (fun f => onVec A s.idx v f) = (fast B s).any (fun f => onVec B s.idx v' f) := by
  rw [fast_any hr (ownClauses_agree hg) (legalClauses_left hg) hv.len, fast_any hr (ownClauses_agree hg) (legalClauses_right hg) hv.len']
  exact forbs_agree hr hg hv

/-! ## Checking -/

omit hg in
theorem isSome_agree {v : AVec α} {v' : AVec α'} (hv : AgreeVec A B P calls s v v') {n : Name} (hn : n ∈ s.names) :
    (v.at (s.idx n)).isSome = (v'.at (s.idx n)).isSome := by
  obtain ⟨h, hh, rfl⟩ := (reach_isNode hr n).1 hn
  exact (hv.same h hh).isSome

omit hg in
theorem firstWith_agree {v : AVec α} {v' : AVec α'} (hv : AgreeVec A B P calls s v v') (q : Bool → Bool) {ns : List Name}
    (hn : ∀ n ∈ ns, n ∈ s.names) : firstWith (fun e => q e.isSome) s v ns = firstWith (fun e => q e.isSome) s v' ns := by
  unfold firstWith
  induction ns with
  | nil => rfl
  | cons n ns ih =>
    simp only [List.find?_cons, isSome_agree hr hv (hn n (by simp)), ih (fun m hm => hn m (by simp [hm]))]

theorem legalAt_agree {v : AVec α} {v' : AVec α'} (hv : AgreeVec A B P calls s v v') {n : Name} (hn : n ∈ s.names) :
    legalAt A s v n = legalAt B s v' n := by
  obtain ⟨h, hh, rfl⟩ := (reach_isNode hr n).1 hn
  unfold legalAt
  rw [(hp_of hr).2 ⟨hh, rfl⟩]
  obtain ⟨o, ho, e1, e2⟩ := hv.same h hh
  rw [e1, e2]
  cases o with
  | none => rfl
  | some w => exact hg.legal h hh w (ho w rfl)

theorem checkConds_agree {v : AVec α} {v' : AVec α'} (hv : AgreeVec A B P calls s v v') (al : Bool) : ∀ {cs : List CNode},
    (∀ g ∈ cs, g.cond ∈ allConds calls ∧ ∀ n ∈ g.kids, n ∈ s.names) → checkConds A s v al cs = checkConds B s v' al cs
  | [], _ => rfl
  | g :: cs, hk => by
    obtain ⟨h1, h2⟩ := hk g (by simp)
    have ih := checkConds_agree hv al (cs := cs) (fun g hgm => hk g (by simp [hgm]))
    have f1 : firstWith (fun e => !e.isSome) s v g.kids = firstWith (fun e => !e.isSome) s v' g.kids :=
      firstWith_agree hr hv (fun b => !b) h2
    have f2 : firstWith (fun e => e.isSome) s v g.kids = firstWith (fun e => e.isSome) s v' g.kids :=
      firstWith_agree hr hv (fun b => b) h2
    have f3 : g.kids.find? (fun n => !legalAt A s v n) = g.kids.find? (fun n => !legalAt B s v' n) := by
      clear hk ih f1 f2 h1
      generalize g.kids = ks at h2 ⊢
      induction ks with
      | nil => rfl
      | cons n ns ih =>
        rw [List.find?_cons, List.find?_cons, legalAt_agree hr hg hv (h2 n (by simp)), ih (fun m hm => h2 m (by simp [hm]))]
    simp only [checkConds, satVec_agree hr hg hv h1, f1, f2, f3, ih]
    split
    · rfl
    · split
      · rfl
      · cases hf : firstWith (fun e => e.isSome) s v' g.kids with
        | none => rfl
        | some n =>
          have hn := h2 n (List.mem_of_find?_eq_some hf)
          obtain ⟨h, hh, rfl⟩ := (reach_isNode hr n).1 hn
          simp only [(hp_of hr).2 ⟨hh, rfl⟩]
          obtain ⟨o, ho, e1, e2⟩ := hv.same h hh
          rw [e1, e2]
          cases o with
          | none => rfl
          | some w =>
            have := hg.reads h hh w (ho w rfl)
            simp only [Option.map_some]
            cases hx : A.toVal h (A.toVec h w) <;> cases hy : B.toVal h (B.toVec h w) <;> simp [hx, hy] at this ⊢

theorem check_agree {v : AVec α} {v' : AVec α'} (hv : AgreeVec A B P calls s v v') (al : Bool) : check A s v al = check B s v' al := by
  have hroots : ∀ n ∈ s.dag.roots, n ∈ s.names := fun n hn =>
    (reach_isNode hr n).2 ((C06_roots_no_condition hr n).1 hn).1
  have f1 : firstWith (fun e => !e.isSome) s v s.dag.roots = firstWith (fun e => !e.isSome) s v' s.dag.roots :=
    firstWith_agree hr hv (fun b => !b) hroots
  unfold check
  rw [f1, checkConds_agree hr hg hv al (fun g hgm => F64.minConds_known hr hgm), fast_agree hr hg hv]

theorem isActive_agree {v : AVec α} {v' : AVec α'} (hv : AgreeVec A B P calls s v v') {x : Node} (hx : x ∈ s.com) :
    isActive A s v x = isActive B s v' x := by
  unfold isActive
  cases hc : x.cond with
  | none => rfl
  | some c =>
    obtain ⟨hcm, hpar⟩ := node_cond hr hx hc
    simp only
    rw [satVec_agree hr hg hv hcm]
    have : c.parents.any (fun p => !(v.at (s.idx p)).isSome) = c.parents.any (fun p => !(v'.at (s.idx p)).isSome) := by
      have hp : ∀ p ∈ c.parents, p ∈ s.names := by
        intro p hp
        obtain ⟨l, hl, rfl⟩ := List.mem_map.1 hp
        exact (reach_isNode hr _).2 ⟨_, (hg.conds c hcm l hl).1, rfl⟩
      clear hpar
      generalize c.parents = ps at hp
      induction ps with
      | nil => rfl
      | cons p ps ih => rw [List.any_cons, List.any_cons, isSome_agree hr hv (hp p (by simp)), ih (fun q hq => hp q (by simp [hq]))]
    rw [this]

theorem activeNames_agree {v : AVec α} {v' : AVec α'} (hv : AgreeVec A B P calls s v v') : activeNames A s v = activeNames B s v' := by
  unfold activeNames
  rw [List.filter_congr (fun x hx => isActive_agree hr hg hv hx)]

theorem checkRigorous_agree {v : AVec α} {v' : AVec α'} (hv : AgreeVec A B P calls s v v') (al : Bool) :
    checkRigorous A s v al = checkRigorous B s v' al := by
  have hi := sinv_of_reach hr
  unfold checkRigorous
  rw [forbs_agree hr hg hv]
  suffices H : ∀ xs : List Node, (∀ x ∈ xs, x ∈ s.com) → rigorousLoop A s v al xs = rigorousLoop B s v' al xs by
    rw [H _ (fun x hx => by rw [← hi.com]; exact hx)]
  intro xs
  induction xs with
  | nil => intro _; rfl
  | cons x xs ih =>
    intro hx
    obtain ⟨n1, n2, -⟩ := F64.node_hp hr (hx x (by simp))
    simp only [rigorousLoop, activeNames_agree hr hg hv, ih (fun y hy => hx y (by simp [hy]))]
    obtain ⟨o, ho, e1, e2⟩ := hv.same x.hp n1
    rw [n2] at e1 e2
    rw [e1, e2]
    cases o with
    | none => rfl
    | some w => simp only [Option.map_some, Option.isSome_some, hg.legal _ n1 w (ho w rfl)]

/-! ## Assignment and construction -/

omit hg in
theorem AgreeVec.set {v : AVec α} {v' : AVec α'} (hv : AgreeVec A B P calls s v v') {g : HP} (hgm : g ∈ allHps calls)
    {e : Option α} {e' : Option α'} (he : Ent A B P g e e') : AgreeVec A B P calls s (v.set (s.idx g.name) e) (v'.set (s.idx g.name) e') := by
  have hi : s.idx g.name < s.len := idx_lt hr ((reach_isNode hr _).2 ⟨g, hgm, rfl⟩)
  refine ⟨by simp [hv.len], by simp [hv.len'], ?_⟩
  intro x hx
  by_cases hxg : s.idx g.name = s.idx x.name
  · have := F64.idx_inj hr hgm hx hxg
    subst this
    rw [at_set_eq (by rw [hv.len]; exact hi), at_set_eq (by rw [hv.len']; exact hi)]
    exact he
  · rw [at_set_ne hxg, at_set_ne hxg]
    exact hv.same x hx

omit hg in
theorem defaultAt_eq {γ δ : Type} [DecidableEq γ] (C : Arith γ δ) {h : HP} (hh : h ∈ allHps calls) :
    defaultAt C s (s.idx h.name) = some (C.toVec h h.default) := by
  have hp' := (hp_of hr).2 ⟨hh, rfl⟩
  unfold Space.hp? at hp'
  cases hf : findNode s.com h.name with
  | none => simp [hf] at hp'
  | some y =>
    simp [hf] at hp'
    obtain ⟨hy, e⟩ := findNode_some hf
    obtain ⟨i, hi⟩ := List.getElem?_of_mem hy
    have hidx : s.idx h.name = i := by
      refine idx_unique (reach_ninv hr).nodup ?_
      simp [namesOf, List.getElem?_map, hi, e]
    simp [defaultAt, hidx, List.getElem?_map, hi, hp']

theorem applyCNode_agree {v : AVec α} {v' : AVec α'} (hv : AgreeVec A B P calls s v v') {c : CNode} (hc : c ∈ s.minConds) :
    AgreeVec A B P calls s (applyCNode A s v c) (applyCNode B s v' c) := by
  obtain ⟨h1, h2⟩ := F64.minConds_known hr hc
  unfold applyCNode
  rw [satVec_agree hr hg hv h1]
  split
  · suffices H : ∀ (ks : List Name) (w : AVec α) (w' : AVec α'), (∀ n ∈ ks, n ∈ s.names) → AgreeVec A B P calls s w w' →
        AgreeVec A B P calls s
          (ks.foldl (fun acc n => if (v.at (s.idx n)).isSome then acc else acc.set (s.idx n) (defaultAt A s (s.idx n))) w)
          (ks.foldl (fun acc n => if (v'.at (s.idx n)).isSome then acc else acc.set (s.idx n) (defaultAt B s (s.idx n))) w')
        from H _ _ _ h2 hv
    intro ks
    induction ks with
    | nil => exact fun w w' _ h => h
    | cons n ks ih =>
      intro w w' hk hw
      rw [List.foldl_cons, List.foldl_cons]
      refine ih _ _ (fun m hm => hk m (by simp [hm])) ?_
      rw [isSome_agree hr hv (hk n (by simp))]
      split
      · exact hw
      · obtain ⟨h, hh, e⟩ := (reach_isNode hr n).1 (hk n (by simp))
        subst e
        rw [defaultAt_eq hr A hh, defaultAt_eq hr B hh]
        exact hw.set hr hh (.some (hg.defaults h hh))
  · suffices H : ∀ (ks : List Name) (w : AVec α) (w' : AVec α'), (∀ n ∈ ks, n ∈ s.names) → AgreeVec A B P calls s w w' →
        AgreeVec A B P calls s (ks.foldl (fun acc n => acc.set (s.idx n) none) w) (ks.foldl (fun acc n => acc.set (s.idx n) none) w')
        from H _ _ _ h2 hv
    intro ks
    induction ks with
    | nil => exact fun w w' _ h => h
    | cons n ks ih =>
      intro w w' hk hw
      rw [List.foldl_cons, List.foldl_cons]
      refine ih _ _ (fun m hm => hk m (by simp [hm])) ?_
      obtain ⟨h, hh, e⟩ := (reach_isNode hr n).1 (hk n (by simp))
      subst e
      exact hw.set hr hh .none

theorem changeHp_agree {v : AVec α} {v' : AVec α'} (hv : AgreeVec A B P calls s v v') {h : HP} (hh : h ∈ allHps calls) {w : Val}
    (hw : Good B P h w) :
    AgreeVec A B P calls s (changeHp A s v h.name (A.toVec h w) (s.idx h.name)) (changeHp B s v' h.name (B.toVec h w) (s.idx h.name)) := by
  unfold changeHp
  generalize (s.lookup.lookup h.name).getD [] = js
  have h0 : AgreeVec A B P calls s (v.set (s.idx h.name) (some (A.toVec h w))) (v'.set (s.idx h.name) (some (B.toVec h w))) :=
    hv.set hr hh (.some hw)
  generalize v.set (s.idx h.name) (some (A.toVec h w)) = u at h0 ⊢
  generalize v'.set (s.idx h.name) (some (B.toVec h w)) = u' at h0 ⊢
  induction js generalizing u u' with
  | nil => exact h0
  | cons j js ih =>
    rw [List.foldl_cons, List.foldl_cons]
    refine ih _ _ ?_
    cases hj : s.minConds[j]? with
    | none => exact h0
    | some c => exact applyCNode_agree hr hg h0 (List.mem_of_getElem? hj)

theorem setItem_agree {v : AVec α} {v' : AVec α'} (hv : AgreeVec A B P calls s v v') {n : Name} {w : Val}
    (hw : ∀ h ∈ allHps calls, h.name = n → P h w) :
    AgreeVec A B P calls s (setItem A s v n w).1 (setItem B s v' n w).1 ∧ (setItem A s v n w).2 = (setItem B s v' n w).2 := by
  have hi := sinv_of_reach hr
  unfold setItem
  cases hf : findNode s.dag.nodes n with
  | none => exact ⟨hv, rfl⟩
  | some x =>
    obtain ⟨hx, hxn⟩ := findNode_some hf
    rw [hi.com] at hx
    obtain ⟨n1, n2, n3⟩ := F64.node_hp hr hx
    rw [hxn] at n2
    subst n2
    have hww := hw x.hp n1 rfl
    simp only [hg.values _ n1 w hww]
    cases hleg : B.legalValue x.hp w with
    | false => exact ⟨hv, rfl⟩
    | true =>
      have hc := changeHp_agree hr hg hv n1 (w := w) ⟨hww, hleg⟩
      simp only [Bool.not_true, Bool.false_eq_true, if_false]
      rw [check_agree hr hg hc]
      cases check B s (changeHp B s v' x.hp.name (B.toVec x.hp w) (s.idx x.hp.name)) false with
      | some e => exact ⟨hv, rfl⟩
      | none => exact ⟨hc, rfl⟩

theorem fillVec_agree {k k' : HP → Val → Val} (hk : Keeps A B calls P k k') {d : Dict}
    (hd : ∀ h ∈ allHps calls, ∀ w, d.lookup h.name = some (some w) → P h w) : ∀ {xs : List Node} {v : AVec α} {v' : AVec α'},
    (∀ x ∈ xs, x ∈ s.com) → AgreeVec A B P calls s v v' →
    (∃ e, fillVec A k s d xs v = .error e ∧ fillVec B k' s d xs v' = .error e) ∨
    (∃ u u', fillVec A k s d xs v = .ok u ∧ fillVec B k' s d xs v' = .ok u' ∧ AgreeVec A B P calls s u u')
  | [], v, v', _, hv => .inr ⟨v, v', rfl, rfl, hv⟩
  | x :: xs, v, v', hx, hv => by
    obtain ⟨n1, n2, n3⟩ := F64.node_hp hr (hx x (by simp))
    have hxs : ∀ y ∈ xs, y ∈ s.com := fun y hy => hx y (by simp [hy])
    have hset : ∀ {e : Option α} {e' : Option α'}, Ent A B P x.hp e e' →
        AgreeVec A B P calls s (v.set (s.idx x.name) e) (v'.set (s.idx x.name) e') := by
      intro e e' he
      have := hv.set hr n1 he
      rwa [n2] at this
    simp only [fillVec]
    cases hlk : d.lookup x.name with
    | none => exact fillVec_agree hk hd hxs (hset .none)
    | some o => cases o with
      | none => exact fillVec_agree hk hd hxs (hset .none)
      | some w =>
        have hw := hd x.hp n1 w (by rw [n2]; exact hlk)
        simp only [hg.values _ n1 w hw]
        cases hleg : B.legalValue x.hp w with
        | false => exact .inl ⟨_, rfl, rfl⟩
        | true =>
          obtain ⟨k1, k2⟩ := hk x.hp n1 w ⟨hw, hleg⟩
          simp only [Bool.not_true, Bool.false_eq_true, if_false]
          rw [k1]
          exact fillVec_agree hk hd hxs (hset (.some k2))

omit hr hg in
theorem agreeVec_none : AgreeVec A B P calls s (List.replicate s.len none) (List.replicate s.len none) := by
  refine ⟨by simp, by simp, fun h _ => ?_⟩
  have : ∀ γ : Type, AVec.at (List.replicate s.len (none : Option γ)) (s.idx h.name) = none := by
    intro γ
    unfold AVec.at
    rw [List.getD_eq_getElem?_getD, List.getElem?_replicate]
    split <;> rfl
  rw [this, this]
  exact .none

theorem ofValues_agree {k k' : HP → Val → Val} (hk : Keeps A B calls P k k') {d : Dict}
    (hd : ∀ h ∈ allHps calls, ∀ w, d.lookup h.name = some (some w) → P h w) (al : Bool) :
    (∃ e, ofValues A k s d al = .error e ∧ ofValues B k' s d al = .error e) ∨
    (∃ u u', ofValues A k s d al = .ok u ∧ ofValues B k' s d al = .ok u' ∧ AgreeVec A B P calls s u u') := by
  have hi := sinv_of_reach hr
  unfold ofValues
  split
  · exact .inl ⟨_, rfl, rfl⟩
  · rcases fillVec_agree hr hg hk hd (xs := s.dag.nodes) (fun x hx => by rw [← hi.com]; exact hx) agreeVec_none with
      ⟨e, e1, e2⟩ | ⟨u, u', e1, e2, hu⟩
    · rw [e1, e2]
      exact .inl ⟨_, rfl, rfl⟩
    · rw [e1, e2]
      simp only
      rw [check_agree hr hg hu]
      cases check B s u' al with
      | some e => exact .inl ⟨_, rfl, rfl⟩
      | none => exact .inr ⟨_, _, rfl, rfl, hu⟩

omit hg in
theorem keys_agree {v : AVec α} {v' : AVec α'} (hv : AgreeVec A B P calls s v v') : keys s v = keys s v' :=
  List.filter_congr (fun _ hn => isSome_agree hr hv hn)

end

end Verif.AnyNum
