import Verif.Lemmas.ScaledSample

/-!
# Logarithmic scales: configurations that are built from values
-/

set_option autoImplicit false
set_option linter.unusedSectionVars false

namespace Verif.Scaled
open Verif Verif.Spec Verif.Num

variable {calls : List Call} {s : Space}

/-- Rational numbers. -/
def IsRat (x : ℝ) : Prop := ∃ q : Rat, x = q

theorem rintK_cast (q : Rat) : rintK ((q : Rat) : ℝ) = rintK q := by
  unfold rintK
  simp only [Rat.floor_cast]
  have e : ((q : ℝ) - ((⌊q⌋ : Int) : ℝ)) = ((q - (⌊q⌋ : Rat) : Rat) : ℝ) := by push_cast; rfl
  have h1 : ((q : ℝ) - ((⌊q⌋ : Int) : ℝ) < 1 / 2) ↔ q - (⌊q⌋ : Rat) < 1 / 2 := by
    rw [e, show (1 / 2 : ℝ) = ((1 / 2 : Rat) : ℝ) by norm_num]; exact Rat.cast_lt
  have h2 : (1 / 2 < (q : ℝ) - ((⌊q⌋ : Int) : ℝ)) ↔ 1 / 2 < q - (⌊q⌋ : Rat) := by
    rw [e, show (1 / 2 : ℝ) = ((1 / 2 : Rat) : ℝ) by norm_num]; exact Rat.cast_lt
  simp only [h1, h2]

theorem seqIndex_lt {cs : List Val} {v : Val} {i : Nat} (h : seqIndex cs v = some i) : i < cs.length := by
  obtain ⟨w, hw, -⟩ := seqIndex_some h
  exact (List.getElem?_eq_some_iff.1 hw).1

/-- A legal value that is a whole number in an integer range stands for its number. -/
theorem stands_of_legal {h : HP} (hw : h.wf = true) {lg : Bool} {w : Val} (hl : h.kind.legalValue w = true) (hwh : Whole h.kind w) :
    ∃ q : Rat, toVec lg h.kind w = some (encR lg h.kind (q : ℝ)) ∧ h.kind.toVec w = some (encQ h.kind q) ∧
      Stands lg h.kind (encR lg h.kind (q : ℝ)) (q : ℝ) := by
  obtain ⟨q, hq⟩ := numberOf_legal hl
  refine ⟨q, by rw [toVec_eq, hq]; rfl, by rw [kvec_eq, hq]; rfl, ?_⟩
  cases hk : h.kind with
  | cat cs =>
    rw [hk] at hq
    simp only [numberOf, Option.map_eq_some_iff] at hq
    obtain ⟨i, hi, rfl⟩ := hq
    exact ⟨⟨i, seqIndex_lt hi, by push_cast; rfl⟩, rfl⟩
  | ord cs =>
    rw [hk] at hq
    simp only [numberOf, Option.map_eq_some_iff] at hq
    obtain ⟨i, hi, rfl⟩ := hq
    exact ⟨⟨i, seqIndex_lt hi, by push_cast; rfl⟩, rfl⟩
  | const c =>
    rw [hk] at hq hl
    simp only [Kind.legalValue] at hl
    simp only [numberOf, hl, if_true, Option.some.injEq] at hq
    subst hq
    exact ⟨by push_cast; rfl, rfl⟩
  | int l u =>
    rw [hk] at hq hl hwh
    simp only [numberOf] at hq
    obtain ⟨n, rfl⟩ := hwh q hq
    simp only [Kind.legalValue, hq, Bool.and_eq_true, decide_eq_true_eq, rint_int] at hl
    exact ⟨⟨n, by omega, by omega, by push_cast; rfl⟩, rfl⟩
  | flt l u =>
    rw [hk] at hq hl
    simp only [numberOf] at hq
    simp only [Kind.legalValue, hq, Bool.and_eq_true, decide_eq_true_eq] at hl
    exact ⟨⟨by exact_mod_cast hl.1, by exact_mod_cast hl.2⟩, rfl⟩

theorem roundVal_whole {k : Kind} {w : Val} (h : Whole k w) : Whole k (roundVal k w) := by
  cases k <;> exact h

theorem default_whole {h : HP} (hw : h.wf = true) : Whole h.kind h.default := by
  have := F64.written_default hw
  cases hk : h.kind with
  | int l u =>
    rw [hk] at this
    intro q hq
    obtain ⟨n, hn⟩ := this q hq
    rw [hn] at hq
    cases hq
    exact ⟨n, rfl⟩
  | _ => trivial

/-- A configuration and its twin. -/
structure CTwin (lg : Scales) (calls : List Call) (s : Space) (φ : ℝ → Rat) (c : RConfig) (c' : Config) : Prop where
  len : c.vec.length = s.len
  len' : c'.vec.length = s.len
  vec : VTwin lg calls s IsRat φ c.vec c'.vec
  vals : c.vals = c'.vals
  allow : c.allow = c'.allow

section Cfg
variable {lg : Scales} {φ : ℝ → Rat} (hr : Reach calls s) (hφ : Keeps IsRat φ) (hc : Cover lg calls IsRat)
include hr hφ hc

/-- A legal entry and its twin. -/
theorem legal_ent {h : HP} (hh : h ∈ allHps calls) {w : Val} (hl : h.kind.legalValue w = true) (hwh : Whole h.kind w) :
    ∃ x q, toVec (lg h) h.kind w = some x ∧ h.kind.toVec w = some q ∧ Ent (lg h) h.kind IsRat φ (some x) (some q) := by
  obtain ⟨q, e1, e2, e3⟩ := stands_of_legal (lg := lg h) (hc.good hr h hh).1 hl hwh
  exact ⟨_, _, e1, e2, .inr ⟨_, q, rfl, e3, ⟨q, rfl⟩, by rw [hφ.fix q ⟨q, rfl⟩]⟩⟩

theorem VTwin.set {v : RVec} {v' : Vec} (h1 : v.length = s.len) (h2 : v'.length = s.len) (h : VTwin lg calls s IsRat φ v v') {g : HP}
    (hg : g ∈ allHps calls) {e : Option ℝ} {e' : NV} (he : Ent (lg g) g.kind IsRat φ e e') :
    VTwin lg calls s IsRat φ (v.set (s.idx g.name) e) (v'.set (s.idx g.name) e') := by
  have hi : s.idx g.name < s.len := idx_lt hr ((reach_isNode hr _).2 ⟨g, hg, rfl⟩)
  intro x hx
  have rset : ∀ j, RVec.at (v.set (s.idx g.name) e) j = if s.idx g.name = j then e else v.at j := by
    intro j
    unfold RVec.at
    rw [List.getD_eq_getElem?_getD, List.getElem?_set]
    split
    · rename_i hj
      subst hj
      simp [h1, hi]
    · rw [List.getD_eq_getElem?_getD]
  rw [rset]
  by_cases hxg : s.idx g.name = s.idx x.name
  · have := F64.idx_inj hr hg hx hxg
    subst this
    rw [if_pos rfl, at_set_eq (by rw [h2]; exact hi)]
    exact he
  · rw [if_neg hxg, at_set_ne hxg]
    exact h x hx

theorem fillValues_twin {d : Dict} (hd : WholeDict calls d) : ∀ {xs : List Node} {v : RVec} {v' : Vec} {l : List (Name × Val)},
    (∀ x ∈ xs, x ∈ s.com) → v.length = s.len → v'.length = s.len → VTwin lg calls s IsRat φ v v' →
    (∀ e, Verif.fillValues s d xs v' l = .error e → fillValues lg s d xs v l = .error e) ∧
    (∀ r' l2, Verif.fillValues s d xs v' l = .ok (r', l2) → ∃ r, fillValues lg s d xs v l = .ok (r, l2) ∧
      r.length = s.len ∧ r'.length = s.len ∧ VTwin lg calls s IsRat φ r r')
  | [], v, v', l, _, h1, h2, hv => by
    refine ⟨fun e he => by simp [Verif.fillValues] at he, fun r' l2 he => ?_⟩
    simp only [Verif.fillValues, Except.ok.injEq, Prod.mk.injEq] at he
    obtain ⟨rfl, rfl⟩ := he
    exact ⟨v, rfl, h1, h2, hv⟩
  | x :: xs, v, v', l, hx, h1, h2, hv => by
    have hxc := hx x (by simp)
    obtain ⟨n1, n2, n3⟩ := F64.node_hp hr hxc
    have hxs : ∀ y ∈ xs, y ∈ s.com := fun y hy => hx y (by simp [hy])
    have hset : ∀ {e : Option ℝ} {e' : NV}, Ent (lg x.hp) x.hp.kind IsRat φ e e' →
        VTwin lg calls s IsRat φ (v.set (s.idx x.name) e) (v'.set (s.idx x.name) e') := by
      intro e e' he
      have := VTwin.set hr hφ hc h1 h2 hv n1 he
      rwa [n2] at this
    have hnone := fillValues_twin hd (l := l) hxs (by simp [h1]) (by simp [h2]) (hset (.inl ⟨rfl, rfl⟩))
    cases hlk : d.lookup x.name with
    | none =>
      simp only [fillValues, Verif.fillValues, hlk]
      exact hnone
    | some o =>
      cases o with
      | none =>
        simp only [fillValues, Verif.fillValues, hlk]
        exact hnone
      | some w =>
        have hw : Whole x.hp.kind w := hd x.hp n1 w (by rw [n2]; exact hlk)
        simp only [fillValues, Verif.fillValues, hlk]
        cases hleg : x.hp.kind.legalValue w with
        | false =>
          simp only [Bool.not_false, if_true]
          exact ⟨fun e he => (by cases he; rfl), fun r l2 he => by cases he⟩
        | true =>
          obtain ⟨y, q, e1, e2, e3⟩ := legal_ent hr hφ hc n1 (roundVal_legal (hc.good hr x.hp n1).1 hleg) (roundVal_whole hw)
          simp only [Bool.not_true, Bool.false_eq_true, if_false, e1, e2]
          exact fillValues_twin hd hxs (by simp [h1]) (by simp [h2]) (hset e3)

theorem vtwin_none : VTwin lg calls s IsRat φ (List.replicate s.len none) (List.replicate s.len none) := by
  intro h _
  refine .inl ⟨?_, ?_⟩
  · unfold RVec.at
    rw [List.getD_eq_getElem?_getD, List.getElem?_replicate]
    split <;> rfl
  · unfold Vec.at
    rw [List.getD_eq_getElem?_getD, List.getElem?_replicate]
    split <;> rfl

theorem ofValues_twin {d : Dict} (hd : WholeDict calls d) (al : Bool) :
    (∀ e, Config.ofValues s d al = .error e → ofValues lg s d al = .error e) ∧
    (∀ c', Config.ofValues s d al = .ok c' → ∃ c, ofValues lg s d al = .ok c ∧ CTwin lg calls s φ c c') := by
  have hi := sinv_of_reach hr
  obtain ⟨f1, f2⟩ := fillValues_twin hr hφ hc hd (xs := s.dag.nodes) (l := []) (fun x hx => by rw [← hi.com]; exact hx)
    (by simp) (by simp) (vtwin_none hr hφ hc)
  unfold Config.ofValues ofValues
  split
  · exact ⟨fun e he => (by cases he; rfl), fun c hc => by cases hc⟩
  · cases hf : Verif.fillValues s d s.dag.nodes (List.replicate s.len none) [] with
    | error e =>
      rw [f1 e hf]
      exact ⟨fun e he => (by cases he; rfl), fun c hc => by cases hc⟩
    | ok r =>
      obtain ⟨v', l⟩ := r
      obtain ⟨v, hv, k1, k2, k3⟩ := f2 v' l hf
      rw [hv]
      simp only [check_twin hr hφ hc k3]
      cases s.check v' al with
      | some e => exact ⟨fun e he => (by cases he; rfl), fun c hc => by cases hc⟩
      | none =>
        refine ⟨fun e he => (by cases he), fun c hcc => ?_⟩
        simp only [Except.ok.injEq] at hcc
        subst hcc
        exact ⟨_, rfl, k1, k2, k3, rfl, rfl⟩

theorem roundRead_twin {h : HP} (hh : h ∈ allHps calls) {x y : ℝ} (hs : Stands (lg h) h.kind x y) (hy : IsRat y) :
    ∃ r v, toVal (lg h) h.kind x = some r ∧ h.kind.toVal (encQ h.kind (φ y)) = some v ∧ roundRead r = roundVal h.kind v := by
  obtain ⟨g1, g2, g3⟩ := hc.good hr h hh
  cases hk : h.kind with
  | flt l u =>
    have hlu := range_ltF g1 hk
    have hlq := HP.wf_flt g1 hk
    rw [hk] at hs g3
    have hl : lg h = true → (0 : ℝ) < l := fun e => by exact_mod_cast g3 e
    obtain ⟨⟨h1, h2⟩, rfl⟩ := hs
    have hu := onScale_unsafe hlu hl (fun e => lt_of_lt_of_le (hl e) h1)
    obtain ⟨q, rfl⟩ := hy
    have e0 := hφ.fix q ⟨q, rfl⟩
    have k1 : l ≤ q := by exact_mod_cast h1
    have k2 : q ≤ u := by exact_mod_cast h2
    refine ⟨.num (q : ℝ), .flt q, ?_, ?_, ?_⟩
    · simp only [toVal, unsafeVal, hu, Num.clip_id h1 h2]
    · have e : scaleQ (normalizeQ q l u) l u = q := Num.scale_normalize (K := Rat) hlq
      have e2 : clipQ q l u = q := Num.clip_id (K := Rat) k1 k2
      simp only [Kind.toVal, encQ, e0, e, e2]
    · have e : ((q : ℝ) * 10000000000000) = ((q * 10000000000000 : Rat) : ℝ) := by push_cast; rfl
      simp only [roundRead, roundVal, Kind.isFloat, if_true, Val.num?, roundPlaces, e, rintK_cast, rint_eq_rintK]
  | cat cs =>
    obtain ⟨r, v, e1, e2, e3⟩ := toVal_twin hφ g1 g2 g3 hs hy
    rw [hk] at e1 e2
    refine ⟨r, v, e1, e2, ?_⟩
    rcases e3 with ⟨y, rfl, -, -⟩ | ⟨rfl, -⟩
    · simp only [toVal] at e1
      split at e1
      · obtain ⟨w, -, hw⟩ := Option.map_eq_some_iff.1 e1; cases hw
      · cases e1
    · rfl
  | ord cs =>
    obtain ⟨r, v, e1, e2, e3⟩ := toVal_twin hφ g1 g2 g3 hs hy
    rw [hk] at e1 e2
    refine ⟨r, v, e1, e2, ?_⟩
    rcases e3 with ⟨y, rfl, -, -⟩ | ⟨rfl, -⟩
    · simp only [toVal] at e1
      split at e1
      · obtain ⟨w, -, hw⟩ := Option.map_eq_some_iff.1 e1; cases hw
      · cases e1
    · rfl
  | const c => exact ⟨.val c, c, rfl, rfl, rfl⟩
  | int l u =>
    obtain ⟨r, v, e1, e2, e3⟩ := toVal_twin hφ g1 g2 g3 hs hy
    rw [hk] at e1 e2
    refine ⟨r, v, e1, e2, ?_⟩
    rcases e3 with ⟨y, rfl, -, -⟩ | ⟨rfl, -⟩
    · simp only [toVal, Option.some.injEq] at e1; cases e1
    · rfl

theorem getItem_twin {c : RConfig} {c' : Config} (h : CTwin lg calls s φ c c') (n : Name) :
    (getItem lg s c n).1 = (c'.getItem s n).1 ∧ CTwin lg calls s φ (getItem lg s c n).2 (c'.getItem s n).2 := by
  have hi := sinv_of_reach hr
  unfold getItem Config.getItem
  rw [h.vals]
  cases hw : (c'.vals.getD []).lookup n with
  | some w => exact ⟨rfl, h⟩
  | none =>
    cases hf : findNode s.dag.nodes n with
    | none => exact ⟨rfl, h⟩
    | some x =>
      obtain ⟨hx, hxn⟩ := findNode_some hf
      rw [hi.com] at hx
      obtain ⟨n1, n2, n3⟩ := F64.node_hp hr hx
      rw [hxn] at n2
      have hsame := h.vec x.hp n1
      rw [n2] at hsame
      simp only
      rcases hsame with ⟨e1, e2⟩ | ⟨z, y, e1, hst, hy, e2⟩
      · rw [e1, e2]; exact ⟨rfl, h⟩
      · rw [e1, e2]
        obtain ⟨r, v, t1, t2, t3⟩ := roundRead_twin hr hφ hc n1 hst hy
        simp only [t1, t2, t3]
        exact ⟨trivial, h.len, h.len', h.vec, rfl, h.allow⟩

theorem defVecs_eq {h : HP} (hh : h ∈ allHps calls) :
    (s.com.map (fun x => defVec lg x.hp)).getD (s.idx h.name) 0 = defVec lg h := by
  obtain ⟨x, hx, e, -⟩ := com_at hr hh
  rw [List.getD_eq_getElem?_getD, List.getElem?_map, hx]
  simp [e]

theorem default_ent {h : HP} (hh : h ∈ allHps calls) : Ent (lg h) h.kind IsRat φ (some (defVec lg h)) (some h.defVec) := by
  have hwf := (reach_wf hr).1 h hh
  obtain ⟨x, q, e1, e2, e3⟩ := legal_ent hr hφ hc hh (HP.wf_legal hwf) (default_whole hwf)
  simp only [defVec, HP.defVec, e1, e2, Option.getD_some]
  exact e3

theorem applyCNode_twin {v : RVec} {v' : Vec} (h1 : v.length = s.len) (h2 : v'.length = s.len) (h : VTwin lg calls s IsRat φ v v')
    {c : CNode} (hcm : c ∈ s.minConds) : (applyCNode lg s v c).length = s.len ∧ (Verif.applyCNode s v' c).length = s.len ∧
      VTwin lg calls s IsRat φ (applyCNode lg s v c) (Verif.applyCNode s v' c) := by
  obtain ⟨k1, k2⟩ := F64.minConds_known hr hcm
  unfold applyCNode Verif.applyCNode
  rw [cond_twin hr hφ hc h k1]
  split
  · suffices H : ∀ (ks : List Name) (w : RVec) (w' : Vec), (∀ n ∈ ks, n ∈ s.names) → w.length = s.len → w'.length = s.len →
        VTwin lg calls s IsRat φ w w' →
        (ks.foldl (fun acc n => if (v.at (s.idx n)).isSome then acc
          else acc.set (s.idx n) (some ((s.com.map (fun x => defVec lg x.hp)).getD (s.idx n) 0))) w).length = s.len ∧
        (ks.foldl (fun acc n => if isSet (v'.at (s.idx n)) then acc
          else acc.set (s.idx n) (some ((defaultVecs s.com).getD (s.idx n) 0))) w').length = s.len ∧ VTwin lg calls s IsRat φ
        (ks.foldl (fun acc n => if (v.at (s.idx n)).isSome then acc
          else acc.set (s.idx n) (some ((s.com.map (fun x => defVec lg x.hp)).getD (s.idx n) 0))) w)
        (ks.foldl (fun acc n => if isSet (v'.at (s.idx n)) then acc
          else acc.set (s.idx n) (some ((defaultVecs s.com).getD (s.idx n) 0))) w') from H _ _ _ k2 h1 h2 h
    intro ks
    induction ks with
    | nil => exact fun w w' _ g1 g2 g => ⟨g1, g2, g⟩
    | cons n ks ih =>
      intro w w' hk g1 g2 g
      rw [List.foldl_cons, List.foldl_cons, isSet_twin hr hφ hc h (hk n (by simp))]
      split
      · exact ih _ _ (fun m hm => hk m (by simp [hm])) g1 g2 g
      · refine ih _ _ (fun m hm => hk m (by simp [hm])) (by simp [g1]) (by simp [g2]) ?_
        obtain ⟨p, hh, e⟩ := (reach_isNode hr n).1 (hk n (by simp))
        subst e
        rw [defVecs_eq hr hφ hc hh]
        have := defAt_eq hr hh
        unfold defAt at this
        rw [this]
        exact VTwin.set hr hφ hc g1 g2 g hh (default_ent hr hφ hc hh)
  · suffices H : ∀ (ks : List Name) (w : RVec) (w' : Vec), (∀ n ∈ ks, n ∈ s.names) → w.length = s.len → w'.length = s.len →
        VTwin lg calls s IsRat φ w w' →
        (ks.foldl (fun acc n => acc.set (s.idx n) none) w).length = s.len ∧
        (ks.foldl (fun acc n => acc.set (s.idx n) none) w').length = s.len ∧ VTwin lg calls s IsRat φ
        (ks.foldl (fun acc n => acc.set (s.idx n) none) w) (ks.foldl (fun acc n => acc.set (s.idx n) none) w')
        from H _ _ _ k2 h1 h2 h
    intro ks
    induction ks with
    | nil => exact fun w w' _ g1 g2 g => ⟨g1, g2, g⟩
    | cons n ks ih =>
      intro w w' hk g1 g2 g
      rw [List.foldl_cons, List.foldl_cons]
      refine ih _ _ (fun m hm => hk m (by simp [hm])) (by simp [g1]) (by simp [g2]) ?_
      obtain ⟨p, hh, e⟩ := (reach_isNode hr n).1 (hk n (by simp))
      subst e
      exact VTwin.set hr hφ hc g1 g2 g hh (.inl ⟨rfl, rfl⟩)

theorem changeHp_twin {v : RVec} {v' : Vec} (h1 : v.length = s.len) (h2 : v'.length = s.len) (h : VTwin lg calls s IsRat φ v v')
    {p : HP} (hp : p ∈ allHps calls) {x : ℝ} {q : Rat} (hq : Ent (lg p) p.kind IsRat φ (some x) (some q)) :
    (changeHp lg s v p.name x (s.idx p.name)).length = s.len ∧ (s.changeHp v' p.name q (s.idx p.name)).length = s.len ∧
      VTwin lg calls s IsRat φ (changeHp lg s v p.name x (s.idx p.name)) (s.changeHp v' p.name q (s.idx p.name)) := by
  unfold changeHp Space.changeHp
  generalize (s.lookup.lookup p.name).getD [] = js
  have h0 := VTwin.set hr hφ hc h1 h2 h hp hq
  have g1 : (v.set (s.idx p.name) (some x)).length = s.len := by simp [h1]
  have g2 : (v'.set (s.idx p.name) (some q)).length = s.len := by simp [h2]
  generalize v.set (s.idx p.name) (some x) = w at h0 g1 ⊢
  generalize v'.set (s.idx p.name) (some q) = w' at h0 g2 ⊢
  induction js generalizing w w' with
  | nil => exact ⟨g1, g2, h0⟩
  | cons j js ih =>
    rw [List.foldl_cons, List.foldl_cons]
    cases hj : s.minConds[j]? with
    | none => exact ih _ g1 _ h0 g2
    | some c =>
      obtain ⟨a1, a2, a3⟩ := applyCNode_twin hr hφ hc g1 g2 h0 (List.mem_of_getElem? hj)
      exact ih _ a1 _ a3 a2

theorem setItem_twin {c : RConfig} {c' : Config} (h : CTwin lg calls s φ c c') {n : Name} {w : Val}
    (hw : ∀ p ∈ allHps calls, p.name = n → Whole p.kind w) :
    (setItem lg s c n w).2 = (c'.setItem s n w).2 ∧ CTwin lg calls s φ (setItem lg s c n w).1 (c'.setItem s n w).1 := by
  have hi := sinv_of_reach hr
  unfold setItem Config.setItem
  cases hf : findNode s.dag.nodes n with
  | none => exact ⟨rfl, h⟩
  | some x =>
    obtain ⟨hx, hxn⟩ := findNode_some hf
    rw [hi.com] at hx
    obtain ⟨n1, n2, n3⟩ := F64.node_hp hr hx
    rw [hxn] at n2
    subst n2
    simp only
    cases hleg : x.hp.kind.legalValue w with
    | false => exact ⟨rfl, h⟩
    | true =>
      obtain ⟨z, q, e1, e2, e3⟩ := legal_ent hr hφ hc n1 hleg (hw x.hp n1 rfl)
      simp only [Bool.not_true, Bool.false_eq_true, if_false, e1, e2]
      obtain ⟨a1, a2, a3⟩ := changeHp_twin hr hφ hc h.len h.len' h.vec n1 e3
      rw [check_twin hr hφ hc a3]
      cases s.check (s.changeHp c'.vec x.hp.name q (s.idx x.hp.name)) false with
      | some e => exact ⟨rfl, h⟩
      | none => exact ⟨rfl, a1, a2, a3, rfl, h.allow⟩

theorem session_twin : ∀ {steps : List Step} {c : RConfig} {c' : Config}, CTwin lg calls s φ c c' → WholeSteps calls steps →
    scaledSteps lg s c steps = session (fun c => c.setItem s) (fun c => c.getItem s) c' steps
  | [], _, _, _, _ => rfl
  | .set n w :: rest, c, c', h, hs => by
    obtain ⟨h1, h2⟩ := setItem_twin hr hφ hc h (n := n) (w := w) (fun p hp e => hs n w (by simp) p hp e)
    have ih := session_twin (steps := rest) h2 (fun m u hm => hs m u (by simp [hm]))
    simp only [scaledSteps, session, h1, ih]
  | .get n :: rest, c, c', h, hs => by
    obtain ⟨h1, h2⟩ := getItem_twin hr hφ hc h n
    have ih := session_twin (steps := rest) h2 (fun m u hm => hs m u (by simp [hm]))
    simp only [scaledSteps, session, h1, ih]

end Cfg

end Verif.Scaled
