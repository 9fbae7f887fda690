import Verif.Lemmas.F64Check
import Verif.Lemmas.Order
import Mathlib.Data.List.Forall2

/-!
# Spaces in double precision: configurations
-/

set_option autoImplicit false

namespace Verif.F64
open Verif Verif.Spec

variable {calls : List Call} {s : Space}

/-! ## Rounding of values -/

theorem written_default {h : HP} (hw : h.wf = true) : Written h.kind h.default := by
  unfold HP.wf at hw
  rw [Bool.and_eq_true] at hw
  obtain ⟨h1, -⟩ := hw
  cases hk : h.kind with
  | cat cs => trivial
  | ord cs => trivial
  | const c => trivial
  | int l u =>
    rw [hk] at h1
    intro q _
    cases hd : h.default with
    | int n => exact ⟨n, rfl⟩
    | flt q => rw [hd] at h1; simp at h1
    | str t => rw [hd] at h1; simp at h1
  | flt l u =>
    rw [hk] at h1
    intro q hq
    cases hd : h.default with
    | int n => rw [hd] at h1; simp at h1
    | flt r =>
      rw [hd] at h1 hq
      simp only [Bool.and_eq_true, decide_eq_true_eq] at h1
      cases hq
      exact decimal_of_round h1.2
    | str t => rw [hd] at h1; simp at h1

/-- The value that a configuration keeps is the double of what was written, and has the same vector. -/
theorem roundVal64_eq {h : HP} (hm : Modest h.kind) {w : Val} (lw : h.kind.legalValue w = true)
    (hw : Written h.kind w) : roundVal64 h.kind w = asDouble h.kind (roundVal h.kind w) ∧
      toVec64 h.kind (roundVal64 h.kind w) = toVec64 h.kind (roundVal h.kind w) ∧
      h.kind.legalValue (roundVal h.kind w) = true ∧ Written h.kind (roundVal h.kind w) := by
  cases hk : h.kind with
  | cat cs => rw [hk] at lw; exact ⟨rfl, rfl, lw, trivial⟩
  | ord cs => rw [hk] at lw; exact ⟨rfl, rfl, lw, trivial⟩
  | const c => rw [hk] at lw; exact ⟨rfl, rfl, lw, trivial⟩
  | int l u => rw [hk] at lw hw; exact ⟨rfl, rfl, lw, hw⟩
  | flt l u =>
    cases hq : w.num? with
    | none => rw [hk] at lw; simp [Kind.legalValue, hq] at lw
    | some q =>
      obtain ⟨dq, q1, q2, qb⟩ := flt_legal hk hm lw hw hq
      have e : roundVal (.flt l u) w = .flt q := by simp [roundVal, Kind.isFloat, hq, decimal_round dq]
      have e' : roundVal64 (.flt l u) w = .flt (rd q) := by simp [roundVal64, Kind.isFloat, hq, round13_decimal dq qb]
      rw [e, e']
      refine ⟨rfl, ?_, ?_, ?_⟩
      · simp [toVec64, Val.num?, rd_rd]
      · simp [Kind.legalValue, Val.num?, q1, q2]
      · intro r hr
        cases hr
        exact dq

theorem isF64_clip {x lo hi : Rat} (hx : IsF64 x) (hl : IsF64 lo) (hh : IsF64 hi) : IsF64 (Num.clip x lo hi) := by
  unfold Num.clip
  split_ifs <;> assumption

theorem rd_toValFlt (l u x : Rat) : rd (toValFlt (rd l) (rd u) x) = toValFlt (rd l) (rd u) x :=
  rd_of_isF64 (isF64_clip (isF64_rd _) (isF64_rd l) (isF64_rd u))

/-- Reading an entry gives the double of the exact value. -/
theorem read64 {h : HP} (hw : h.wf = true) (hm : Modest h.kind) {v : Val} {x x' : Rat}
    (lv : h.kind.legalValue v = true) (hv : Written h.kind v) (ex : h.kind.toVec v = some x)
    (ex' : toVec64 h.kind v = some x') : ∃ w w', h.kind.toVal x = some w ∧ toVal64 h.kind x' = some w' ∧
      roundVal64 h.kind w' = asDouble h.kind (roundVal h.kind w) := by
  obtain ⟨w, e, he⟩ := toVal_toVec hw lv ex (exactInt_of lv hv)
  by_cases hf : ∃ lo hi, h.kind = .flt lo hi
  · obtain ⟨lo, hi, hk⟩ := hf
    cases hq : v.num? with
    | none => rw [hk] at lv; simp [Kind.legalValue, hq] at lv
    | some q =>
      obtain ⟨dq, q1, q2, qb⟩ := flt_legal hk hm lv hv hq
      have hr := toVal64_flt hk hw hm lv hv hq ex'
      have hlu := HP.wf_flt hw hk
      refine ⟨w, .flt (toValFlt (rd lo) (rd hi) x'), e, by rw [hk]; rfl, ?_⟩
      have hx : x = normalizeQ q lo hi := by
        rw [hk] at ex
        simpa [Kind.toVec, hq] using ex.symm
      have hwq : w = .flt q := by
        rw [hk, hx] at e
        simp only [Kind.toVal, scale_normalize hlu, clip_id q1 q2, Option.some.injEq] at e
        exact e.symm
      rw [hk, hwq]
      simp [roundVal64, roundVal, asDouble, Kind.isFloat, Val.num?, rd_toValFlt, hr, decimal_round dq]
  · refine ⟨w, w, e, ?_, ?_⟩
    · rw [toVal64_toVec hw hm (fun lo hi hk => hf ⟨lo, hi, hk⟩) lv hv ex ex', e]
    · have : h.kind.isFloat = false := by
        cases hk : h.kind <;> simp [Kind.isFloat]
        exact hf ⟨_, _, hk⟩
      simp [roundVal64, roundVal, asDouble, this]

/-! ## Two configurations -/

/-- The doubles of cached values. -/
def dblVals (s : Space) (l : List (Name × Val)) : List (Name × Val) :=
  l.map (fun p => (p.1, match s.hp? p.1 with
    | some h => asDouble h.kind p.2
    | none => p.2))

structure SameVec (calls : List Call) (s : Space) (v v' : Vec) : Prop where
  len : v.length = s.len
  len' : v'.length = s.len
  same : SameV calls s v v'

structure SameCfg (calls : List Call) (s : Space) (c c' : Config) : Prop where
  vec : SameVec calls s c.vec c'.vec
  allow : c'.allow = c.allow
  vals : c'.vals = c.vals.map (dblVals s)
  /-- only known names are cached -/
  known : ∀ l, c.vals = some l → ∀ p ∈ l, p.1 ∈ s.names

theorem idx_inj (hr : Reach calls s) {g h : HP} (hg : g ∈ allHps calls) (hh : h ∈ allHps calls)
    (e : s.idx g.name = s.idx h.name) : g = h := by
  have h1 : g.name ∈ s.names := (reach_isNode hr _).2 ⟨g, hg, rfl⟩
  have h2 : h.name ∈ s.names := (reach_isNode hr _).2 ⟨h, hh, rfl⟩
  refine reach_hp_inj hr g hg h hh ?_
  have h3 : s.names.idxOf g.name = s.names.idxOf h.name := e
  have h4 := List.getElem?_idxOf h1
  have h5 := List.getElem?_idxOf h2
  rw [h3, h5] at h4
  simpa using h4.symm

theorem SameVec.set (hr : Reach calls s) {v v' : Vec} (h : SameVec calls s v v') {g : HP} (hg : g ∈ allHps calls)
    {e e' : NV} (he : Same g.kind e e') : SameVec calls s (v.set (s.idx g.name) e) (v'.set (s.idx g.name) e') := by
  have hi : s.idx g.name < s.len := idx_lt hr ((reach_isNode hr _).2 ⟨g, hg, rfl⟩)
  refine ⟨by simp [h.len], by simp [h.len'], ?_⟩
  intro x hx
  by_cases hxg : s.idx g.name = s.idx x.name
  · have := idx_inj hr hg hx hxg
    subst this
    rw [at_set_eq (by rw [h.len]; exact hi), at_set_eq (by rw [h.len']; exact hi)]
    exact he
  · rw [at_set_ne hxg, at_set_ne hxg]
    exact h.same x hx

theorem node_hp (hr : Reach calls s) {x : Node} (hx : x ∈ s.com) : x.hp ∈ allHps calls ∧ x.hp.name = x.name ∧
    s.hp? x.name = some x.hp := by
  have e : s.hp? x.name = some x.hp := by
    unfold Space.hp?
    rw [findNode_of_mem (reach_ninv hr).nodup hx]
    rfl
  obtain ⟨h1, h2⟩ := (hp_of hr).1 e
  exact ⟨h1, h2, e⟩

section Cfg
variable (hr : Reach calls s) (hp : Precise calls)
include hr hp

theorem dblVals_snoc {l : List (Name × Val)} {x : Node} (hx : x ∈ s.com) (w : Val) :
    dblVals s (l ++ [(x.name, w)]) = dblVals s l ++ [(x.name, asDouble x.hp.kind w)] := by
  unfold dblVals
  rw [List.map_append, List.map_singleton]
  simp only [(node_hp hr hx).2.2]

/-- The loop that fills the vector. -/
theorem fillValues64_same {d : Dict} (hd : WrittenDict calls d) : ∀ {xs : List Node} {v v' : Vec} {l : List (Name × Val)},
    (∀ x ∈ xs, x ∈ s.com) → SameVec calls s v v' → (∀ p ∈ l, p.1 ∈ s.names) →
    (∀ e, fillValues s d xs v l = .error e → fillValues64 s d xs v' (dblVals s l) = .error e) ∧
    (∀ r l2, fillValues s d xs v l = .ok (r, l2) → ∃ r', fillValues64 s d xs v' (dblVals s l) = .ok (r', dblVals s l2) ∧
      SameVec calls s r r' ∧ ∀ p ∈ l2, p.1 ∈ s.names)
  | [], v, v', l, _, hv, hl => by
    refine ⟨fun e he => by simp [fillValues] at he, fun r l2 he => ?_⟩
    simp only [fillValues, Except.ok.injEq, Prod.mk.injEq] at he
    obtain ⟨rfl, rfl⟩ := he
    exact ⟨v', rfl, hv, hl⟩
  | x :: xs, v, v', l, hx, hv, hl => by
    have hxc := hx x (by simp)
    obtain ⟨n1, n2, n3⟩ := node_hp hr hxc
    obtain ⟨g1, g2⟩ := Spec.Precise.good hr hp x.hp n1
    have hxs : ∀ y ∈ xs, y ∈ s.com := fun y hy => hx y (by simp [hy])
    have hset : ∀ {e e' : NV}, Same x.hp.kind e e' →
        SameVec calls s (v.set (s.idx x.name) e) (v'.set (s.idx x.name) e') := by
      intro e e' he
      have := hv.set hr n1 he
      rwa [n2] at this
    have hnone := fillValues64_same hd hxs (hset (.inl ⟨rfl, rfl⟩)) hl
    cases hlk : d.lookup x.name with
    | none =>
      simp only [fillValues, fillValues64, hlk]
      exact hnone
    | some o =>
      cases o with
      | none =>
        simp only [fillValues, fillValues64, hlk]
        exact hnone
      | some w =>
        have hw : Written x.hp.kind w := hd x.hp n1 w (by rw [n2]; exact hlk)
        simp only [fillValues, fillValues64, hlk, legalValue64_eq g2 hw]
        cases hleg : x.hp.kind.legalValue w with
        | false =>
          simp only [Bool.not_false, if_true]
          exact ⟨fun e he => he, fun r l2 he => by cases he⟩
        | true =>
          obtain ⟨r1, r2, r3, r4⟩ := roundVal64_eq g2 hleg hw
          obtain ⟨q, hq⟩ := legal_toVec r3
          obtain ⟨q', hq'⟩ := legal_toVec64 r3
          simp only [Bool.not_true, Bool.false_eq_true, if_false, hq, r2, hq']
          rw [r1, ← dblVals_snoc hr hp hxc]
          refine fillValues64_same hd hxs (hset (.inr ⟨_, q, q', r3, r4, hq, hq', rfl, rfl⟩)) ?_
          intro p hpm
          rcases List.mem_append.1 hpm with hpm | hpm
          · exact hl p hpm
          · simp only [List.mem_singleton] at hpm
            subst hpm
            exact mem_names hxc

theorem sameVec_none : SameVec calls s (List.replicate s.len none) (List.replicate s.len none) := by
  refine ⟨by simp, by simp, fun h _ => .inl ?_⟩
  have : Vec.at (List.replicate s.len none) (s.idx h.name) = none := by
    unfold Vec.at
    rw [List.getD_eq_getElem?_getD, List.getElem?_replicate]
    split <;> rfl
  exact ⟨this, this⟩

/-- `Configuration(space, values=d)` in double precision. -/
theorem ofValues64_same {d : Dict} (hd : WrittenDict calls d) (al : Bool) :
    (∀ e, Config.ofValues s d al = .error e → ofValues64 s d al = .error e) ∧
    (∀ c, Config.ofValues s d al = .ok c → ∃ c', ofValues64 s d al = .ok c' ∧ SameCfg calls s c c') := by
  have hi := sinv_of_reach hr
  obtain ⟨f1, f2⟩ := fillValues64_same hr hp hd (xs := s.dag.nodes) (l := []) (fun x hx => by rw [← hi.com]; exact hx)
    (sameVec_none hr hp) (by simp)
  have hnil : dblVals s [] = [] := rfl
  rw [hnil] at f1 f2
  unfold Config.ofValues ofValues64
  split
  · exact ⟨fun e he => he, fun c hc => by cases hc⟩
  · cases hf : fillValues s d s.dag.nodes (List.replicate s.len none) [] with
    | error e =>
      rw [f1 e hf]
      exact ⟨fun e he => he, fun c hc => by cases hc⟩
    | ok r =>
      obtain ⟨v, l⟩ := r
      obtain ⟨v', hv', hs, hl⟩ := f2 v l hf
      rw [hv']
      simp only [check64_same hr hp hs.same]
      cases s.check v al with
      | some e => exact ⟨fun e he => he, fun c hc => by cases hc⟩
      | none =>
        refine ⟨fun e he => (by cases he), fun c hc => ?_⟩
        simp only [Except.ok.injEq] at hc
        subst hc
        refine ⟨_, rfl, hs, rfl, rfl, ?_⟩
        intro l' hl'
        simp only [Option.some.injEq] at hl'
        subst hl'
        exact hl

theorem dblVals_lookup {l : List (Name × Val)} (n : Name) : (dblVals s l).lookup n = (l.lookup n).map (fun w =>
    match s.hp? n with
    | some h => asDouble h.kind w
    | none => w) := by
  unfold dblVals
  induction l with
  | nil => rfl
  | cons p l ih =>
    obtain ⟨m, w⟩ := p
    simp only [List.map_cons, List.lookup_cons]
    cases hnm : n == m with
    | true =>
      have : n = m := by simpa using hnm
      subst this
      rfl
    | false => exact ih

theorem dblVals_dictSet {l : List (Name × Val)} {h : HP} (hh : s.hp? h.name = some h) (w : Val) :
    dblVals s (dictSet l h.name w) = dictSet (dblVals s l) h.name (asDouble h.kind w) := by
  induction l with
  | nil => simp [dblVals, dictSet, hh]
  | cons p l ih =>
    obtain ⟨m, u⟩ := p
    simp only [dictSet]
    have e : dblVals s ((m, u) :: l) = (m, match s.hp? m with
      | some h => asDouble h.kind u
      | none => u) :: dblVals s l := rfl
    rw [e]
    simp only [dictSet]
    split
    · simp [dblVals, hh]
    · rw [← ih]
      rfl

theorem dictSet_mem {β : Type} {l : List (Name × β)} {n : Name} {w : β} {p : Name × β} (h : p ∈ dictSet l n w) :
    p ∈ l ∨ p = (n, w) := by
  induction l with
  | nil => simp only [dictSet, List.mem_singleton] at h; exact .inr h
  | cons q l ih =>
    obtain ⟨m, u⟩ := q
    simp only [dictSet] at h
    split at h
    · rcases List.mem_cons.1 h with rfl | h
      · exact .inr rfl
      · exact .inl (by simp [h])
    · rcases List.mem_cons.1 h with rfl | h
      · exact .inl (by simp)
      · rcases ih h with h | h
        · exact .inl (by simp [h])
        · exact .inr h

/-- Reading an item. -/
theorem getItem64_same {c c' : Config} (hc : SameCfg calls s c c') (n : Name) :
    SameCfg calls s (c.getItem s n).2 (getItem64 s c' n).2 ∧
    (∀ e, (c.getItem s n).1 = .error e → (getItem64 s c' n).1 = .error e) ∧
    (∀ w, (c.getItem s n).1 = .ok w → ∃ h ∈ allHps calls, h.name = n ∧ (getItem64 s c' n).1 = .ok (asDouble h.kind w)) := by
  have hi := sinv_of_reach hr
  have hlk : (c'.vals.getD []).lookup n = ((c.vals.getD []).lookup n).map (fun w =>
      match s.hp? n with
      | some h => asDouble h.kind w
      | none => w) := by
    rw [hc.vals]
    cases c.vals with
    | none => rfl
    | some l => exact dblVals_lookup hr hp n
  unfold Config.getItem getItem64
  rw [hlk]
  cases hw : (c.vals.getD []).lookup n with
  | some w =>
    have hn : n ∈ s.names := by
      cases hv : c.vals with
      | none => rw [hv] at hw; cases hw
      | some l =>
        rw [hv] at hw
        exact hc.known l hv (n, w) (mem_of_lookup hw)
    obtain ⟨h, hh, e⟩ := (reach_isNode hr n).1 hn
    simp only [Option.map_some, (hp_of hr).2 ⟨hh, e⟩]
    refine ⟨hc, fun e he => (by cases he), fun u hu => ?_⟩
    cases hu
    exact ⟨h, hh, e, rfl⟩
  | none =>
    simp only [Option.map_none]
    cases hf : findNode s.dag.nodes n with
    | none => exact ⟨hc, fun e he => he, fun u hu => by cases hu⟩
    | some x =>
      obtain ⟨hx, hxn⟩ := findNode_some hf
      rw [hi.com] at hx
      obtain ⟨n1, n2, n3⟩ := node_hp hr hx
      rw [hxn] at n2 n3
      obtain ⟨g1, g2⟩ := Spec.Precise.good hr hp x.hp n1
      have hsame := hc.vec.same x.hp n1
      rw [n2] at hsame
      simp only
      rcases hsame with ⟨e1, e2⟩ | ⟨w, y, y', lw, ww, ey, ey', e1, e2⟩
      · rw [e1, e2]
        exact ⟨hc, fun e he => he, fun u hu => by cases hu⟩
      · rw [e1, e2]
        obtain ⟨u, u', t1, t2, t3⟩ := read64 g1 g2 lw ww ey ey'
        simp only [t1, t2, t3]
        refine ⟨⟨hc.vec, hc.allow, ?_, ?_⟩, fun e he => (by cases he), fun z hz => ?_⟩
        · simp only [Option.map_some]
          have hd := dblVals_dictSet hr hp (l := c.vals.getD []) (h := x.hp) (by rw [n2]; exact n3) (roundVal x.hp.kind u)
          rw [n2] at hd
          rw [hd, hc.vals]
          cases c.vals <;> rfl
        · intro l hl p hpm
          simp only [Option.some.injEq] at hl
          subst hl
          rcases dictSet_mem hr hp hpm with hpm | rfl
          · cases hv : c.vals with
            | none => rw [hv] at hpm; cases hpm
            | some l => rw [hv] at hpm; exact hc.known l hv p hpm
          · exact (reach_isNode hr n).2 ⟨x.hp, n1, n2⟩
        · cases hz
          exact ⟨x.hp, n1, n2, rfl⟩

theorem defVecs64_eq {h : HP} (hh : h ∈ allHps calls) :
    (s.com.map (fun x => defVec64 x.hp)).getD (s.idx h.name) 0 = defVec64 h := by
  have hn := reach_ninv hr
  have hp' := (hp_of hr).2 ⟨hh, rfl⟩
  unfold Space.hp? at hp'
  cases hf : findNode s.com h.name with
  | none => simp [hf] at hp'
  | some y =>
    simp [hf] at hp'
    obtain ⟨hy, e⟩ := findNode_some hf
    obtain ⟨i, hi⟩ := List.getElem?_of_mem hy
    have hidx : s.idx h.name = i := by
      refine idx_unique hn.nodup ?_
      simp [namesOf, List.getElem?_map, hi, e]
    simp [hidx, List.getD_eq_getElem?_getD, List.getElem?_map, hi, hp']

/-- The two default entries belong together. -/
theorem default_same {h : HP} (hh : h ∈ allHps calls) : Same h.kind (some h.defVec) (some (defVec64 h)) := by
  have hwf := (reach_wf hr).1 h hh
  have hl := HP.wf_legal hwf
  obtain ⟨q, hq⟩ := legal_toVec hl
  obtain ⟨q', hq'⟩ := legal_toVec64 hl
  refine .inr ⟨h.default, q, q', hl, written_default hwf, hq, hq', ?_, ?_⟩
  · simp [HP.defVec, hq]
  · simp [defVec64, hq']

/-- One group of `change_hp_value`. -/
theorem applyCNode64_same {v v' : Vec} (hv : SameVec calls s v v') {c : CNode} (hc : c ∈ s.minConds) :
    SameVec calls s (applyCNode s v c) (applyCNode64 s v' c) := by
  obtain ⟨h1, h2⟩ := minConds_known hr hc
  unfold applyCNode applyCNode64
  rw [cond64_same hr hp hv.same h1]
  split
  · suffices H : ∀ (ks : List Name) (w w' : Vec), (∀ n ∈ ks, n ∈ s.names) → SameVec calls s w w' → SameVec calls s
        (ks.foldl (fun acc n => if isSet (v.at (s.idx n)) then acc
          else acc.set (s.idx n) (some ((defaultVecs s.com).getD (s.idx n) 0))) w)
        (ks.foldl (fun acc n => if isSet (v'.at (s.idx n)) then acc
          else acc.set (s.idx n) (some ((s.com.map (fun x => defVec64 x.hp)).getD (s.idx n) 0))) w') from H _ _ _ h2 hv
    intro ks
    induction ks with
    | nil => exact fun w w' _ h => h
    | cons n ks ih =>
      intro w w' hk hw
      rw [List.foldl_cons, List.foldl_cons]
      refine ih _ _ (fun m hm => hk m (by simp [hm])) ?_
      rw [isSet_same hr hp hv.same (hk n (by simp))]
      split
      · exact hw
      · obtain ⟨h, hh, e⟩ := (reach_isNode hr n).1 (hk n (by simp))
        subst e
        rw [defVecs64_eq hr hp hh]
        have := defAt_eq hr hh
        unfold defAt at this
        rw [this]
        exact hw.set hr hh (default_same hr hp hh)
  · suffices H : ∀ (ks : List Name) (w w' : Vec), (∀ n ∈ ks, n ∈ s.names) → SameVec calls s w w' → SameVec calls s
        (ks.foldl (fun acc n => acc.set (s.idx n) none) w) (ks.foldl (fun acc n => acc.set (s.idx n) none) w')
        from H _ _ _ h2 hv
    intro ks
    induction ks with
    | nil => exact fun w w' _ h => h
    | cons n ks ih =>
      intro w w' hk hw
      rw [List.foldl_cons, List.foldl_cons]
      refine ih _ _ (fun m hm => hk m (by simp [hm])) ?_
      obtain ⟨h, hh, e⟩ := (reach_isNode hr n).1 (hk n (by simp))
      subst e
      exact hw.set hr hh (.inl ⟨rfl, rfl⟩)

/-- `change_hp_value`. -/
theorem changeHp64_same {v v' : Vec} (hv : SameVec calls s v v') {h : HP} (hh : h ∈ allHps calls) {q q' : Rat}
    (hq : Same h.kind (some q) (some q')) :
    SameVec calls s (s.changeHp v h.name q (s.idx h.name)) (changeHp64 s v' h.name q' (s.idx h.name)) := by
  unfold Space.changeHp changeHp64
  generalize (s.lookup.lookup h.name).getD [] = js
  have h0 : SameVec calls s (v.set (s.idx h.name) (some q)) (v'.set (s.idx h.name) (some q')) := hv.set hr hh hq
  generalize v.set (s.idx h.name) (some q) = w at h0 ⊢
  generalize v'.set (s.idx h.name) (some q') = w' at h0 ⊢
  induction js generalizing w w' with
  | nil => exact h0
  | cons j js ih =>
    rw [List.foldl_cons, List.foldl_cons]
    refine ih _ _ ?_
    cases hj : s.minConds[j]? with
    | none => exact h0
    | some c => exact applyCNode64_same hr hp h0 (List.mem_of_getElem? hj)

/-- Assigning an item. -/
theorem setItem64_same {c c' : Config} (hc : SameCfg calls s c c') {n : Name} {w : Val}
    (hw : ∀ h ∈ allHps calls, h.name = n → Written h.kind w) :
    SameCfg calls s (c.setItem s n w).1 (setItem64 s c' n w).1 ∧ (setItem64 s c' n w).2 = (c.setItem s n w).2 := by
  have hi := sinv_of_reach hr
  unfold Config.setItem setItem64
  cases hf : findNode s.dag.nodes n with
  | none => exact ⟨hc, rfl⟩
  | some x =>
    obtain ⟨hx, hxn⟩ := findNode_some hf
    rw [hi.com] at hx
    obtain ⟨n1, n2, n3⟩ := node_hp hr hx
    rw [hxn] at n2
    subst n2
    obtain ⟨g1, g2⟩ := Spec.Precise.good hr hp x.hp n1
    have hww := hw x.hp n1 rfl
    simp only [legalValue64_eq g2 hww]
    cases hleg : x.hp.kind.legalValue w with
    | false => exact ⟨hc, rfl⟩
    | true =>
      obtain ⟨q, hq⟩ := legal_toVec hleg
      obtain ⟨q', hq'⟩ := legal_toVec64 hleg
      simp only [Bool.not_true, Bool.false_eq_true, if_false, hq, hq']
      have hv := changeHp64_same hr hp hc.vec n1 (q := q) (q' := q') (.inr ⟨w, q, q', hleg, hww, hq, hq', rfl, rfl⟩)
      rw [check64_same hr hp hv.same]
      cases s.check (s.changeHp c.vec x.hp.name q (s.idx x.hp.name)) false with
      | some e => exact ⟨hc, rfl⟩
      | none => exact ⟨⟨hv, hc.allow, rfl, fun l hl => by cases hl⟩, rfl⟩

/-- A whole session. -/
theorem session_same : ∀ {steps : List Step} {c c' : Config}, SameCfg calls s c c' → WrittenSteps calls steps →
    List.Forall₂ (Seen.double calls) (session (fun c => c.setItem s) (fun c => c.getItem s) c steps)
      (session (setItem64 s) (getItem64 s) c' steps)
  | [], _, _, _, _ => .nil
  | .set n w :: rest, c, c', hc, hs => by
    obtain ⟨h1, h2⟩ := setItem64_same hr hp hc (n := n) (w := w) (fun h hh e => hs n w (by simp) h hh e)
    exact .cons h2 (session_same h1 (fun m u hm => hs m u (by simp [hm])))
  | .get n :: rest, c, c', hc, hs => by
    obtain ⟨h1, h2, h3⟩ := getItem64_same hr hp hc n
    refine .cons ?_ (session_same h1 (fun m u hm => hs m u (by simp [hm])))
    cases hg : (c.getItem s n).1 with
    | error e => rw [h2 e hg]; exact ⟨rfl, rfl⟩
    | ok w =>
      obtain ⟨h, hh, e, hw⟩ := h3 w hg
      rw [hw]
      exact ⟨rfl, h, hh, e, rfl⟩

end Cfg

end Verif.F64
