import Verif.Lemmas.Grid
import Verif.Props.Deactivate

/-!
# Grid points as configurations
-/

set_option autoImplicit false

namespace Verif
open Verif.Spec

variable {calls : List Call} {s : Space}

/-! ## Values -/

theorem linspace_eq (l u : Rat) (n : Nat) : linspace l u n = (List.range n).map (gridPoint l u n) := rfl

theorem valueSet_iff {steps : List (Name × Nat)} {x : HP} {vs : List Val} (h : valueSet steps x = .ok vs) (w : Val) :
    w ∈ vs ↔ GridValue steps x w := by
  unfold valueSet at h
  unfold GridValue
  cases hk : x.kind with
  | cat cs => rw [hk] at h; cases h; rfl
  | ord cs => rw [hk] at h; cases h; rfl
  | const c => rw [hk] at h; cases h; simp
  | flt l u =>
    rw [hk] at h
    simp only at h
    split at h
    · cases h
    · cases h
    · rename_i n _ hn
      cases h
      rw [linspace_eq]
      simp only [List.mem_map, List.mem_range]
      constructor
      · rintro ⟨_, ⟨i, hi, rfl⟩, rfl⟩
        exact ⟨n, hn, i, hi, rfl⟩
      · rintro ⟨m, hm, i, hi, rfl⟩
        rw [hn] at hm; cases hm
        exact ⟨_, ⟨i, hi, rfl⟩, rfl⟩
  | int l u =>
    rw [hk] at h
    simp only at h
    split at h
    · cases h
    · cases h
    · rename_i n _ hn
      cases h
      rw [linspace_eq]
      simp only [List.mem_map, List.mem_range]
      constructor
      · rintro ⟨_, ⟨i, hi, rfl⟩, rfl⟩
        exact ⟨n, hn, i, hi, rfl⟩
      · rintro ⟨m, hm, i, hi, rfl⟩
        rw [hn] at hm; cases hm
        exact ⟨_, ⟨i, hi, rfl⟩, rfl⟩

theorem valueSet_total {steps : List (Name × Nat)} {x : HP} (h : StepsGiven steps x) : ∃ vs, valueSet steps x = .ok vs := by
  unfold valueSet
  rcases h with ⟨cs, h⟩ | ⟨cs, h⟩ | ⟨c, h⟩ | ⟨n, hn⟩
  · rw [h]; exact ⟨_, rfl⟩
  · rw [h]; exact ⟨_, rfl⟩
  · rw [h]; exact ⟨_, rfl⟩
  · cases hk : x.kind with
    | cat cs => exact ⟨_, rfl⟩
    | ord cs => exact ⟨_, rfl⟩
    | const c => exact ⟨_, rfl⟩
    | flt l u => simp only [hn]; exact ⟨_, rfl⟩
    | int l u => simp only [hn]; exact ⟨_, rfl⟩

theorem valueSet_length {steps : List (Name × Nat)} {x : HP} {vs : List Val} (h : valueSet steps x = .ok vs) :
    vs.length = gridCount steps x := by
  unfold valueSet at h
  unfold gridCount
  cases hk : x.kind with
  | cat cs => rw [hk] at h; cases h; rfl
  | ord cs => rw [hk] at h; cases h; rfl
  | const c => rw [hk] at h; cases h; rfl
  | flt l u =>
    rw [hk] at h
    simp only at h
    split at h
    · cases h
    · cases h
    · rename_i n _ hn
      cases h
      simp [linspace, hn]
  | int l u =>
    rw [hk] at h
    simp only at h
    split at h
    · cases h
    · cases h
    · rename_i n _ hn
      cases h
      simp [linspace, hn]

theorem gridPoint_range {l u : Rat} (hlu : l ≤ u) {n i : Nat} (hi : i < n) :
    l ≤ gridPoint l u n i ∧ gridPoint l u n i ≤ u := by
  unfold gridPoint
  rcases Nat.lt_or_ge 1 n with h1 | h1
  · have hn : (0 : Rat) < (n : Rat) - 1 := by
      have : (1 : Rat) < (n : Rat) := by exact_mod_cast h1
      linarith
    have hi' : (i : Rat) ≤ (n : Rat) - 1 := by
      have : (i : Rat) + 1 ≤ (n : Rat) := by exact_mod_cast hi
      linarith
    have hd : 0 ≤ (u - l) / ((n : Rat) - 1) := div_nonneg (by linarith) hn.le
    have h0 : (0 : Rat) ≤ (i : Rat) := by positivity
    constructor
    · have := mul_nonneg h0 hd; linarith
    · have := mul_le_mul_of_nonneg_right hi' hd
      rw [mul_div_cancel₀ _ hn.ne'] at this
      linarith
  · have : n = 1 := by omega
    have : i = 0 := by omega
    subst this
    simp [hlu]

theorem gridValue_legal {steps : List (Name × Nat)} {x : HP} (hw : x.wf = true) {w : Val} (h : GridValue steps x w) :
    x.kind.legalValue w = true ∧ ExactInt x.kind w := by
  unfold GridValue at h
  cases hk : x.kind with
  | cat cs =>
    rw [hk] at h
    refine ⟨?_, by intro l u e; cases e⟩
    simp only [Kind.legalValue]
    exact List.any_eq_true.mpr ⟨w, h, Val.pyEq_refl w⟩
  | ord cs =>
    rw [hk] at h
    refine ⟨?_, by intro l u e; cases e⟩
    simp only [Kind.legalValue]
    exact List.any_eq_true.mpr ⟨w, h, Val.pyEq_refl w⟩
  | const c =>
    rw [hk] at h
    refine ⟨?_, by intro l u e; cases e⟩
    subst h
    simp only [Kind.legalValue]
    exact Val.pyEq_refl _
  | flt l u =>
    rw [hk] at h
    obtain ⟨n, _, i, hi, rfl⟩ := h
    have hlu := HP.wf_flt hw hk
    obtain ⟨h1, h2⟩ := gridPoint_range hlu.le hi
    refine ⟨?_, by intro l u e; cases e⟩
    simp [Kind.legalValue, Val.num?, h1, h2]
  | int l u =>
    rw [hk] at h
    obtain ⟨n, _, i, hi, rfl⟩ := h
    have hlu := HP.wf_int hw hk
    obtain ⟨h1, h2⟩ := gridPoint_range (l := (l : Rat)) (u := (u : Rat)) hlu.le hi
    have h1 := rint_mono h1
    have h2 := rint_mono h2
    rw [rint_int] at h1 h2
    refine ⟨?_, ?_⟩
    · simp [Kind.legalValue, Val.num?, rint_int, closeToInt_int, h1, h2]
    · intro l' u' _
      exact ⟨_, rfl⟩

/-! ## The vector of a point -/

/-- `v` is the vector of the point `pt`. -/
structure PtVec (s : Space) (steps : List (Name × Nat)) (pt : Dict) (v : Vec) : Prop where
  len : v.length = s.len
  ent : ∀ x ∈ s.com, (∃ w q, pt.lookup x.name = some (some w) ∧ GridValue steps x.hp w ∧
      x.hp.kind.toVec (roundVal x.hp.kind w) = some q ∧ v.at (s.idx x.name) = some q) ∨
    (pt.lookup x.name = none ∧ v.at (s.idx x.name) = none)

theorem ptOk_lookup (h : Reach calls s) {steps : List (Name × Nat)} {pt : Dict} (hpt : PtOk s steps pt) {x : Node}
    (hx : x ∈ s.com) : (∃ w, pt.lookup x.name = some (some w) ∧ GridValue steps x.hp w) ∨ pt.lookup x.name = none := by
  cases hl : pt.lookup x.name with
  | none => exact .inr rfl
  | some o =>
    obtain ⟨y, hy, hyn, w, vs, h1, h2, h3⟩ := hpt.ent _ (lookup_mem hl)
    have : y = x := by
      have e1 := findNode_of_mem (reach_ninv h).nodup hy
      have e2 := findNode_of_mem (reach_ninv h).nodup hx
      rw [show y.name = x.name from hyn, e2] at e1
      cases e1
      rfl
    subst this
    simp only at h1
    subst h1
    exact .inl ⟨w, rfl, (valueSet_iff h2 w).1 h3⟩

theorem node_eq (h : Reach calls s) {x y : Node} (hx : x ∈ s.com) (hy : y ∈ s.com) (e : x.name = y.name) : x = y := by
  have e1 := findNode_of_mem (reach_ninv h).nodup hy
  have e2 := findNode_of_mem (reach_ninv h).nodup hx
  rw [e, e1] at e2
  cases e2
  rfl

theorem at_map (h : Reach calls s) (f : Node → NV) {x : Node} (hx : x ∈ s.com) :
    Vec.at (s.com.map f) (s.idx x.name) = f x := by
  obtain ⟨i, hi⟩ := List.mem_iff_getElem?.1 hx
  have : At s.names i x.name := by
    unfold At
    simp [Space.names, hi]
  have e := idx_unique (reach_ninv h).nodup this
  have e' : s.idx x.name = i := e
  rw [e']
  unfold Vec.at
  rw [List.getD_eq_getElem?_getD, List.getElem?_map, hi]
  rfl

theorem gridValue_enc {steps : List (Name × Nat)} {x : HP} (hw : x.wf = true) {w : Val} (h : GridValue steps x w) :
    ∃ q, x.kind.toVec (roundVal x.kind w) = some q ∧ x.kind.legalVec q = true := by
  obtain ⟨h1, h2⟩ := gridValue_legal hw h
  have h3 := roundVal_legal hw h1
  obtain ⟨q, hq⟩ := legal_toVec h3
  exact ⟨q, hq, toVec_legal hw h3 hq (roundVal_exact h2)⟩

theorem ptVec_exists (h : Reach calls s) {steps : List (Name × Nat)} {pt : Dict} (hpt : PtOk s steps pt) :
    ∃ v, PtVec s steps pt v := by
  have hi := sinv_of_reach h
  refine ⟨s.com.map (fun x => match pt.lookup x.name with
    | some (some w) => x.hp.kind.toVec (roundVal x.hp.kind w)
    | _ => none), by simp [hi.len], ?_⟩
  intro x hx
  rw [at_map h _ hx]
  rcases ptOk_lookup h hpt hx with ⟨w, h1, h2⟩ | h1
  · obtain ⟨q, hq, _⟩ := gridValue_enc (node_wf h hx) h2
    exact .inl ⟨w, q, h1, h2, hq, by rw [h1]; exact hq⟩
  · exact .inr ⟨h1, by rw [h1]⟩

theorem ptOk_names (h : Reach calls s) {steps : List (Name × Nat)} {pt : Dict} (hpt : PtOk s steps pt) :
    ∀ kv ∈ pt, kv.1 ∈ s.names := by
  intro kv hkv
  obtain ⟨x, hx, hxn, _⟩ := hpt.ent kv hkv
  rw [← hxn]
  exact mem_names hx

theorem ofValues_pt (h : Reach calls s) {steps : List (Name × Nat)} {pt : Dict} (hpt : PtOk s steps pt) {v : Vec}
    (hv : PtVec s steps pt v) : ∃ vals, Config.ofValues s pt = (match s.check v with
        | some e => .error e
        | none => .ok ⟨v, some vals, false⟩) ∧
      ∀ x ∈ s.com, Filled pt x (v.at (s.idx x.name)) (vals.lookup x.name) := by
  obtain ⟨vals, h1, h2, _⟩ := ofValues_eq h (d := pt) (v := v) (ptOk_names h hpt) hv.len (by
    intro x hx
    rcases hv.ent x hx with ⟨w, q, k1, k2, k3, k4⟩ | ⟨k1, k2⟩
    · exact .inl ⟨w, q, k1, (gridValue_legal (node_wf h hx) k2).1, k3, k4⟩
    · exact .inr ⟨.inl k1, k2⟩) false
  exact ⟨vals, h1, h2⟩

theorem asg_node {v : Vec} (x : Node) : asg s.idx v x.name = v.at (s.idx x.name) := rfl

theorem ptVec_legal (h : Reach calls s) {steps : List (Name × Nat)} {pt : Dict} {v : Vec} (hv : PtVec s steps pt v) :
    LegalAll calls (asg s.idx v) := by
  intro y hy q hq
  obtain ⟨x, hx, rfl⟩ := node_of_hp h hy
  rw [show x.hp.name = x.name from rfl, asg_node] at hq
  rcases hv.ent x hx with ⟨w, q', _, k2, k3, k4⟩ | ⟨_, k2⟩
  · rw [k4] at hq
    cases hq
    obtain ⟨q2, m1, m2⟩ := gridValue_enc (node_wf h hx) k2
    rw [k3] at m1
    cases m1
    exact m2
  · rw [k2] at hq; cases hq

/-! ## Conditions on partial points -/

theorem satValAll_ok {d : Dict} {idx : Name → Nat} {v : Vec} : ∀ {cs : List Cond} {b : Bool},
    (∀ c ∈ cs, ∀ b, c.satVal d = .ok b → c.satVec idx v = b) → Cond.satValAll d cs = .ok b →
    Cond.satVecAll idx v cs = b := by
  intro cs
  induction cs with
  | nil => intro b _ h; simp [Cond.satValAll] at h; simp [Cond.satVecAll, h]
  | cons c cs ih =>
    intro b hall h
    simp only [Cond.satValAll] at h
    simp only [Cond.satVecAll]
    cases hc : c.satVal d with
    | error e => simp [hc, bind, Except.bind] at h
    | ok b1 =>
      have h1 := hall c (by simp) b1 hc
      rw [hc] at h
      cases b1 with
      | false => simp [bind, Except.bind] at h; subst h; rw [h1]; rfl
      | true =>
        simp only [bind, Except.bind] at h
        have := ih (b := b) (fun c hc => hall c (List.mem_cons_of_mem _ hc)) (by simpa using h)
        rw [h1, this]; simp

theorem satValAny_ok {d : Dict} {idx : Name → Nat} {v : Vec} : ∀ {cs : List Cond} {b : Bool},
    (∀ c ∈ cs, ∀ b, c.satVal d = .ok b → c.satVec idx v = b) → Cond.satValAny d cs = .ok b →
    Cond.satVecAny idx v cs = b := by
  intro cs
  induction cs with
  | nil => intro b _ h; simp [Cond.satValAny] at h; simp [Cond.satVecAny, h]
  | cons c cs ih =>
    intro b hall h
    simp only [Cond.satValAny] at h
    simp only [Cond.satVecAny]
    cases hc : c.satVal d with
    | error e => simp [hc, bind, Except.bind] at h
    | ok b1 =>
      have h1 := hall c (by simp) b1 hc
      rw [hc] at h
      cases b1 with
      | true => simp [bind, Except.bind] at h; subst h; rw [h1]; rfl
      | false =>
        simp only [bind, Except.bind] at h
        have := ih (b := b) (fun c hc => hall c (List.mem_cons_of_mem _ hc)) (by simpa using h)
        rw [h1, this]; simp

/-- If the literals that can be evaluated agree with the vector, so does the condition, if it can be evaluated. -/
theorem cond_satVal_ok {d : Dict} {idx : Name → Nat} {v : Vec} (c : Cond)
    (h : ∀ l ∈ c.dlcs, ∀ b, l.satVal d = .ok b → l.test.onEntry (v.at (idx l.parent.name)) = b) :
    ∀ b, c.satVal d = .ok b → c.satVec idx v = b := by
  induction c using Cond.induct with
  | hl l => intro b hb; simp only [Cond.satVal] at hb; simpa [Cond.satVec] using h l (by simp [Cond.dlcs]) b hb
  | ha cs ih =>
    intro b hb
    simp only [Cond.satVal] at hb
    simp only [Cond.satVec]
    exact satValAll_ok (fun c hc => ih c hc (fun l hl => h l (by rw [Cond.dlcs]; exact mem_dlcsL.2 ⟨c, hc, hl⟩))) hb
  | ho cs ih =>
    intro b hb
    simp only [Cond.satVal] at hb
    simp only [Cond.satVec]
    exact satValAny_ok (fun c hc => ih c hc (fun l hl => h l (by rw [Cond.dlcs]; exact mem_dlcsL.2 ⟨c, hc, hl⟩))) hb

/-- A literal that can be evaluated on the point agrees with every vector that extends the point. -/
theorem lit_satVal_ok (h : Reach calls s) (hoc : OwnConds calls) {steps : List (Name × Nat)}
    (hex : ∀ x ∈ allHps calls, ∀ w, GridValue steps x w → roundVal x.kind w = w)
    {pt : Dict} {v w : Vec} (hv : PtVec s steps pt v)
    (hw : ∀ x ∈ s.com, ∀ q, v.at (s.idx x.name) = some q → w.at (s.idx x.name) = some q)
    {c : Cond} (hc : c ∈ allConds calls) {l : Lit} (hl : l ∈ c.dlcs) :
    (pt.lookup l.parent.name ≠ none → l.satVal pt = .ok (l.test.onEntry (w.at (s.idx l.parent.name)))) ∧
    ∀ b, l.satVal pt = .ok b → l.test.onEntry (w.at (s.idx l.parent.name)) = b := by
  obtain ⟨x, hx, hxp⟩ := node_of_hp h (hoc c hc l hl).1
  have hlw : l.wf = true := wf0_lit (by
    have := (reach_wf h).2.1 c hc
    simp only [Cond.wf, Bool.and_eq_true] at this
    exact this.1) l hl
  have hxn : l.parent.name = x.name := by rw [← hxp]; rfl
  have key : pt.lookup l.parent.name ≠ none → l.satVal pt = .ok (l.test.onEntry (w.at (s.idx l.parent.name))) := by
    intro hne
    rcases hv.ent x hx with ⟨u, q, k1, k2, k3, k4⟩ | ⟨k1, _⟩
    · rw [hex x.hp (node_hp h hx) u k2] at k3
      refine lit_satVal hlw (.inr ⟨u, q, by rw [hxn]; exact k1, ?_, ?_, by rw [hxn]; exact hw x hx q k4⟩) ?_
      · rw [← hxp]; exact (gridValue_legal (node_wf h hx) k2).1
      · rw [← hxp]; exact k3
      · intro _; exact ⟨u, by rw [hxn]; exact k1⟩
    · rw [hxn] at hne; exact absurd k1 hne
  refine ⟨key, ?_⟩
  intro b hb
  by_cases hne : pt.lookup l.parent.name = none
  · simp [Lit.satVal, Dict.get, hne, bind, Except.bind] at hb
  · rw [key hne] at hb
    cases hb
    rfl

theorem cond_point_ok (h : Reach calls s) (hoc : OwnConds calls) {steps : List (Name × Nat)}
    (hex : ∀ x ∈ allHps calls, ∀ w, GridValue steps x w → roundVal x.kind w = w)
    {pt : Dict} {v w : Vec} (hv : PtVec s steps pt v)
    (hw : ∀ x ∈ s.com, ∀ q, v.at (s.idx x.name) = some q → w.at (s.idx x.name) = some q)
    {c : Cond} (hc : c ∈ allConds calls) :
    ((∀ p ∈ c.parents, pt.lookup p ≠ none) → c.satVal pt = .ok (c.satVec s.idx w)) ∧
    ∀ b, c.satVal pt = .ok b → c.satVec s.idx w = b := by
  constructor
  · intro hall
    refine cond_satVal c (fun l hl => (lit_satVal_ok h hoc hex hv hw hc hl).1 (hall _ (parents_iff.2 ⟨l, hl, rfl⟩)))
  · exact cond_satVal_ok c (fun l hl => (lit_satVal_ok h hoc hex hv hw hc hl).2)

/-! ## What the validator says about a point -/

theorem checkConds_cases {v : Vec} : ∀ {gs : List CNode} {e : Err}, checkConds s v false gs = some e →
    (∃ g ∈ gs, g.cond.satVec s.idx v = true ∧ ∃ n ∈ g.kids, v.at (s.idx n) = none ∧ e = .activeNotSet n) ∨
    (∃ g ∈ gs, g.cond.satVec s.idx v = true ∧ ∃ n ∈ g.kids, s.legalAt v n = false ∧ isSet (v.at (s.idx n)) = true) ∨
    (∃ g ∈ gs, g.cond.satVec s.idx v = false ∧ ∃ n ∈ g.kids, isSet (v.at (s.idx n)) = true) := by
  intro gs
  induction gs with
  | nil => intro e h; cases h
  | cons g gs ih =>
    intro e h
    unfold checkConds at h
    have lift : ∀ {e}, checkConds s v false gs = some e → _ := fun {e} hh => ih (e := e) hh
    split at h
    · rename_i hsat
      split at h
      · rename_i n hn
        cases h
        unfold firstWith at hn
        have m1 := List.mem_of_find?_eq_some hn
        have m2 := List.find?_some hn
        refine .inl ⟨g, by simp, hsat, n, m1, ?_, rfl⟩
        cases hv : v.at (s.idx n) with
        | none => rfl
        | some q => rw [hv] at m2; cases m2
      · rename_i hnone
        split at h
        · rename_i n hn
          have m1 := List.mem_of_find?_eq_some hn
          have m2 := List.find?_some hn
          refine .inr (.inl ⟨g, by simp, hsat, n, m1, by simpa using m2, ?_⟩)
          have := firstWith_none.1 hnone n m1
          simpa using this
        · rcases ih h with ⟨g, hg, k⟩ | ⟨g, hg, k⟩ | ⟨g, hg, k⟩
          · exact .inl ⟨g, List.mem_cons_of_mem _ hg, k⟩
          · exact .inr (.inl ⟨g, List.mem_cons_of_mem _ hg, k⟩)
          · exact .inr (.inr ⟨g, List.mem_cons_of_mem _ hg, k⟩)
    · rename_i hsat
      simp only [Bool.false_eq_true, if_false] at h
      split at h
      · rename_i n hn
        unfold firstWith at hn
        have m1 := List.mem_of_find?_eq_some hn
        have m2 := List.find?_some hn
        exact .inr (.inr ⟨g, by simp, by simpa using hsat, n, m1, m2⟩)
      · rcases ih h with ⟨g, hg, k⟩ | ⟨g, hg, k⟩ | ⟨g, hg, k⟩
        · exact .inl ⟨g, List.mem_cons_of_mem _ hg, k⟩
        · exact .inr (.inl ⟨g, List.mem_cons_of_mem _ hg, k⟩)
        · exact .inr (.inr ⟨g, List.mem_cons_of_mem _ hg, k⟩)

/-- If the roots are set, all values are legal, and the set conditional hyperparameters are active, then only a clause or
an unset active hyperparameter can be the reason for an exception. -/
theorem check_cases (h : Reach calls s) (hsep : Separable calls) {v : Vec} {a : Assign} (hv : Represents s v a)
    (hr : RootsSet calls a) (hl : LegalAll calls a)
    (hact : ∀ x ∈ s.com, ∀ c, x.cond = some c → a x.name ≠ none → Holds a c) :
    s.check v = none ∨ s.check v = some .forbidden ∨
      ∃ x ∈ s.com, ∃ c, x.cond = some c ∧ Holds a c ∧ a x.name = none ∧ s.check v = some (.activeNotSet x.name) := by
  have hi := sinv_of_reach h
  have hg := groupsOk_sorted s.com
  rw [← hi.mins] at hg
  have hmean : ∀ g ∈ s.minConds, ∀ c ∈ allConds calls,
      (g.cond = c ∨ g.cond.equivOnParent c = true) → (g.cond.satVec s.idx v = true ↔ Holds a c) := by
    intro g hgm c hc he
    obtain ⟨y, hy, _, hyc⟩ := hg.leader g hgm
    obtain ⟨k1, _, _⟩ := node_cond h hy hyc
    rw [holds_represents h hv k1]
    rcases he with rfl | he
    · rfl
    · exact hsep _ k1 _ hc he a
  have hroots := (rootsSet_iff h hv).2 hr
  unfold Space.check
  rw [hroots]
  simp only
  cases hc : checkConds s v false s.minConds with
  | none =>
    simp only
    split
    · exact .inr (.inl rfl)
    · exact .inl rfl
  | some e =>
    simp only [reduceCtorEq, false_or]
    rcases checkConds_cases hc with ⟨g, hgm, hsat, n, hn, hun, rfl⟩ | ⟨g, hgm, hsat, n, hn, hill, hset⟩ |
      ⟨g, hgm, hsat, n, hn, hset⟩
    · obtain ⟨x, hx, rfl, c, hcx, he⟩ := hg.members g hgm n hn
      obtain ⟨m1, _, _⟩ := node_cond h hx hcx
      refine .inr ⟨x, hx, c, hcx, (hmean g hgm c m1 he).1 hsat, ?_, rfl⟩
      rw [← at_idx hv (mem_names hx)]
      exact hun
    · obtain ⟨x, hx, rfl, c, hcx, he⟩ := hg.members g hgm n hn
      exfalso
      have : s.legalAt v x.name = true := by
        rw [legalAt_iff h hv (mem_names hx)]
        rw [at_idx hv (mem_names hx)] at hset
        constructor
        · cases ha : a x.name with
          | none => rw [ha] at hset; cases hset
          | some q => exact ⟨q, rfl⟩
        · intro y hy e q hq
          exact hl y hy q (by rw [e]; exact hq)
      rw [this] at hill
      cases hill
    · obtain ⟨x, hx, rfl, c, hcx, he⟩ := hg.members g hgm n hn
      obtain ⟨m1, _, _⟩ := node_cond h hx hcx
      exfalso
      rw [at_idx hv (mem_names hx)] at hset
      have := hact x hx c hcx (by intro e; rw [e] at hset; cases hset)
      rw [(hmean g hgm c m1 he).2 this] at hsat
      cases hsat

/-- A valid assignment that extends another one with the right activity is equal to it. -/
theorem restricts_unique (h : Reach calls s) {a b : Assign} (hb : Restricts b a) (hra : RootsSet calls b)
    (hba : ActivityOk calls b) (haa : ActivityOk calls a) : ∀ x ∈ s.com, b x.name = a x.name := by
  have hn := reach_ninv h
  have key : ∀ (d : Nat) (x : Node), x ∈ s.com → depthOf s.com x.name < d → b x.name = a x.name := by
    intro d
    induction d with
    | zero => intro x _ hd; exact absurd hd (Nat.not_lt_zero _)
    | succ d ih =>
      intro x hx hd
      cases hb' : b x.name with
      | some q => exact (hb _ _ hb').symm
      | none =>
        by_cases hc : Conditional calls x.name
        · obtain ⟨c, hc, hcn⟩ := hc
          have hnot : ¬ Holds b c := by
            intro hh
            obtain ⟨q, hq⟩ := (hba c hc _ hcn).2 hh
            rw [hb'] at hq
            cases hq
          have hcongr := holds_congr (a := b) (b := a) c (by
            intro p hp
            have he : Edge s.com p x.name := (reach_edge h p x.name).2 ⟨c, hc, hcn, parents_iff.1 hp⟩
            have hlt := hn.good _ _ he
            obtain ⟨y, hy, rfl⟩ := List.mem_map.1 (show p ∈ s.com.map Node.name from (hn.edges _ _ he).1)
            exact ih y hy (by omega))
          cases ha' : a x.name with
          | none => rfl
          | some q => exact absurd (hcongr.2 ((haa c hc _ hcn).1 ⟨q, ha'⟩)) hnot
        · obtain ⟨q, hq⟩ := hra x.name ((reach_isNode h _).1 (mem_names hx)) hc
          rw [hb'] at hq
          cases hq
  exact fun x hx => key _ x hx (Nat.lt_succ_self _)

/-! ## Distinct points -/

theorem distinctVals_pairwise {cs : List Val} (h : distinctVals cs = true) :
    cs.Pairwise (fun a b => a.pyEq b = false) := by
  induction cs with
  | nil => exact .nil
  | cons c cs ih =>
    simp only [distinctVals, Bool.and_eq_true, Bool.not_eq_true'] at h
    refine List.Pairwise.cons ?_ (ih h.2)
    intro b hb
    cases he : c.pyEq b with
    | false => rfl
    | true =>
      have : c.pyIn cs = true := List.any_eq_true.2 ⟨b, hb, Val.pyEq_symm he⟩
      rw [this] at h
      cases h.1

theorem range_pairwise {β : Type} (n : Nat) (f : Nat → β) (R : β → β → Prop) (h : ∀ i < n, ∀ j < n, i ≠ j → R (f i) (f j)) :
    ((List.range n).map f).Pairwise R := by
  rw [List.pairwise_map, List.pairwise_iff_getElem]
  intro i j hi hj hij
  simp only [List.length_range] at hi hj
  simpa using h i hi j hj (by omega)

theorem valueSet_distinct {steps : List (Name × Nat)} {x : HP} (hw : x.wf = true) (hd : StepsDistinct steps x)
    {vs : List Val} (h : valueSet steps x = .ok vs) :
    vs.Pairwise (fun a b => (roundVal x.kind a).pyEq (roundVal x.kind b) = false) := by
  unfold valueSet at h
  cases hk : x.kind with
  | cat cs => rw [hk] at h; cases h; exact distinctVals_pairwise (HP.wf_distinct hw (.inl hk)).2
  | ord cs => rw [hk] at h; cases h; exact distinctVals_pairwise (HP.wf_distinct hw (.inr hk)).2
  | const c => rw [hk] at h; cases h; exact List.pairwise_singleton _ _
  | flt l u =>
    rw [hk] at h
    simp only at h
    split at h
    · cases h
    · cases h
    · rename_i n _ hn
      cases h
      rw [linspace_eq, List.map_map]
      apply range_pairwise
      intro i hi j hj hij
      have := hd.1 l u hk n hn i hi j hj hij
      rw [← Bool.not_eq_true]
      intro he
      exact this ((num_pyEq (p := roundPlaces (gridPoint l u n i)) (q := roundPlaces (gridPoint l u n j)) rfl rfl).1 he)
  | int l u =>
    rw [hk] at h
    simp only at h
    split at h
    · cases h
    · cases h
    · rename_i n _ hn
      cases h
      rw [linspace_eq, List.map_map]
      apply range_pairwise
      intro i hi j hj hij
      have := hd.2 l u hk n hn i hi j hj hij
      rw [← Bool.not_eq_true]
      intro he
      have := (num_pyEq (p := (rint (gridPoint l u n i) : Rat)) (q := (rint (gridPoint l u n j) : Rat)) rfl rfl).1 he
      exact absurd (by exact_mod_cast this) (hd.2 l u hk n hn i hi j hj hij)

/-- Two points that give some hyperparameter different values. -/
def Differ (s : Space) (pt pt' : Dict) : Prop :=
  ∃ x ∈ s.com, ∃ w w', pt.lookup x.name = some (some w) ∧ pt'.lookup x.name = some (some w') ∧
    (roundVal x.hp.kind w).pyEq (roundVal x.hp.kind w') = false

theorem differ_append {pt pt' d d' : Dict} (h : Differ s pt pt') : Differ s (pt ++ d) (pt' ++ d') := by
  obtain ⟨x, hx, w, w', h1, h2, h3⟩ := h
  exact ⟨x, hx, w, w', by rw [lookup_append, h1], by rw [lookup_append, h2], h3⟩

theorem cartesian_differ (h : Reach calls s) {steps : List (Name × Nat)}
    (hd : ∀ x ∈ allHps calls, StepsDistinct steps x) : ∀ {sets : List (Name × List Val)}, (sets.map Prod.fst).Nodup →
    (∀ st ∈ sets, ∃ x ∈ s.com, x.name = st.1 ∧ valueSet steps x.hp = .ok st.2) →
    (cartesian sets).Pairwise (Differ s) := by
  intro sets
  induction sets with
  | nil => intro _ _; exact List.pairwise_singleton _ _
  | cons st sets ih =>
    intro hnd hs
    obtain ⟨n, vs⟩ := st
    simp only [List.map_cons, List.nodup_cons] at hnd
    obtain ⟨x, hx, hxn, hv⟩ := hs (n, vs) (by simp)
    simp only at hxn hv
    have ih' := ih hnd.2 (fun st hst => hs st (List.mem_cons_of_mem _ hst))
    have hp := valueSet_distinct (node_wf h hx) (hd _ (node_hp h hx)) hv
    simp only [cartesian]
    rw [List.pairwise_flatMap]
    constructor
    · intro w _
      rw [List.pairwise_map]
      refine List.Pairwise.imp_of_mem ?_ ih'
      intro a b ha hb hab
      obtain ⟨y, hy, u, u', k1, k2, k3⟩ := hab
      have hne : ¬ y.name = n := by
        intro e
        have : y.name ∈ a.map Prod.fst := List.mem_map.2 ⟨(y.name, some u), lookup_mem k1, rfl⟩
        rw [cartesian_keys ha] at this
        exact hnd.1 (e ▸ this)
      refine ⟨y, hy, u, u', ?_, ?_, k3⟩
      · rw [List.lookup_cons, beq_false_of_ne hne]; exact k1
      · rw [List.lookup_cons, beq_false_of_ne hne]; exact k2
    · refine hp.imp ?_
      intro a b hab d1 hd1 d2 hd2
      obtain ⟨e1, _, rfl⟩ := List.mem_map.1 hd1
      obtain ⟨e2, _, rfl⟩ := List.mem_map.1 hd2
      refine ⟨x, hx, a, b, ?_, ?_, hab⟩
      · rw [List.lookup_cons]; simp [hxn]
      · rw [List.lookup_cons]; simp [hxn]

/-- Points that differ have different configurations. -/
theorem differ_vec (h : Reach calls s) {steps : List (Name × Nat)} {pt pt' : Dict} (hpt : PtOk s steps pt)
    (hpt' : PtOk s steps pt') (hd : Differ s pt pt') {c c' : Config} (hc : Config.ofValues s pt = .ok c)
    (hc' : Config.ofValues s pt' = .ok c') : c.vec ≠ c'.vec := by
  obtain ⟨x, hx, w, w', k1, k2, k3⟩ := hd
  obtain ⟨_, _, _, _, _, _, _, f1⟩ := ofValues_ok h hc
  obtain ⟨_, _, _, _, _, _, _, f2⟩ := ofValues_ok h hc'
  intro he
  have hw := node_wf h hx
  rcases f1 x hx with ⟨u, q, m1, m2, m3, m4, _⟩ | ⟨m1, _⟩
  · rcases f2 x hx with ⟨u', q', n1, n2, n3, n4, _⟩ | ⟨n1, _⟩
    · rw [k1] at m1; cases m1
      rw [k2] at n1; cases n1
      rw [he, n4] at m4
      cases m4
      have := (toVec_inj hw (roundVal_legal hw m2) (roundVal_legal hw n2) m3 n3).2 rfl
      rw [this] at k3
      cases k3
    · rw [k2] at n1; simp at n1
  · rw [k1] at m1; simp at m1

theorem represents_exists (h : Reach calls s) (a : Assign) : ∃ v, Represents s v a := by
  have hi := sinv_of_reach h
  refine ⟨s.com.map (fun x => a x.name), by simp [hi.len], ?_⟩
  intro i n hin
  unfold At Space.names at hin
  rw [List.getElem?_map] at hin
  unfold Vec.at
  rw [List.getD_eq_getElem?_getD, List.getElem?_map]
  cases hx : s.com[i]? with
  | none => rw [hx] at hin; cases hin
  | some x => rw [hx] at hin; cases hin; rfl

theorem checkConds_ne_forbidden {v : Vec} {al : Bool} : ∀ {gs : List CNode}, checkConds s v al gs ≠ some .forbidden := by
  intro gs
  induction gs with
  | nil => intro h; cases h
  | cons g gs ih =>
    intro h
    unfold checkConds at h
    split at h
    · split at h
      · cases h
      · split at h
        · cases h
        · exact ih h
    · split at h
      · exact ih h
      · split at h
        · split at h
          · split at h <;> cases h
          · cases h
        · exact ih h

/-- The exception for clauses is only raised if a clause is violated. -/
theorem check_forbidden (h : Reach calls s) (hown : OwnClauses calls) {v : Vec} {a : Assign} (hv : Represents s v a)
    (hc : s.check v = some .forbidden) : ∃ f ∈ allForbs calls, Forbids a f := by
  have hf := C10_merged_clauses_equivalent h hown hv
  unfold Space.check at hc
  split at hc
  · cases hc
  · split at hc
    · rename_i e he
      cases hc
      exact absurd he checkConds_ne_forbidden
    · split at hc
      · rename_i hb; exact hf.1 hb
      · cases hc

end Verif
