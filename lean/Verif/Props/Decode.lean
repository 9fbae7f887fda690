import Verif.Props.PcsNew
import Verif.Props.Construct
import Verif.Props.Reject
import Verif.Props.Serial

/-!
# C68: whatever is read, the result is a space that calls of `add` could have built
-/

set_option autoImplicit false

namespace Verif
open Verif.Spec

variable {calls : List Call} {s : Space}

/-! ## What the constructors guarantee -/

theorem bind_eq_ok {α β : Type} {x : Except Err α} {f : α → Except Err β} {y : β} :
    (x >>= f) = .ok y ↔ ∃ a, x = .ok a ∧ f a = .ok y := by
  cases x <;> simp [bind, Except.bind]

theorem map_eq_ok {α β : Type} {x : Except Err α} {f : α → β} {y : β} :
    x.map f = .ok y ↔ ∃ a, x = .ok a ∧ f a = y := by
  cases x <;> simp [Except.map]

/-- A condition built from hyperparameters of the space. -/
def OwnCond (s : Space) (c : Cond) : Prop :=
  c.wf = true ∧ ∀ l ∈ c.dlcs, l.parent ∈ s.com.map Node.hp ∧ l.child ∈ s.com.map Node.hp

/-- A clause built from hyperparameters of the space. -/
def OwnForb (s : Space) (f : Forb) : Prop := f.wf = true ∧ ∀ h ∈ clauseHps f, h ∈ s.com.map Node.hp

theorem com_wf (h : Reach calls s) {x : HP} (hx : x ∈ s.com.map Node.hp) : x.wf = true := by
  obtain ⟨y, hy, rfl⟩ := List.mem_map.1 hx
  exact node_wf h hy

theorem own_lit {l : Lit} (hl : l.wf = true) (hp : l.parent ∈ s.com.map Node.hp) (hc : l.child ∈ s.com.map Node.hp) :
    OwnCond s (.lit l) := by
  refine ⟨by simp [Cond.wf, Cond.wf0, Cond.dlcs, sameChild, hl], ?_⟩
  intro m hm
  simp only [Cond.dlcs, List.mem_singleton] at hm
  subst hm
  exact ⟨hp, hc⟩

theorem mkBin_own_cond (h : Reach calls s) {op : BOp} {c p : HP} {v : Val} {l : Lit} (hc : c ∈ s.com.map Node.hp)
    (hp : p ∈ s.com.map Node.hp) (hm : mkBin op c p v = .ok l) : OwnCond s (.lit l) := by
  unfold mkBin at hm
  split at hm; · cases hm
  rename_i h1
  split at hm; · cases hm
  rename_i h2
  split at hm; · cases hm
  rename_i h3
  split at hm; · cases hm
  rename_i x hx
  cases hm
  refine own_lit ?_ hp hc
  simp only [Bool.not_eq_true', Bool.not_eq_false, Bool.and_eq_true, not_and] at h2 h3
  rw [Bool.not_eq_true] at h1
  simp only [Lit.wf, h1, com_wf h hp, com_wf h hc, h3, hx, Bool.and_eq_true, decide_eq_true_eq, Bool.not_false, true_and, and_self]
  cases ho : (op == .lt || op == .gt)
  · rfl
  · simpa using h2 ho

theorem mkIn_own_cond (h : Reach calls s) {c p : HP} {vs : List Val} {l : Lit} (hc : c ∈ s.com.map Node.hp)
    (hp : p ∈ s.com.map Node.hp) (hm : mkIn c p vs = .ok l) : OwnCond s (.lit l) := by
  unfold mkIn at hm
  split at hm; · cases hm
  rename_i h1
  split at hm
  · rename_i h2
    cases hm
    refine own_lit ?_ hp hc
    simp [Lit.wf, h1, com_wf h hp, com_wf h hc]
    simpa using h2
  · cases hm

theorem own_parts {cs : List Cond} (hcs : ∀ c ∈ cs, OwnCond s c) (h2 : ¬ cs.length < 2) (hs : sameChild (Cond.dlcsL cs) = true) :
    OwnCond s (.and cs) ∧ OwnCond s (.or cs) := by
  have hw : Cond.wf0L cs = true := wf0L_iff.2 fun c hc => by
    have := (hcs c hc).1
    simp only [Cond.wf, Bool.and_eq_true] at this
    exact this.1
  have hl : ∀ l ∈ Cond.dlcsL cs, l.parent ∈ s.com.map Node.hp ∧ l.child ∈ s.com.map Node.hp := by
    intro l hl
    clear hs h2 hw
    induction cs with
    | nil => cases hl
    | cons c cs ih =>
      simp only [Cond.dlcsL, List.mem_append] at hl
      rcases hl with hl | hl
      · exact (hcs c List.mem_cons_self).2 l hl
      · exact ih (fun c hc => hcs c (List.mem_cons_of_mem _ hc)) hl
  refine ⟨⟨?_, hl⟩, ⟨?_, hl⟩⟩ <;>
  · simp only [Cond.wf, Cond.wf0, Cond.dlcs, hw, hs, Bool.and_true, decide_eq_true_eq]
    omega

theorem mkAnd_own {cs : List Cond} {c : Cond} (hcs : ∀ c ∈ cs, OwnCond s c) (hm : mkAnd cs = .ok c) : OwnCond s c := by
  unfold mkAnd at hm
  split at hm; · cases hm
  rename_i h2
  split at hm
  · rename_i hs
    cases hm
    exact (own_parts hcs h2 hs).1
  · cases hm

theorem mkOr_own {cs : List Cond} {c : Cond} (hcs : ∀ c ∈ cs, OwnCond s c) (hm : mkOr cs = .ok c) : OwnCond s c := by
  unfold mkOr at hm
  split at hm; · cases hm
  rename_i h2
  split at hm
  · rename_i hs
    cases hm
    exact (own_parts hcs h2 hs).2
  · cases hm

theorem mkForbEq_own_forb (h : Reach calls s) {x : HP} {v : Val} {f : Forb} (hx : x ∈ s.com.map Node.hp)
    (hm : mkForbEq x v = .ok f) : OwnForb s f := by
  unfold mkForbEq at hm
  split at hm; · cases hm
  rename_i h1
  split at hm
  · rename_i q hq
    cases hm
    exact ⟨by simpa [Forb.wf, com_wf h hx, hq] using h1, by simpa [clauseHps] using hx⟩
  · cases hm

theorem mkForbIn_own_forb (h : Reach calls s) {x : HP} {vs : List Val} {f : Forb} (hx : x ∈ s.com.map Node.hp)
    (hm : mkForbIn x vs = .ok f) : OwnForb s f := by
  unfold mkForbIn at hm
  split at hm
  · rename_i h1
    cases hm
    exact ⟨by simpa [Forb.wf, com_wf h hx] using h1, by simpa [clauseHps] using hx⟩
  · cases hm

theorem own_forb_and {fs : List Forb} (hf : ∀ f ∈ fs, OwnForb s f) : OwnForb s (.and fs) := by
  refine ⟨?_, ?_⟩
  · rw [Forb.wf, wfL_iff]
    exact fun f h => (hf f h).1
  · intro x hx
    rw [clauseHps, mem_clauseHpsL] at hx
    obtain ⟨f, h1, h2⟩ := hx
    exact (hf f h1).2 x h2

theorem mapExcept_all {α β : Type} {f : α → Except Err β} {P : β → Prop} (hf : ∀ x y, f x = .ok y → P y) :
    ∀ {xs : List α} {ys : List β}, mapExcept f xs = .ok ys → ∀ y ∈ ys, P y := by
  intro xs ys h
  have := mapExcept_forall₂ h
  clear h
  induction this with
  | nil => intro y hy; cases hy
  | cons h1 _ ih =>
    intro y hy
    rcases List.mem_cons.1 hy with rfl | hy
    · exact hf _ _ h1
    · exact ih y hy

/-- A successful call with own conditions and clauses keeps the history, and its conditions and clauses stay own. -/
theorem own_snoc (h : Reach calls s) (hoc : OwnConds calls) (hown : OwnClauses calls) {hps : List HP} {cs : List Cond}
    {fs : List Forb} {s' : Space} (hh : ∀ x ∈ hps, x.wf = true) (hc : ∀ c ∈ cs, OwnCond s c) (hf : ∀ f ∈ fs, OwnForb s f)
    (ha : s.add hps cs fs = (s', none)) : Reach (calls ++ [⟨hps, cs, fs⟩]) s' ∧ OwnConds (calls ++ [⟨hps, cs, fs⟩]) ∧
      OwnClauses (calls ++ [⟨hps, cs, fs⟩]) := by
  have hm : ∀ x, x ∈ s.com.map Node.hp → x ∈ allHps calls := fun x hx => (hps_perm h).mem_iff.1 hx
  refine ⟨Reach.snoc h ⟨hh, fun c hx => (hc c hx).1, fun f hx => (hf f hx).1⟩ ha, ?_, ?_⟩
  · intro c hx l hl
    simp only [allConds, allHps, List.flatMap_append, List.mem_append, List.flatMap_cons, List.flatMap_nil, List.append_nil] at hx ⊢
    rcases hx with hx | hx
    · exact ⟨.inl (hoc c hx l hl).1, .inl (hoc c hx l hl).2⟩
    · exact ⟨.inl (hm _ ((hc c hx).2 l hl).1), .inl (hm _ ((hc c hx).2 l hl).2)⟩
  · intro f hx y hy
    simp only [allForbs, allHps, List.flatMap_append, List.mem_append, List.flatMap_cons, List.flatMap_nil, List.append_nil] at hx ⊢
    rcases hx with hx | hx
    · exact .inl (hown f hx y hy)
    · exact .inl (hm _ ((hf f hx).2 y hy))

/-! ## The pcs reader -/

theorem readContinuous_wf {T : PyText} {line : Chars} {x : HP} (hr : readContinuous T line = .ok (some x)) : x.wf = true := by
  unfold readContinuous at hr
  split at hr; · cases hr
  simp only at hr
  split at hr
  · split at hr; · cases hr
    split at hr
    · split at hr
      · rename_i h hm; cases hr; exact (C48_integer hm).1
      · cases hr
    · cases hr
  · split at hr
    · split at hr; · cases hr
      split at hr
      · split at hr
        · rename_i h hm; cases hr; exact (C48_float hm).1
        · cases hr
      · cases hr
    · cases hr

theorem readDiscrete_wf {line : Chars} {prev : Option HP} {x : HP} (hp : ∀ y, prev = some y → y.wf = true)
    (hr : readDiscrete line prev = .ok (some x)) : x.wf = true := by
  unfold readDiscrete at hr
  simp only at hr
  split at hr
  · split at hr
    · cases hr; exact hp _ rfl
    · split at hr
      · rename_i h hm; cases hr; exact (C48_categorical hm).1
      · cases hr
  · split at hr
    · split at hr
      · cases hr; exact hp _ rfl
      · split at hr
        · rename_i h hm; cases hr; exact (C48_ordinal.1 _ hm).1
        · cases hr
    · cases hr; exact hp _ rfl

theorem readParam_wf {T : PyText} {line : Chars} {x : HP} (hr : readParam T line = .ok x) : x.wf = true := by
  unfold readParam at hr
  split at hr; · cases hr
  rename_i prev hc
  split at hr
  · cases hr
  · cases hr
  · rename_i h hd
    cases hr
    exact readDiscrete_wf (fun y hy => readContinuous_wf (hy ▸ hc)) hd

theorem readLines_reach {T : PyText} : ∀ {ls : List Chars} {f f' : PcsFile} {calls : List Call}, Reach calls f.space →
    OwnConds calls → OwnClauses calls → readLines T f ls = .ok f' →
    ∃ calls', Reach calls' f'.space ∧ OwnConds calls' ∧ OwnClauses calls'
  | [], f, f', calls, h, h1, h2, hr => by
    rw [readLines] at hr
    cases hr
    exact ⟨calls, h, h1, h2⟩
  | l :: ls, f, f', calls, h, h1, h2, hr => by
    rw [readLines] at hr
    split at hr; · cases hr
    rename_i f1 hl
    have : ∃ calls', Reach calls' f1.space ∧ OwnConds calls' ∧ OwnClauses calls' := by
      unfold readLine at hl
      simp only at hl
      split at hl
      · split at hl
        · cases hl
        · cases hl; exact ⟨calls, h, h1, h2⟩
      · split at hl
        · cases hl; exact ⟨calls, h, h1, h2⟩
        · split at hl
          · cases hl; exact ⟨calls, h, h1, h2⟩
          · split at hl
            · cases hl; exact ⟨calls, h, h1, h2⟩
            · split at hl; · cases hl
              rename_i x hx
              split at hl; · cases hl
              rename_i s1 ha
              cases hl
              exact ⟨_, own_snoc h h1 h2 (by simpa using readParam_wf hx) (by simp) (by simp) ha⟩
    obtain ⟨calls', k, k1, k2⟩ := this
    exact readLines_reach k k1 k2 hr

theorem forbClauses_own (h : Reach calls s) {T : PyText} : ∀ {toks : List Chars} {fs : List Forb},
    forbClauses T s toks = .ok fs → ∀ f ∈ fs, OwnForb s f
  | n :: e :: v :: b :: rest, fs, hr => by
    rw [forbClauses] at hr
    split at hr
    · split at hr; · cases hr
      rename_i x hx
      split at hr; · cases hr
      split at hr; · cases hr
      rename_i f hf
      split at hr; · cases hr
      rename_i gs hg
      cases hr
      intro g hgm
      rcases List.mem_cons.1 hgm with rfl | hgm
      · exact mkForbEq_own_forb h (getHP_some hx).1 hf
      · exact forbClauses_own h hg g hgm
    · cases hr
  | [], fs, hr => by cases hr; intro f hf; cases hf
  | [_], fs, hr => by cases hr; intro f hf; cases hf
  | [_, _], fs, hr => by cases hr; intro f hf; cases hf
  | [_, _, _], fs, hr => by cases hr; intro f hf; cases hf

theorem readForbidden_own (h : Reach calls s) {T : PyText} {line : Chars} {f : Forb} (hr : readForbidden T s line = .ok f) :
    OwnForb s f := by
  unfold readForbidden at hr
  split at hr; · cases hr
  split at hr; · cases hr
  rename_i fs hf
  cases hr
  exact own_forb_and (forbClauses_own h hf)

theorem condSpec_own (h : Reach calls s) {T : PyText} {n : Name} {ws : List Chars} {c : Cond} (hr : condSpec T s n ws = .ok c) :
    OwnCond s c := by
  unfold condSpec at hr
  split at hr
  · cases hr
  · cases hr
  · rename_i child p hc hp
    split at hr
    · cases hr
    · cases hr
    · rename_i parent op' hpar hop
      have mc := (getHP_some hc).1
      have mp := (getHP_some hpar).1
      have key : ∀ {op v}, (mkBin op child parent v).map Cond.lit = .ok c → OwnCond s c := by
        intro op v hm
        obtain ⟨l, h1, rfl⟩ := map_eq_ok.1 hm
        exact mkBin_own_cond h mc mp h1
      split at hr
      · split at hr; · cases hr
        split at hr
        · exact key hr
        · obtain ⟨l, h1, rfl⟩ := map_eq_ok.1 hr
          exact mkIn_own_cond h mc mp h1
      · split at hr; · cases hr
        split at hr; · cases hr
        split at hr; · exact key hr
        split at hr; · exact key hr
        split at hr; · cases hr
        · cases hr
        · split at hr; · exact key hr
          split at hr; · exact key hr
          cases hr

theorem mixedPart_own (h : Reach calls s) {T : PyText} {n : Name} {p : Chars} {c : Cond} (hr : mixedPart T s n p = .ok c) :
    OwnCond s c := by
  unfold mixedPart at hr
  split at hr
  · exact condSpec_own h hr
  · split at hr; · cases hr
    rename_i cs hcs
    exact mkAnd_own (mapExcept_all (fun x y hx => condSpec_own h hx) hcs) hr

theorem readCond_own (h : Reach calls s) {T : PyText} {toks : List Chars} {c : Cond} (hr : readCond T s toks = .ok c) :
    OwnCond s c := by
  unfold readCond at hr
  simp only at hr
  split at hr
  · split at hr
    · split at hr; · cases hr
      rename_i cs hcs
      exact mkOr_own (mapExcept_all (fun x y hx => mixedPart_own h hx) hcs) hr
    · split at hr; · cases hr
      rename_i cs hcs
      exact mkOr_own (mapExcept_all (fun x y hx => condSpec_own h hx) hcs) hr
  · split at hr
    · split at hr; · cases hr
      rename_i cs hcs
      exact mkAnd_own (mapExcept_all (fun x y hx => condSpec_own h hx) hcs) hr
    · exact condSpec_own h hr

/-- **C68**, pcs: whatever the lines are, if the reader returns a space, it is a space that calls of `add` could have built, from
well-formed hyperparameters and from conditions and clauses over them. -/
theorem C68_pcs_reads_a_space {T : PyText} {lines : List String} {s : Space} (hr : pcsRead T lines = .ok s) :
    ∃ calls, Reach calls s ∧ OwnConds calls ∧ OwnClauses calls := by
  unfold pcsRead at hr
  split at hr; · cases hr
  rename_i f hf
  obtain ⟨k, h, h1, h2⟩ := readLines_reach (f := {}) (calls := []) .nil (by intro c hc; cases hc) (by intro c hc; cases hc) hf
  split at hr; · cases hr
  rename_i fs hfs
  split at hr; · cases hr
  rename_i s1 ha
  obtain ⟨g, g1, g2⟩ := own_snoc h h1 h2 (by simp) (by simp) (mapExcept_all (fun x y hx => readForbidden_own h hx) hfs) ha
  split at hr; · cases hr
  rename_i cs hcs
  split at hr; · cases hr
  rename_i s2 hb
  cases hr
  exact ⟨_, own_snoc g g1 g2 (by simp) (mapExcept_all (fun x y hx => readCond_own g hx) hcs) (by simp) hb⟩

/-! ## The dictionary decoder -/

theorem decHP_wf {j : Json} {p : HP × Option (List Rat)} (hr : decHP j = .ok p) : p.1.wf = true := by
  unfold decHP at hr
  split at hr
  · split at hr; · cases hr
    unfold decHPFields at hr
    simp only at hr
    split at hr
    · split at hr; · cases hr
      split at hr; · cases hr
      simp only [bind_eq_ok] at hr
      obtain ⟨_, _, _, _, _, _, _, _, h, hm, e⟩ := hr
      cases e
      exact (C48_float hm).1
    · split at hr
      · split at hr; · cases hr
        split at hr; · cases hr
        simp only [bind_eq_ok] at hr
        obtain ⟨_, _, _, _, _, _, _, _, h, hm, e⟩ := hr
        cases e
        exact (C48_integer hm).1
      · split at hr
        · split at hr; · cases hr
          simp only [bind_eq_ok] at hr
          obtain ⟨_, _, _, _, _, _, _, _, h, hm, e⟩ := hr
          cases e
          exact (C48_categorical hm).1
        · split at hr
          · split at hr; · cases hr
            simp only [bind_eq_ok] at hr
            obtain ⟨_, _, _, _, _, _, h, hm, e⟩ := hr
            cases e
            exact (C48_ordinal.1 _ hm).1
          · split at hr
            · split at hr; · cases hr
              simp only [bind_eq_ok] at hr
              obtain ⟨n, _, v, _, h, hm, e⟩ := hr
              cases e
              obtain ⟨h', e', hw, _⟩ := C48_constant n v
              rw [hm] at e'
              cases e'
              exact hw
            · cases hr
  · cases hr

theorem getField_mem {fs : Fields} {k : String} {x : HP} (hr : s.getField fs k = .ok x) : x ∈ s.com.map Node.hp := by
  unfold Space.getField at hr
  split at hr
  · cases hr
  · exact (getHP_some hr).1
  · cases hr

theorem decBin_own (h : Reach calls s) {op : BOp} {fs : Fields} {c : Cond} (hr : decBin s op fs = .ok c) : OwnCond s c := by
  unfold decBin at hr
  simp only [bind_eq_ok] at hr
  obtain ⟨x, hx, p, hp, _, _, v, _, l, hl, e⟩ := hr
  cases e
  exact mkBin_own_cond h (getField_mem hx) (getField_mem hp) hl

theorem decIn_own (h : Reach calls s) {fs : Fields} {c : Cond} (hr : decIn s fs = .ok c) : OwnCond s c := by
  unfold decIn at hr
  simp only [bind_eq_ok] at hr
  obtain ⟨x, hx, p, hp, _, _, v, _, l, hl, e⟩ := hr
  cases e
  exact mkIn_own_cond h (getField_mem hx) (getField_mem hp) hl

mutual
theorem decCond_own (h : Reach calls s) : ∀ (j : Json) {c : Cond}, decCond s j = .ok c → OwnCond s c
  | .obj fs, c, hr => by
    rw [decCond] at hr
    split at hr; · cases hr
    split at hr; · exact decBin_own h hr
    split at hr; · exact decBin_own h hr
    split at hr; · exact decBin_own h hr
    split at hr; · exact decBin_own h hr
    split at hr; · exact decIn_own h hr
    split at hr
    · split at hr; · cases hr
      rename_i cs hcs
      exact mkAnd_own (decCondField_own h fs hcs) hr
    · split at hr
      · split at hr; · cases hr
        rename_i cs hcs
        exact mkOr_own (decCondField_own h fs hcs) hr
      · cases hr
  | .null, c, hr => by simp [decCond] at hr
  | .bool _, c, hr => by simp [decCond] at hr
  | .val _, c, hr => by simp [decCond] at hr
  | .arr _, c, hr => by simp [decCond] at hr
theorem decCondField_own (h : Reach calls s) : ∀ (fs : List (String × Json)) {cs : List Cond}, decCondField s fs = .ok cs →
    ∀ c ∈ cs, OwnCond s c
  | [], cs, hr => by rw [decCondField] at hr; cases hr
  | (k, j) :: fs, cs, hr => by
    rw [decCondField] at hr
    split at hr
    · exact decCondArr_own h j hr
    · exact decCondField_own h fs hr
theorem decCondArr_own (h : Reach calls s) : ∀ (j : Json) {cs : List Cond}, decCondArr s j = .ok cs → ∀ c ∈ cs, OwnCond s c
  | .arr js, cs, hr => by
    rw [decCondArr] at hr
    exact decConds_own h js hr
  | .null, c, hr => by simp [decCondArr] at hr
  | .bool _, c, hr => by simp [decCondArr] at hr
  | .val _, c, hr => by simp [decCondArr] at hr
  | .obj _, c, hr => by simp [decCondArr] at hr
theorem decConds_own (h : Reach calls s) : ∀ (js : List Json) {cs : List Cond}, decConds s js = .ok cs → ∀ c ∈ cs, OwnCond s c
  | [], cs, hr => by rw [decConds] at hr; cases hr; intro c hc; cases hc
  | j :: js, cs, hr => by
    rw [decConds] at hr
    split at hr; · cases hr
    rename_i c hc
    split at hr; · cases hr
    rename_i ds hd
    cases hr
    intro d hdm
    rcases List.mem_cons.1 hdm with rfl | hdm
    · exact decCond_own h j hc
    · exact decConds_own h js hd d hdm
end

theorem decRel_own (h : Reach calls s) {op : RelOp} {fs : Fields} {f : Forb} (hr : decRel s op fs = .ok f) : OwnForb s f := by
  unfold decRel at hr
  simp only [bind_eq_ok] at hr
  obtain ⟨l, hl, r, hrr, e⟩ := hr
  cases e
  refine ⟨by simp [Forb.wf, com_wf h (getField_mem hl), com_wf h (getField_mem hrr)], ?_⟩
  intro x hx
  simp only [clauseHps, List.mem_cons, List.not_mem_nil, or_false] at hx
  rcases hx with rfl | rfl
  · exact getField_mem hl
  · exact getField_mem hrr

theorem decRelLegacy_own (h : Reach calls s) {fs : Fields} {f : Forb} (hr : decRelLegacy s fs = .ok f) : OwnForb s f := by
  unfold decRelLegacy at hr
  split at hr
  · cases hr
  · split at hr; · exact decRel_own h hr
    split at hr; · exact decRel_own h hr
    split at hr; · exact decRel_own h hr
    cases hr
  · cases hr

mutual
theorem decForb_own (h : Reach calls s) : ∀ (j : Json) {f : Forb}, decForb s j = .ok f → OwnForb s f
  | .obj fs, f, hr => by
    rw [decForb] at hr
    split at hr; · cases hr
    split at hr
    · unfold decForbEq at hr
      simp only [bind_eq_ok] at hr
      obtain ⟨x, hx, _, _, v, _, hm⟩ := hr
      exact mkForbEq_own_forb h (getField_mem hx) hm
    split at hr
    · unfold decForbIn at hr
      simp only [bind_eq_ok] at hr
      obtain ⟨x, hx, _, _, v, _, hm⟩ := hr
      exact mkForbIn_own_forb h (getField_mem hx) hm
    split at hr
    · split at hr; · cases hr
      rename_i gs hg
      cases hr
      exact own_forb_and (decForbField_own h fs hg)
    split at hr; · exact decRel_own h hr
    split at hr; · exact decRel_own h hr
    split at hr; · exact decRel_own h hr
    split at hr; · exact decRelLegacy_own h hr
    cases hr
  | .null, c, hr => by simp [decForb] at hr
  | .bool _, c, hr => by simp [decForb] at hr
  | .val _, c, hr => by simp [decForb] at hr
  | .arr _, c, hr => by simp [decForb] at hr
theorem decForbField_own (h : Reach calls s) : ∀ (fs : List (String × Json)) {gs : List Forb}, decForbField s fs = .ok gs →
    ∀ g ∈ gs, OwnForb s g
  | [], cs, hr => by rw [decForbField] at hr; cases hr
  | (k, j) :: fs, cs, hr => by
    rw [decForbField] at hr
    split at hr
    · exact decForbArr_own h j hr
    · exact decForbField_own h fs hr
theorem decForbArr_own (h : Reach calls s) : ∀ (j : Json) {gs : List Forb}, decForbArr s j = .ok gs → ∀ g ∈ gs, OwnForb s g
  | .arr js, cs, hr => by
    rw [decForbArr] at hr
    exact decForbs_own h js hr
  | .null, c, hr => by simp [decForbArr] at hr
  | .bool _, c, hr => by simp [decForbArr] at hr
  | .val _, c, hr => by simp [decForbArr] at hr
  | .obj _, c, hr => by simp [decForbArr] at hr
theorem decForbs_own (h : Reach calls s) : ∀ (js : List Json) {gs : List Forb}, decForbs s js = .ok gs → ∀ g ∈ gs, OwnForb s g
  | [], cs, hr => by rw [decForbs] at hr; cases hr; intro c hc; cases hc
  | j :: js, cs, hr => by
    rw [decForbs] at hr
    split at hr; · cases hr
    rename_i c hc
    split at hr; · cases hr
    rename_i ds hd
    cases hr
    intro d hdm
    rcases List.mem_cons.1 hdm with rfl | hdm
    · exact decForb_own h j hc
    · exact decForbs_own h js hd d hdm
end

/-- **C68**, dictionaries: whatever the dictionary is, if the decoder returns a space, it is a space that calls of `add` could have
built, from well-formed hyperparameters and from conditions and clauses over them. -/
theorem C68_dictionary_decodes_to_a_space {j : Json} {s : Space} {w : List (Name × Option (List Rat))}
    (hr : fromDict j = .ok (s, w)) : ∃ calls, Reach calls s ∧ OwnConds calls ∧ OwnClauses calls ∧
      (allHps calls).map HP.name = w.map Prod.fst := by
  unfold fromDict at hr
  split at hr
  · split at hr; · cases hr
    split at hr; · cases hr
    split at hr; · cases hr
    split at hr; · cases hr
    rename_i hps hh
    split at hr; · cases hr
    rename_i s1 ha
    obtain ⟨g, g1, g2⟩ := own_snoc (calls := []) .nil (by intro c hc; cases hc) (by intro c hc; cases hc)
      (by
        intro x hx
        obtain ⟨p, hp, rfl⟩ := List.mem_map.1 hx
        exact mapExcept_all (P := fun p : HP × Option (List Rat) => p.1.wf = true) (fun x y hx => decHP_wf hx) hh p hp)
      (by simp) (by simp) ha
    split at hr; · cases hr
    rename_i cs hcs
    split at hr; · cases hr
    rename_i fs hfs
    split at hr; · cases hr
    rename_i s2 hb
    cases hr
    obtain ⟨k, k1, k2⟩ := own_snoc g g1 g2 (by simp) (decConds_own g _ hcs) (decForbs_own g _ hfs) hb
    exact ⟨_, k, k1, k2, by simp [allHps]⟩
  · cases hr

/-- **C68.** Hence a space that was read, from whatever file or dictionary, has no two hyperparameters of the same name and no cycle
of conditions, each hyperparameter is placed after its parents, and the default configuration exists and passes the check. -/
theorem C68_read_space_is_sound {s : Space}
    (hr : (∃ T lines, pcsRead T lines = .ok s) ∨ ∃ j w, fromDict j = .ok (s, w)) :
    s.names.Nodup ∧ (∃ calls, Reach calls s ∧ Acyclic (ParentOf calls) ∧
      ∀ n m, ParentOf calls n m → ∃ i j, At s.names i n ∧ At s.names j m ∧ i < j) ∧
    ∃ c, s.defaultConfig = .ok c ∧ s.check c.vec = none := by
  have : ∃ calls, Reach calls s := by
    rcases hr with ⟨T, lines, hr⟩ | ⟨j, w, hr⟩
    · obtain ⟨calls, h, _⟩ := C68_pcs_reads_a_space hr
      exact ⟨calls, h⟩
    · obtain ⟨calls, h, _⟩ := C68_dictionary_decodes_to_a_space hr
      exact ⟨calls, h⟩
  obtain ⟨calls, h⟩ := this
  obtain ⟨c, h1, h2, _⟩ := C20_default_configuration h
  exact ⟨(C02_names_index_bijection h).1, ⟨calls, h, C03_acyclic h, fun n m hp => by
    obtain ⟨i, j, k1, k2, k3, _⟩ := C01_parents_before_children h hp
    exact ⟨i, j, k1, k2, k3⟩⟩, c, h1, h2⟩

/-- The hypothesis is met: a file that was not written by the writer, with a comment, two conditions on one child and clauses. -/
def ExN.fileF : List String :=
  ["# a comment", "alg categorical {a, b} [a]", "k categorical {u, v} [v]   # another one", "", "x ordinal {lo, hi} [lo]",
   "x | k in {u, v} || alg == b", "k | alg == a", "{alg=b, k=u}"]

example : ∃ s, pcsRead ExT.text ExN.fileF = .ok s ∧ s.names = ["alg", "k", "x"] ∧ (∃ c, s.defaultConfig = .ok c ∧ s.check c.vec = none) := by
  have hr : (pcsRead ExT.text ExN.fileF).toOption.map Space.names = some ["alg", "k", "x"] := by decide +kernel
  cases e : pcsRead ExT.text ExN.fileF with
  | error _ => rw [e] at hr; simp [Except.toOption] at hr
  | ok s =>
    rw [e] at hr
    exact ⟨s, rfl, by simpa [Except.toOption] using hr, (C68_read_space_is_sound (.inl ⟨_, _, e⟩)).2.2⟩

end Verif
