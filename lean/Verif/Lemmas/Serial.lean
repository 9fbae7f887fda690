import Verif.Model.Serial
import Verif.Lemmas.Subst

/-!
# Decoding what was encoded
-/

set_option autoImplicit false

namespace Verif
open Verif.Spec

theorem bind_ok {α β : Type} (x : α) (f : α → Except Err β) : (Except.ok x >>= f) = f x := rfl
theorem bind_error {α β : Type} (e : Err) (f : α → Except Err β) : ((Except.error e : Except Err α) >>= f) = .error e := rfl

theorem asVals_map (vs : List Val) : asVals (some (.arr (vs.map Json.val))) = .ok vs := by
  unfold asVals
  simp only
  induction vs with
  | nil => rfl
  | cons v vs ih =>
    simp only [List.map_cons, mapExcept, asVal] at ih ⊢
    rw [ih]

theorem asWeights_map (q : Rat) (ws : List Rat) :
    asWeights (some (.arr ((q :: ws).map (fun q => Json.val (.flt q))))) = .ok (some (q :: ws)) := by
  have : ∀ ws : List Rat, mapExcept (fun j => asNum (some j)) (ws.map (fun q => Json.val (.flt q))) = .ok ws := by
    intro ws
    induction ws with
    | nil => rfl
    | cons v vs ih =>
      simp only [List.map_cons, mapExcept, asNum, Val.num?] at ih ⊢
      rw [ih]
  unfold asWeights
  simp only [this]

/-- The weights that are kept: those of a categorical hyperparameter. -/
def keptWeights (h : HP) (w : Option (List Rat)) : Option (List Rat) :=
  match h.kind with
  | .cat _ => w
  | _ => none

theorem trunc_int' (m : Int) : trunc (m : Rat) = m := by
  unfold trunc
  split <;> simp

/-- Decoding an encoded hyperparameter gives it back, with its weights. -/
theorem decHP_encHP {h : HP} (hw : h.wf = true) {w : Option (List Rat)}
    (hb : ∀ cs, h.kind = .cat cs → badWeights cs w = false) : decHP (encHP h w) = .ok (h, keptWeights h w) := by
  cases hk : h.kind with
  | flt l u =>
    obtain ⟨m, h1, h2⟩ := remake_flt hw hk
    have e : decHP (encHP h w) = (mkFlt h.name l u (some m) >>= fun x => .ok (x, none)) := by
      simp only [encHP, hk, h1]
      rfl
    rw [e, h2, bind_ok, keptWeights, hk]
  | int l u =>
    obtain ⟨m, h1, h2⟩ := remake_int hw hk
    have e : decHP (encHP h w) = (mkInt h.name l u (some (m : Rat)) >>= fun x => .ok (x, none)) := by
      simp only [encHP, hk, h1, Val.num?, Option.getD_some, trunc_int']
      rfl
    rw [e, h2, bind_ok, keptWeights, hk]
  | ord cs =>
    have h2 := remake_ord hw hk
    have e : decHP (encHP h w) = (asVals (some (.arr (cs.map Json.val))) >>= fun cs =>
        mkOrd h.name cs (some h.default) >>= fun x => .ok (x, none)) := by
      simp only [encHP, hk]
      rfl
    rw [e, asVals_map, bind_ok, h2, bind_ok, keptWeights, hk]
  | const v =>
    have h2 := remake_const hw hk
    have e : decHP (encHP h w) = (mkConst h.name v >>= fun x => .ok (x, none)) := by
      simp only [encHP, hk]
      rfl
    rw [e, h2, bind_ok, keptWeights, hk]
  | cat cs =>
    have h2 := remake_cat hw hk (hb cs hk)
    have hne : cs ≠ [] := by
      simp only [HP.wf, hk, Bool.and_eq_true, Bool.not_eq_true', List.isEmpty_eq_false_iff] at hw
      exact hw.1.1
    match w, hb cs hk with
    | none, _ =>
      have e : decHP (encHP h none) = (asVals (some (.arr (cs.map Json.val))) >>= fun cs =>
          mkCat h.name cs (some h.default) none >>= fun x => .ok (x, none)) := by
        simp only [encHP, hk]
        rfl
      rw [e, asVals_map, bind_ok, h2, bind_ok, keptWeights, hk]
    | some [], hb =>
      exfalso
      simp only [badWeights, Bool.or_eq_false_iff, decide_eq_false_iff_not, not_not] at hb
      exact hne (List.length_eq_zero_iff.1 hb.1.1.symm)
    | some (q :: ws), _ =>
      have e : decHP (encHP h (some (q :: ws))) = (asVals (some (.arr (cs.map Json.val))) >>= fun cs =>
          asWeights (some (.arr ((q :: ws).map (fun q => Json.val (.flt q))))) >>= fun w =>
          mkCat h.name cs (some h.default) w >>= fun x => .ok (x, w)) := by
        simp only [encHP, hk]
        rfl
      rw [e, asVals_map, bind_ok, asWeights_map, bind_ok, h2, bind_ok, keptWeights, hk]

theorem decLit_encLit {s : Space} (hl : Looked s) {l : Lit} (hw : l.wf = true) (hp : l.parent ∈ s.com.map Node.hp)
    (hc : l.child ∈ s.com.map Node.hp) : decCond s (encLit l) = .ok (.lit l) := by
  have e1 := getHP_ok hl hp
  have e2 := getHP_ok hl hc
  cases ht : l.test with
  | bin op v x =>
    have h2 := mkBin_own hw ht
    have e : decCond s (encLit l) = decBin s op [("child", .str l.child.name), ("parent", .str l.parent.name), ("value", .val v)] := by
      unfold encLit
      rw [ht]
      cases op <;> rfl
    have e' : decBin s op [("child", .str l.child.name), ("parent", .str l.parent.name), ("value", .val v)] =
        (s.getHP l.child.name >>= fun c => s.getHP l.parent.name >>= fun p => mkBin op c p v >>= fun l => .ok (.lit l)) := by
      rfl
    rw [e, e', e2, bind_ok, e1, bind_ok, h2, bind_ok]
  | isIn vs xs =>
    have h2 := mkIn_own hw ht
    have e : decCond s (encLit l) = (s.getHP l.child.name >>= fun c => s.getHP l.parent.name >>= fun p =>
        asVals (some (.arr (vs.map Json.val))) >>= fun vs => mkIn c p vs >>= fun l => .ok (.lit l)) := by
      unfold encLit
      rw [ht]
      rfl
    rw [e, e2, bind_ok, e1, bind_ok, asVals_map, bind_ok, h2, bind_ok]

theorem decConds_encConds {s : Space} : ∀ {cs : List Cond}, (∀ c ∈ cs, decCond s (encCond c) = .ok c) →
    decConds s (encConds cs) = .ok cs
  | [], _ => by simp [encConds, decConds]
  | c :: cs, h => by
    unfold encConds decConds
    rw [h c (by simp), decConds_encConds (fun d hd => h d (by simp [hd]))]

theorem sameChild_sub {ls ms : List Lit} (hw : ∀ l ∈ ls, l.wf = true) (h : sameChild ls = true) (hm : ∀ m ∈ ms, m ∈ ls) :
    sameChild ms = true := by
  have key : ∀ a ∈ ls, ∀ b ∈ ls, a.child.pyEq b.child = true := by
    cases ls with
    | nil => intro a ha; cases ha
    | cons l ls =>
      simp only [sameChild, List.all_eq_true] at h
      have : ∀ a ∈ l :: ls, a.child.pyEq l.child = true := by
        intro a ha
        rcases List.mem_cons.1 ha with rfl | ha
        · exact HP.pyEq_refl _
        · exact h a ha
      intro a ha b hb
      exact HP.pyEq_trans (this a ha) (HP.pyEq_symm (Lit.wf_hps (hw b hb)).1 (this b hb))
  cases ms with
  | nil => rfl
  | cons m ms =>
    simp only [sameChild, List.all_eq_true]
    intro x hx
    exact key x (hm x (by simp [hx])) m (hm m (by simp))

theorem wf_comp {cs : List Cond} {c : Cond} (hw : ∀ c ∈ cs, c.wf0 = true) (hs : sameChild (Cond.dlcsL cs) = true) (hc : c ∈ cs) :
    sameChild c.dlcs = true :=
  sameChild_sub (fun l hl => by
    obtain ⟨d, hd, hl'⟩ := mem_dlcsL.1 hl
    exact wf0_lit (hw d hd) l hl') hs fun m hm => mem_dlcsL.2 ⟨c, hc, hm⟩

/-- Decoding an encoded condition gives it back, whatever its nesting. -/
theorem decCond_encCond {s : Space} (hl : Looked s) {c : Cond} (hw : c.wf = true) (hm : CondIn s c) :
    decCond s (encCond c) = .ok c := by
  induction c using Cond.induct with
  | hl l =>
    simp only [Cond.wf, Bool.and_eq_true] at hw
    have := hm l (by simp [Cond.dlcs])
    unfold encCond
    exact decLit_encLit hl (wf0_lit hw.1 l (by simp [Cond.dlcs])) this.1 this.2
  | ha cs ih =>
    simp only [Cond.wf, Bool.and_eq_true] at hw
    obtain ⟨h1, h2⟩ := wf0_and.1 hw.1
    have hs : sameChild (Cond.dlcsL cs) = true := by simpa [Cond.dlcs] using hw.2
    have e : decCond s (encCond (.and cs)) = match decConds s (encConds cs) with
        | .error e => .error e
        | .ok cs => mkAnd cs := by
      unfold encCond
      rfl
    rw [e, decConds_encConds fun c hc => ih c hc (by simp [Cond.wf, h2 c hc, wf_comp h2 hs hc])
      fun l hl => hm l (by simp only [Cond.dlcs]; exact mem_dlcsL.2 ⟨c, hc, hl⟩)]
    simp only [mkAnd]
    rw [if_neg (by omega), if_pos hs]
  | ho cs ih =>
    simp only [Cond.wf, Bool.and_eq_true] at hw
    obtain ⟨h1, h2⟩ := wf0_or.1 hw.1
    have hs : sameChild (Cond.dlcsL cs) = true := by simpa [Cond.dlcs] using hw.2
    have e : decCond s (encCond (.or cs)) = match decConds s (encConds cs) with
        | .error e => .error e
        | .ok cs => mkOr cs := by
      unfold encCond
      rfl
    rw [e, decConds_encConds fun c hc => ih c hc (by simp [Cond.wf, h2 c hc, wf_comp h2 hs hc])
      fun l hl => hm l (by simp only [Cond.dlcs]; exact mem_dlcsL.2 ⟨c, hc, hl⟩)]
    simp only [mkOr]
    rw [if_neg (by omega), if_pos hs]

theorem decForbs_encForbs {s : Space} : ∀ {fs : List Forb}, (∀ f ∈ fs, decForb s (encForb f) = .ok f) →
    decForbs s (encForbs fs) = .ok fs
  | [], _ => by simp [encForbs, decForbs]
  | f :: fs, h => by
    unfold encForbs decForbs
    rw [h f (by simp), decForbs_encForbs (fun d hd => h d (by simp [hd]))]

/-- Decoding an encoded clause gives it back, whatever its nesting. -/
theorem decForb_encForb {s : Space} (hl : Looked s) {f : Forb} (hw : f.wf = true) (hm : ForbIn s f) :
    decForb s (encForb f) = .ok f := by
  induction f using Forb.induct with
  | he h v x =>
    have e : decForb s (encForb (.eq h v x)) = (s.getHP h.name >>= fun g => mkForbEq g v) := by
      unfold encForb
      rfl
    rw [e, getHP_ok hl (hm h (by simp [clauseHps])), bind_ok, mkForbEq_own hw]
  | hi h vs xs =>
    have e : decForb s (encForb (.isIn h vs xs)) = (s.getHP h.name >>= fun g =>
        asVals (some (.arr (vs.map Json.val))) >>= fun vs => mkForbIn g vs) := by
      unfold encForb
      rfl
    rw [e, getHP_ok hl (hm h (by simp [clauseHps])), bind_ok, asVals_map, bind_ok, mkForbIn_own hw]
  | hr op l r =>
    have e : decForb s (encForb (.rel op l r)) = (s.getHP l.name >>= fun l => s.getHP r.name >>= fun r => .ok (.rel op l r)) := by
      unfold encForb
      cases op <;> rfl
    rw [e, getHP_ok hl (hm l (by simp [clauseHps])), bind_ok, getHP_ok hl (hm r (by simp [clauseHps])), bind_ok]
  | ha cs ih =>
    simp only [Forb.wf] at hw
    rw [wfL_iff'] at hw
    have e : decForb s (encForb (.and cs)) = match decForbs s (encForbs cs) with
        | .error e => .error e
        | .ok cs => .ok (.and cs) := by
      unfold encForb
      rfl
    rw [e, decForbs_encForbs fun f hf => ih f hf (hw f hf) fun x hx => hm x (by
      simp only [clauseHps]
      exact mem_clauseHpsL.2 ⟨f, hf, hx⟩)]

end Verif
