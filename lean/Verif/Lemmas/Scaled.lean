import Verif.Spec.Scaled
import Verif.Lemmas.F64Check
import Verif.Lemmas.Prior
import Mathlib.Data.List.Forall2
import Mathlib.Tactic.SplitIfs

/-!
# Logarithmic scales: entries, numbers and their rational twins

Every number that a check compares is sent to a rational number, in such a way that the order is kept and rational numbers stay.  The linear
entries of the images are the *twin* of a vector; all functions give on a vector what those of `Model/Space.lean` give on its twin.
-/

set_option autoImplicit false

namespace Verif.Scaled
open Verif Verif.Spec Verif.Num

/-! ## Approximation by rational numbers -/

/-- `φ` keeps the order of the numbers in `R`, and the rational ones among them. -/
structure Keeps (R : ℝ → Prop) (φ : ℝ → Rat) : Prop where
  mono : ∀ x y, R x → R y → x < y → φ x < φ y
  fix : ∀ q : Rat, R q → φ q = q

theorem Keeps.lt {R : ℝ → Prop} {φ : ℝ → Rat} (h : Keeps R φ) {x y : ℝ} (hx : R x) (hy : R y) : φ x < φ y ↔ x < y := by
  refine ⟨fun hl => ?_, h.mono x y hx hy⟩
  rcases lt_trichotomy x y with h1 | h1 | h1
  · exact h1
  · rw [h1] at hl; exact absurd hl (lt_irrefl _)
  · exact absurd (h.mono y x hy hx h1) (not_lt.2 hl.le)

theorem Keeps.eq {R : ℝ → Prop} {φ : ℝ → Rat} (h : Keeps R φ) {x y : ℝ} (hx : R x) (hy : R y) : φ x = φ y ↔ x = y := by
  refine ⟨fun he => ?_, fun he => by rw [he]⟩
  rcases lt_trichotomy x y with h1 | h1 | h1
  · exact absurd ((h.lt hx hy).2 h1) (by rw [he]; exact lt_irrefl _)
  · exact h1
  · exact absurd ((h.lt hy hx).2 h1) (by rw [he]; exact lt_irrefl _)

theorem Keeps.le {R : ℝ → Prop} {φ : ℝ → Rat} (h : Keeps R φ) {x y : ℝ} (hx : R x) (hy : R y) : φ x ≤ φ y ↔ x ≤ y := by
  rw [← not_lt, ← not_lt, h.lt hy hx]

theorem gap (L : List ℝ) : ∃ ε : ℝ, 0 < ε ∧ ∀ x ∈ L, ∀ y ∈ L, x < y → x + ε ≤ y := by
  induction L with
  | nil => exact ⟨1, one_pos, by simp⟩
  | cons a L ih =>
    obtain ⟨ε, h0, hε⟩ := ih
    have : ∃ δ : ℝ, 0 < δ ∧ ∀ x ∈ L, (x < a → x + δ ≤ a) ∧ (a < x → a + δ ≤ x) := by
      clear hε
      induction L with
      | nil => exact ⟨1, one_pos, by simp⟩
      | cons b L ih =>
        obtain ⟨δ, d0, hδ⟩ := ih
        rcases eq_or_ne a b with e | e
        · refine ⟨δ, d0, fun x hx => ?_⟩
          rcases List.mem_cons.1 hx with rfl | hx
          · subst e; exact ⟨fun h => absurd h (lt_irrefl _), fun h => absurd h (lt_irrefl _)⟩
          · exact hδ x hx
        · have hp : 0 < |a - b| := abs_pos.2 (sub_ne_zero.2 e)
          refine ⟨min δ |a - b|, lt_min d0 hp, fun x hx => ?_⟩
          rcases List.mem_cons.1 hx with rfl | hx
          · have := min_le_right δ |a - x|
            constructor
            · intro h
              have e2 : |a - x| = a - x := abs_of_pos (by linarith)
              rw [e2] at this ⊢
              linarith
            · intro h
              have e2 : |a - x| = -(a - x) := abs_of_neg (by linarith)
              rw [e2] at this ⊢
              linarith
          · have := min_le_left δ |a - b|
            exact ⟨fun h => by have := (hδ x hx).1 h; linarith, fun h => by have := (hδ x hx).2 h; linarith⟩
    obtain ⟨δ, d0, hδ⟩ := this
    refine ⟨min ε δ, lt_min h0 d0, fun x hx y hy hxy => ?_⟩
    have m1 := min_le_left ε δ
    have m2 := min_le_right ε δ
    rcases List.mem_cons.1 hx with e1 | hx <;> rcases List.mem_cons.1 hy with e2 | hy
    · rw [e1, e2] at hxy; exact absurd hxy (lt_irrefl _)
    · rw [e1] at hxy ⊢
      have := (hδ y hy).2 hxy
      linarith
    · rw [e2] at hxy ⊢
      have := (hδ x hx).1 hxy
      linarith
    · have := hε x hx y hy hxy
      linarith

open Classical in
/-- Finitely many numbers have rational twins in the same order. -/
theorem keeps_exists (L : List ℝ) : ∃ φ : ℝ → Rat, Keeps (· ∈ L) φ := by
  obtain ⟨ε, h0, hε⟩ := gap L
  have hex : ∀ x : ℝ, ∃ q : Rat, x ≤ q ∧ (q : ℝ) < x + ε ∧ ∀ r : Rat, x = r → q = r := by
    intro x
    by_cases hq : ∃ r : Rat, x = r
    · obtain ⟨r, rfl⟩ := hq
      exact ⟨r, le_refl _, by linarith, fun r' h => by exact_mod_cast h⟩
    · obtain ⟨q, h1, h2⟩ := exists_rat_btwn (show x < x + ε by linarith)
      exact ⟨q, h1.le, h2, fun r h => absurd ⟨r, h⟩ hq⟩
  choose φ h1 h2 h3 using hex
  refine ⟨φ, fun x y hx hy hxy => ?_, fun q _ => h3 q q rfl⟩
  have : (φ x : ℝ) < φ y := lt_of_lt_of_le (h2 x) ((hε x hx y hy hxy).trans (h1 y))
  exact_mod_cast this

open Classical in
/-- Rational numbers are their own twins. -/
theorem keeps_rat : ∃ φ : ℝ → Rat, Keeps (fun x => ∃ q : Rat, x = q) φ := by
  refine ⟨fun x => if h : ∃ q : Rat, x = q then h.choose else 0, ?_, ?_⟩
  · intro x y hx hy hxy
    have e1 := hx.choose_spec
    have e2 := hy.choose_spec
    rw [dif_pos hx, dif_pos hy]
    have : ((hx.choose : Rat) : ℝ) < (hy.choose : Rat) := by rw [← e1, ← e2]; exact hxy
    exact_mod_cast this
  · intro q hq
    have e1 := hq.choose_spec
    rw [dif_pos hq]
    exact_mod_cast e1.symm

/-! ## Entries and numbers -/

noncomputable section

/-- The entry of a number. -/
def encR (lg : Bool) : Kind → ℝ → ℝ
  | .int l u, y => onScale lg l u y
  | .flt l u, y => onScale lg l u y
  | _, y => y

/-- The linear entry of a rational number. -/
def encQ : Kind → Rat → Rat
  | .int l u, y => normalizeQ y l u
  | .flt l u, y => normalizeQ y l u
  | _, y => y

/-- Numbers that can be put on the scale. -/
def Dom (lg : Bool) : Kind → ℝ → Prop
  | .int _ _, y => lg = true → 0 < y
  | .flt _ _, y => lg = true → 0 < y
  | _, _ => True

def Pos (lg : Bool) (k : Kind) : Prop := lg = true → match k with
  | .int l _ => 0 < l
  | .flt l _ => 0 < l
  | _ => True

theorem onScale_lt {lg : Bool} {l u y z : ℝ} (h : l < u) (hl : lg = true → 0 < l) (hy : lg = true → 0 < y) (hz : lg = true → 0 < z) :
    onScale lg l u y < onScale lg l u z ↔ y < z := by
  unfold onScale
  cases lg with
  | false =>
    have : 0 < u - l := sub_pos.2 h
    simp only [Bool.false_eq_true, if_false]
    rw [div_lt_div_iff_of_pos_right this, sub_lt_sub_iff_right]
  | true =>
    have hl := hl rfl
    have hy := hy rfl
    have hz := hz rfl
    have : 0 < Real.log u - Real.log l := sub_pos.2 (Real.log_lt_log hl h)
    simp only [if_true]
    rw [div_lt_div_iff_of_pos_right this, sub_lt_sub_iff_right, Real.log_lt_log_iff hy hz]

theorem encR_lt {h : HP} (hw : h.wf = true) {lg : Bool} (hp : Pos lg h.kind) {y z : ℝ} (hy : Dom lg h.kind y)
    (hz : Dom lg h.kind z) : encR lg h.kind y < encR lg h.kind z ↔ y < z := by
  cases hk : h.kind with
  | cat cs => rfl
  | ord cs => rfl
  | const c => rfl
  | int l u =>
    have := HP.wf_int hw hk
    rw [hk] at hp hy hz
    exact onScale_lt (by exact_mod_cast this) (fun e => by exact_mod_cast hp e) hy hz
  | flt l u =>
    have := HP.wf_flt hw hk
    rw [hk] at hp hy hz
    exact onScale_lt (by exact_mod_cast this) (fun e => by exact_mod_cast hp e) hy hz

theorem encR_eq {h : HP} (hw : h.wf = true) {lg : Bool} (hp : Pos lg h.kind) {y z : ℝ} (hy : Dom lg h.kind y)
    (hz : Dom lg h.kind z) : encR lg h.kind y = encR lg h.kind z ↔ y = z := by
  refine ⟨fun he => ?_, fun he => by rw [he]⟩
  rcases lt_trichotomy y z with h1 | h1 | h1
  · exact absurd ((encR_lt hw hp hy hz).2 h1) (by rw [he]; exact lt_irrefl _)
  · exact h1
  · exact absurd ((encR_lt hw hp hz hy).2 h1) (by rw [he]; exact lt_irrefl _)

theorem encQ_lt {h : HP} (hw : h.wf = true) {y z : Rat} : encQ h.kind y < encQ h.kind z ↔ y < z := by
  cases hk : h.kind with
  | cat cs => rfl
  | ord cs => rfl
  | const c => rfl
  | int l u => exact Num.normalize_strict (HP.wf_int hw hk)
  | flt l u => exact Num.normalize_strict (HP.wf_flt hw hk)

theorem encQ_eq {h : HP} (hw : h.wf = true) {y z : Rat} : encQ h.kind y = encQ h.kind z ↔ y = z := by
  refine ⟨fun he => ?_, fun he => by rw [he]⟩
  rcases lt_trichotomy y z with h1 | h1 | h1
  · exact absurd ((encQ_lt hw).2 h1) (by rw [he]; exact lt_irrefl _)
  · exact h1
  · exact absurd ((encQ_lt hw).2 h1) (by rw [he]; exact lt_irrefl _)

theorem kvec_eq (k : Kind) (w : Val) : k.toVec w = (numberOf k w).map (encQ k) := by
  cases k with
  | cat cs => simp only [Kind.toVec, numberOf]; cases seqIndex cs w <;> rfl
  | ord cs => simp only [Kind.toVec, numberOf]; cases seqIndex cs w <;> rfl
  | const c => rfl
  | int l u => rfl
  | flt l u => rfl

theorem scaleEnc_eq (lg : Bool) (l u q : ℝ) :
    (if lg then toVecLog l u q else normalize q l u) = onScale lg l u q := by
  cases lg with
  | false => simp [onScale, Num.normalize_def]
  | true => simp [onScale, toVecLog, Num.normalize_def]

theorem toVec_eq (lg : Bool) (k : Kind) (w : Val) : toVec lg k w = (numberOf k w).map (fun q : Rat => encR lg k (q : ℝ)) := by
  cases k with
  | cat cs => simp only [toVec, Kind.toVec, numberOf]; cases seqIndex cs w <;> rfl
  | ord cs => simp only [toVec, Kind.toVec, numberOf]; cases seqIndex cs w <;> rfl
  | const c => rfl
  | int l u => simp only [toVec, scaleEnc_eq]; rfl
  | flt l u => simp only [toVec, scaleEnc_eq]; rfl

theorem numberOf_legal {k : Kind} {w : Val} (h : k.legalValue w = true) : ∃ q, numberOf k w = some q := by
  obtain ⟨x, hx⟩ := legal_toVec h
  rw [kvec_eq] at hx
  cases hq : numberOf k w with
  | none => rw [hq] at hx; cases hx
  | some q => exact ⟨q, rfl⟩

theorem numberOf_dom {k : Kind} {lg : Bool} (hp : Pos lg k) {w : Val} (h : k.legalValue w = true) {q : Rat}
    (hq : numberOf k w = some q) : Dom lg k (q : ℝ) := by
  cases k with
  | cat cs => trivial
  | ord cs => trivial
  | const c => trivial
  | int l u =>
    intro e
    have hl : 0 < l := hp e
    simp only [numberOf] at hq
    simp only [Kind.legalValue, hq, Bool.and_eq_true, decide_eq_true_eq] at h
    have h1 : (1 : Int) ≤ rint q := by omega
    by_contra hc
    have hq0 : q ≤ 0 := by exact_mod_cast not_lt.1 hc
    have h3 := abs_le.1 (Num.rintK_dist q)
    have h2 : (1 : Rat) ≤ (Num.rintK q : Int) := by rw [← rint_eq_rintK]; exact_mod_cast h1
    linarith
  | flt l u =>
    intro e
    have hl : 0 < l := hp e
    simp only [numberOf] at hq
    simp only [Kind.legalValue, hq, Bool.and_eq_true, decide_eq_true_eq] at h
    have : 0 < q := lt_of_lt_of_le hl h.1
    exact_mod_cast this

theorem Stands.enc {lg : Bool} {k : Kind} {x y : ℝ} (h : Stands lg k x y) : x = encR lg k y := by
  cases k <;> exact h.2

theorem Stands.dom {lg : Bool} {k : Kind} {x y : ℝ} (h : Stands lg k x y) (hp : Pos lg k) : Dom lg k y := by
  cases k with
  | cat cs => trivial
  | ord cs => trivial
  | const c => trivial
  | int l u =>
    intro e
    have hl : 0 < l := hp e
    obtain ⟨⟨n, h1, -, rfl⟩, -⟩ := h
    exact_mod_cast lt_of_lt_of_le hl h1
  | flt l u =>
    intro e
    have hl : 0 < l := hp e
    refine lt_of_lt_of_le ?_ h.1.1
    exact_mod_cast hl

/-! ## Twins -/

/-- An entry and its rational twin. -/
def Ent (lg : Bool) (k : Kind) (R : ℝ → Prop) (φ : ℝ → Rat) (e : Option ℝ) (e' : NV) : Prop :=
  (e = none ∧ e' = none) ∨ ∃ x y, e = some x ∧ Stands lg k x y ∧ R y ∧ e' = some (encQ k (φ y))

/-- The numbers in the kind are in `R`. -/
def KindIn (R : ℝ → Prop) : Kind → Prop
  | .int l u => R l ∧ R u
  | .flt l u => R l ∧ R u
  | .cat cs => ∀ c ∈ cs, ∀ q, c.num? = some q → R (q : ℝ)
  | .ord cs => ∀ c ∈ cs, ∀ q, c.num? = some q → R (q : ℝ)
  | .const c => ∀ q, c.num? = some q → R (q : ℝ)

/-- The number of the value is in `R`. -/
def ValIn (R : ℝ → Prop) (k : Kind) (w : Val) : Prop := ∀ q, numberOf k w = some q → R (q : ℝ)

section Entry
variable {R : ℝ → Prop} {φ : ℝ → Rat} (hφ : Keeps R φ) {h : HP} (hw : h.wf = true) {lg : Bool} (hp : Pos lg h.kind)

theorem Ent.isSome {k : Kind} {e : Option ℝ} {e' : NV} (he : Ent lg k R φ e e') : isSet e' = e.isSome := by
  rcases he with ⟨rfl, rfl⟩ | ⟨x, y, rfl, -, -, rfl⟩ <;> rfl

include hφ

theorem phi_int {n : Int} (hn : R (n : ℝ)) : φ (n : ℝ) = n := by
  have := hφ.fix n (by simpa using hn)
  simpa using this

theorem phi_nat {n : Nat} (hn : R (n : ℝ)) : φ (n : ℝ) = n := by
  have := hφ.fix n (by simpa using hn)
  simpa using this

include hw

theorem twin_lt {y : ℝ} (hy : R y) {q : Rat} (hq : R (q : ℝ)) : encQ h.kind (φ y) < encQ h.kind q ↔ y < q := by
  rw [encQ_lt hw, ← hφ.lt hy hq, hφ.fix q hq]

theorem twin_gt {y : ℝ} (hy : R y) {q : Rat} (hq : R (q : ℝ)) : encQ h.kind q < encQ h.kind (φ y) ↔ (q : ℝ) < y := by
  rw [encQ_lt hw, ← hφ.lt hq hy, hφ.fix q hq]

theorem twin_eq {y : ℝ} (hy : R y) {q : Rat} (hq : R (q : ℝ)) : encQ h.kind (φ y) = encQ h.kind q ↔ y = q := by
  rw [encQ_eq hw, ← hφ.eq hy hq, hφ.fix q hq]

include hp

theorem mem_filterMap_twin {x y : ℝ} (hs : Stands lg h.kind x y) (hy : R y) {ws : List Val} (hl : ∀ w ∈ ws, h.kind.legalValue w = true)
    (hv : ∀ w ∈ ws, ValIn R h.kind w) :
    (encQ h.kind (φ y) ∈ ws.filterMap h.kind.toVec) ↔ x ∈ ws.filterMap (toVec lg h.kind) := by
  rw [List.mem_filterMap, List.mem_filterMap]
  have hd := Stands.dom hs hp
  constructor
  · rintro ⟨w, hwm, e⟩
    obtain ⟨q, hq⟩ := numberOf_legal (hl w hwm)
    refine ⟨w, hwm, ?_⟩
    rw [kvec_eq, hq] at e
    rw [toVec_eq, hq, Stands.enc hs]
    simp only [Option.map_some, Option.some.injEq] at e ⊢
    rw [(twin_eq hφ hw hy (hv w hwm q hq)).1 e.symm]
  · rintro ⟨w, hwm, e⟩
    obtain ⟨q, hq⟩ := numberOf_legal (hl w hwm)
    refine ⟨w, hwm, ?_⟩
    rw [toVec_eq, hq, Stands.enc hs] at e
    rw [kvec_eq, hq]
    simp only [Option.map_some, Option.some.injEq] at e ⊢
    rw [encR_eq hw hp (numberOf_dom hp (hl w hwm) hq) hd] at e
    rw [← e, hφ.fix q (hv w hwm q hq)]

/-- The test of a literal. -/
theorem onEntry_twin {t : Test} (ht : (match t with
      | .bin _ v x => h.kind.legalValue v = true ∧ h.kind.toVec v = some x
      | .isIn vs xs => (∀ v ∈ vs, h.kind.legalValue v = true) ∧ xs = vs.filterMap h.kind.toVec))
    (hv : ∀ w ∈ testVals t, ValIn R h.kind w) {e : Option ℝ} {e' : NV} (he : Ent lg h.kind R φ e e') :
    onEntryB lg h.kind t e = t.onEntry e' := by
  unfold onEntryB
  cases t with
  | bin op v x0 =>
    simp only at ht
    obtain ⟨q, hq⟩ := numberOf_legal ht.1
    have hq' := hv v (by simp [testVals]) q hq
    have hx0 : x0 = encQ h.kind q := by
      have := ht.2
      rw [kvec_eq, hq] at this
      simpa using this.symm
    have hdq := numberOf_dom hp ht.1 hq
    have htv : (toVec lg h.kind v).getD 0 = encR lg h.kind (q : ℝ) := by rw [toVec_eq, hq]; rfl
    rcases he with ⟨rfl, rfl⟩ | ⟨x, y, rfl, hs, hy, rfl⟩
    · cases op <;> simp [onEntry, Test.onEntry]
    · have hdy := Stands.dom hs hp
      have hx := Stands.enc hs
      subst hx hx0
      cases op <;> simp [onEntry, Test.onEntry, htv, twin_lt hφ hw hy hq', twin_gt hφ hw hy hq', twin_eq hφ hw hy hq',
        encR_lt hw hp hdy hdq, encR_lt hw hp hdq hdy, encR_eq hw hp hdy hdq]
  | isIn vs xs =>
    simp only at ht
    rcases he with ⟨rfl, rfl⟩ | ⟨x, y, rfl, hs, hy, rfl⟩
    · simp [onEntry, Test.onEntry]
    · simp only [onEntry, Test.onEntry, ht.2, mem_filterMap_twin hφ hw hp hs hy ht.1 (fun w hw' => hv w (by simpa [testVals] using hw'))]
      simp

theorem eqEntry_twin {S : Scales} (hS : S h = lg) {w : Val} {x0 : Rat} (hl : h.kind.legalValue w = true) (hx : h.kind.toVec w = some x0)
    (hv : ValIn R h.kind w) {e : Option ℝ} {e' : NV} (he : Ent lg h.kind R φ e e') :
    eqEntry S h w e = (Test.bin .eq w x0).onEntry e' := by
  have := onEntry_twin hφ hw hp (t := .bin .eq w x0) ⟨hl, hx⟩ (by intro w' hw'; simp only [testVals, List.mem_singleton] at hw'; subst hw'; exact hv) he
  refine Eq.trans ?_ this
  unfold onEntryB onEntry eqEntry
  rw [hS]
  rcases he with ⟨rfl, rfl⟩ | ⟨x, y, rfl, hs, hy, rfl⟩ <;> simp

theorem inEntry_twin {S : Scales} (hS : S h = lg) {ws : List Val} (hl : ∀ w ∈ ws, h.kind.legalValue w = true)
    (hv : ∀ w ∈ ws, ValIn R h.kind w) {e : Option ℝ} {e' : NV} (he : Ent lg h.kind R φ e e') :
    inEntry S h ws e = (Test.isIn ws (ws.filterMap h.kind.toVec)).onEntry e' := by
  have := onEntry_twin hφ hw hp (t := .isIn ws (ws.filterMap h.kind.toVec)) ⟨hl, rfl⟩ (by simpa [testVals] using hv) he
  refine Eq.trans ?_ this
  unfold onEntryB inEntry
  rw [hS]
  exact decide_eq_decide.2 Iff.rfl

end Entry

/-! ## Legality and reading -/

theorem onScale_unsafe {lg : Bool} {l u y : ℝ} (h : l < u) (hl : lg = true → 0 < l) (hy : lg = true → 0 < y) :
    (if lg then unsafeLog l u (onScale lg l u y) else scale (onScale lg l u y) l u) = y := by
  cases lg with
  | false =>
    simp only [onScale, Bool.false_eq_true, if_false]
    rw [← Num.normalize_def, Num.scale_normalize h]
  | true =>
    have hlog : Real.log l < Real.log u := Real.log_lt_log (hl rfl) h
    simp only [onScale, if_true, unsafeLog]
    rw [← Num.normalize_def, Num.scale_normalize hlog, Real.exp_log (hy rfl)]

theorem onScale_mem {lg : Bool} {l u y : ℝ} (h : l < u) (hl : lg = true → 0 < l) (h1 : l ≤ y) (h2 : y ≤ u) :
    0 ≤ onScale lg l u y ∧ onScale lg l u y ≤ 1 := by
  have hy : lg = true → 0 < y := fun e => lt_of_lt_of_le (hl e) h1
  have hu : lg = true → 0 < u := fun e => (hl e).trans h
  have e0 : onScale lg l u l = 0 := by unfold onScale; split <;> simp
  have e1 : onScale lg l u u = 1 := by
    unfold onScale
    split
    · rename_i e
      exact div_self (sub_ne_zero.2 (Real.log_lt_log (hl e) h).ne')
    · exact div_self (sub_ne_zero.2 h.ne')
  constructor
  · rw [← e0, ← not_lt, onScale_lt h hl hy hl, not_lt]; exact h1
  · rw [← e1, ← not_lt, onScale_lt h hl hu hy, not_lt]; exact h2

theorem closeToIntK_int (n : Int) : closeToIntK ((n : Int) : ℝ) := by
  unfold closeToIntK
  rw [Num.rintK_int, sub_self, abs_zero]
  positivity

theorem closeToIntK_nat (n : Nat) : closeToIntK ((n : Nat) : ℝ) := by
  have := closeToIntK_int n
  simpa using this

theorem rintK_natR (n : Nat) : rintK ((n : Nat) : ℝ) = n := by
  have := Num.rintK_int (K := ℝ) n
  simpa using this

theorem range_lt {h : HP} (hw : h.wf = true) {l u : Int} (hk : h.kind = .int l u) : (l : ℝ) < u := by
  exact_mod_cast HP.wf_int hw hk

theorem range_ltF {h : HP} (hw : h.wf = true) {l u : Rat} (hk : h.kind = .flt l u) : (l : ℝ) < u := by
  exact_mod_cast HP.wf_flt hw hk

/-- An entry that stands for a number is legal. -/
theorem stands_legal {h : HP} (hw : h.wf = true) {lg : Bool} (hp : Pos lg h.kind) {x y : ℝ} (hs : Stands lg h.kind x y) :
    legalVec lg h.kind x := by
  cases hk : h.kind with
  | cat cs =>
    rw [hk] at hs
    obtain ⟨⟨i, hi, rfl⟩, rfl⟩ := hs
    exact ⟨by positivity, by exact_mod_cast hi, closeToIntK_nat i⟩
  | ord cs =>
    rw [hk] at hs
    obtain ⟨⟨i, hi, rfl⟩, rfl⟩ := hs
    exact ⟨by positivity, by exact_mod_cast hi, closeToIntK_nat i⟩
  | const c =>
    rw [hk] at hs
    obtain ⟨rfl, rfl⟩ := hs
    rfl
  | int l u =>
    have hlu := range_lt hw hk
    rw [hk] at hs hp
    have hl : lg = true → (0 : ℝ) < l := fun e => by exact_mod_cast hp e
    obtain ⟨⟨n, h1, h2, rfl⟩, rfl⟩ := hs
    have h1' : (l : ℝ) ≤ n := by exact_mod_cast h1
    have h2' : (n : ℝ) ≤ u := by exact_mod_cast h2
    have hu := onScale_unsafe hlu hl (fun e => lt_of_lt_of_le (hl e) h1')
    have hm := onScale_mem hlu hl h1' h2'
    show if lg = true then _ else _
    cases lg with
    | true =>
      simp only [if_true] at hu ⊢
      unfold legalVecLogInt
      rw [hu]
      exact ⟨by rw [Num.rintK_int]; exact h1, by rw [Num.rintK_int]; exact h2, closeToIntK_int n⟩
    | false =>
      simp only [Bool.false_eq_true, if_false] at hu ⊢
      refine ⟨?_, hm⟩
      have : onScale false l u (n : ℝ) * ((u : ℝ) - l) = ((n - l : Int) : ℝ) := by
        unfold scale at hu
        push_cast
        linarith
      rw [this]
      exact closeToIntK_int _
  | flt l u =>
    have hlu := range_ltF hw hk
    rw [hk] at hs hp
    have hl : lg = true → (0 : ℝ) < l := fun e => by exact_mod_cast hp e
    obtain ⟨⟨h1, h2⟩, rfl⟩ := hs
    exact onScale_mem hlu hl h1 h2

/-- Its twin is legal. -/
theorem twin_legal {R : ℝ → Prop} {φ : ℝ → Rat} (hφ : Keeps R φ) {h : HP} (hw : h.wf = true) (hR : KindIn R h.kind) {lg : Bool}
    {x y : ℝ} (hs : Stands lg h.kind x y) (hy : R y) : h.kind.legalVec (encQ h.kind (φ y)) = true := by
  cases hk : h.kind with
  | cat cs =>
    rw [hk] at hs
    obtain ⟨⟨i, hi, rfl⟩, rfl⟩ := hs
    simp [Kind.legalVec, encQ, phi_nat hφ hy, hi, closeToInt_nat]
  | ord cs =>
    rw [hk] at hs
    obtain ⟨⟨i, hi, rfl⟩, rfl⟩ := hs
    simp [Kind.legalVec, encQ, phi_nat hφ hy, hi, closeToInt_nat]
  | const c =>
    rw [hk] at hs
    obtain ⟨rfl, rfl⟩ := hs
    have : φ ((1 : Nat) : ℝ) = ((1 : Nat) : Rat) := phi_nat hφ (by simpa using hy)
    have : φ 1 = 1 := by simpa using this
    simp [Kind.legalVec, encQ, this]
  | int l u =>
    have hlu := HP.wf_int hw hk
    rw [hk] at hs
    obtain ⟨⟨n, h1, h2, rfl⟩, -⟩ := hs
    have := toVec_legal hw (w := .int n) (x := encQ h.kind n) (by rw [hk]; simp [Kind.legalValue, Val.num?, rint_int, h1, h2, closeToInt_int])
      (by rw [hk]; rfl) (fun l u _ => ⟨n, rfl⟩)
    rw [hk] at this
    rw [phi_int hφ hy]
    exact this
  | flt l u =>
    have hlu := HP.wf_flt hw hk
    rw [hk] at hs hR
    obtain ⟨⟨h1, h2⟩, -⟩ := hs
    have k1 := (hφ.le hR.1 hy).2 h1
    have k2 := (hφ.le hy hR.2).2 h2
    rw [hφ.fix _ hR.1] at k1
    rw [hφ.fix _ hR.2] at k2
    have := (Num.scale_mem (K := Rat) (x := encQ (.flt l u) (φ y)) hlu).1 (by
      have e : Num.scale (encQ (.flt l u) (φ y)) l u = φ y := Num.scale_normalize hlu
      rw [e]
      exact ⟨k1, k2⟩)
    simp [Kind.legalVec, this.1, this.2]

/-- A value that was read and its twin. -/
def ReadTwin (R : ℝ → Prop) (φ : ℝ → Rat) (r : RVal) (v : Val) : Prop :=
  (∃ y, r = .num y ∧ v = .flt (φ y) ∧ R y) ∨ (r = .val v ∧ ∀ q, v.num? = some q → R (q : ℝ))

theorem pyIndex_nat (cs : List Val) {i : Nat} (hi : i < cs.length) : Kind.pyIndex cs (i : Int) = some cs[i] := by
  simp [Kind.pyIndex, hi]

/-- Reading an entry. -/
theorem toVal_twin {R : ℝ → Prop} {φ : ℝ → Rat} (hφ : Keeps R φ) {h : HP} (hw : h.wf = true) (hR : KindIn R h.kind) {lg : Bool}
    (hp : Pos lg h.kind) {x y : ℝ} (hs : Stands lg h.kind x y) (hy : R y) :
    ∃ r v, toVal lg h.kind x = some r ∧ h.kind.toVal (encQ h.kind (φ y)) = some v ∧ ReadTwin R φ r v := by
  cases hk : h.kind with
  | cat cs =>
    rw [hk] at hs hR
    obtain ⟨⟨i, hi, rfl⟩, rfl⟩ := hs
    refine ⟨.val cs[i], cs[i], ?_, ?_, .inr ⟨rfl, hR _ (List.getElem_mem hi)⟩⟩
    · simp [toVal, closeToIntK_nat, rintK_natR, pyIndex_nat cs hi]
    · have e : rint (i : Rat) = i := by have := rint_int i; simpa using this
      simp [Kind.toVal, encQ, phi_nat hφ hy, closeToInt_nat, e, pyIndex_nat cs hi]
  | ord cs =>
    rw [hk] at hs hR
    obtain ⟨⟨i, hi, rfl⟩, rfl⟩ := hs
    refine ⟨.val cs[i], cs[i], ?_, ?_, .inr ⟨rfl, hR _ (List.getElem_mem hi)⟩⟩
    · simp [toVal, closeToIntK_nat, rintK_natR, pyIndex_nat cs hi]
    · have e : rint (i : Rat) = i := by have := rint_int i; simpa using this
      simp [Kind.toVal, encQ, phi_nat hφ hy, closeToInt_nat, e, pyIndex_nat cs hi]
  | const c =>
    rw [hk] at hR
    exact ⟨.val c, c, rfl, rfl, .inr ⟨rfl, hR⟩⟩
  | int l u =>
    have hlu := range_lt hw hk
    have hlq := HP.wf_int hw hk
    rw [hk] at hs hp
    have hl : lg = true → (0 : ℝ) < l := fun e => by exact_mod_cast hp e
    obtain ⟨⟨n, h1, h2, rfl⟩, rfl⟩ := hs
    have h1' : (l : ℝ) ≤ n := by exact_mod_cast h1
    have hu := onScale_unsafe hlu hl (fun e => lt_of_lt_of_le (hl e) h1')
    refine ⟨.val (.int n), .int n, ?_, ?_, .inr ⟨rfl, fun q hq => ?_⟩⟩
    · simp only [toVal, unsafeVal, hu, Num.rintK_int]
    · have e : scaleQ (normalizeQ n l u) l u = n := Num.scale_normalize (K := Rat) hlq
      simp only [Kind.toVal, encQ, phi_int hφ hy, e, rint_int]
    · simp only [Val.num?, Option.some.injEq] at hq
      subst hq
      simpa using hy
  | flt l u =>
    have hlu := range_ltF hw hk
    have hlq := HP.wf_flt hw hk
    rw [hk] at hs hp hR
    have hl : lg = true → (0 : ℝ) < l := fun e => by exact_mod_cast hp e
    obtain ⟨⟨h1, h2⟩, rfl⟩ := hs
    have hu := onScale_unsafe hlu hl (fun e => lt_of_lt_of_le (hl e) h1)
    have k1 := (hφ.le hR.1 hy).2 h1
    have k2 := (hφ.le hy hR.2).2 h2
    rw [hφ.fix _ hR.1] at k1
    rw [hφ.fix _ hR.2] at k2
    refine ⟨.num y, .flt (φ y), ?_, ?_, .inl ⟨y, rfl, rfl, hy⟩⟩
    · simp only [toVal, unsafeVal, hu, Num.clip_id h1 h2]
    · have e : scaleQ (normalizeQ (φ y) l u) l u = φ y := Num.scale_normalize (K := Rat) hlq
      have e2 : clipQ (φ y) l u = φ y := Num.clip_id (K := Rat) k1 k2
      simp only [Kind.toVal, encQ, e, e2]

theorem lt?_iff (a b : Val) : (a.lt? b == some true) = true ↔
    (∃ p q, a.num? = some p ∧ b.num? = some q ∧ p < q) ∨ ∃ s t, RVal.str? (.val a) = some s ∧ RVal.str? (.val b) = some t ∧ s < t := by
  cases a <;> cases b <;> simp [Val.lt?, Val.num?, RVal.str?]

theorem pyEq_num (a b : Val) : a.pyEq b = true ↔
    (∃ p q, a.num? = some p ∧ b.num? = some q ∧ p = q) ∨ ∃ s t, RVal.str? (.val a) = some s ∧ RVal.str? (.val b) = some t ∧ s = t := by
  cases a <;> cases b <;> simp [Val.pyEq, Val.num?, RVal.str?] <;> exact eq_comm

theorem ReadTwin.str {R : ℝ → Prop} {φ : ℝ → Rat} {r : RVal} {v : Val} (h : ReadTwin R φ r v) : r.str? = RVal.str? (.val v) := by
  rcases h with ⟨y, rfl, rfl, -⟩ | ⟨rfl, -⟩ <;> rfl

theorem ReadTwin.num {R : ℝ → Prop} {φ : ℝ → Rat} (hφ : Keeps R φ) {r : RVal} {v : Val} (h : ReadTwin R φ r v) :
    (∃ x, r.num? = some x ∧ R x ∧ v.num? = some (φ x)) ∨ (r.num? = none ∧ v.num? = none) := by
  rcases h with ⟨y, rfl, rfl, hy⟩ | ⟨rfl, hv⟩
  · exact .inl ⟨y, rfl, hy, rfl⟩
  · cases hq : v.num? with
    | none => exact .inr ⟨by simp [RVal.num?, hq], rfl⟩
    | some q => exact .inl ⟨q, by simp [RVal.num?, hq], hv q hq, by rw [hφ.fix q (hv q hq)]⟩

/-- Comparing two values that were read. -/
theorem onVals_twin {R : ℝ → Prop} {φ : ℝ → Rat} (hφ : Keeps R φ) {r r' : RVal} {v v' : Val} (h : ReadTwin R φ r v)
    (h' : ReadTwin R φ r' v') (op : RelOp) : onVals op r r' = op.onVals v v' := by
  have key : ∀ (P : ℝ → ℝ → Prop) (Q : Rat → Rat → Prop), (∀ x y, R x → R y → (Q (φ x) (φ y) ↔ P x y)) →
      ((∃ x y, r.num? = some x ∧ r'.num? = some y ∧ P x y) ↔ ∃ p q, v.num? = some p ∧ v'.num? = some q ∧ Q p q) := by
    intro P Q hPQ
    rcases h.num hφ with ⟨x, e1, hx, e2⟩ | ⟨e1, e2⟩ <;> rcases h'.num hφ with ⟨y, f1, hy, f2⟩ | ⟨f1, f2⟩ <;>
      simp [e1, e2, f1, f2]
    exact (hPQ x y hx hy).symm
  rw [Bool.eq_iff_iff]
  cases op with
  | lt =>
    simp only [onVals, RelOp.onVals, decide_eq_true_eq]
    rw [lt?_iff, key (fun x y => x < y) (fun x y => x < y) (fun x y hx hy => hφ.lt hx hy), h.str, h'.str]
  | eq =>
    simp only [onVals, RelOp.onVals, decide_eq_true_eq]
    rw [pyEq_num, key (fun x y => x = y) (fun x y => x = y) (fun x y hx hy => hφ.eq hx hy), h.str, h'.str]
  | gt =>
    simp only [onVals, RelOp.onVals, decide_eq_true_eq]
    rw [lt?_iff, key (fun x y => y < x) (fun x y => y < x) (fun x y hx hy => hφ.lt hy hx), h.str, h'.str]
    constructor
    · rintro (⟨p, q, a, b, c⟩ | ⟨p, q, a, b, c⟩)
      · exact .inl ⟨q, p, b, a, c⟩
      · exact .inr ⟨q, p, b, a, c⟩
    · rintro (⟨p, q, a, b, c⟩ | ⟨p, q, a, b, c⟩)
      · exact .inl ⟨q, p, b, a, c⟩
      · exact .inr ⟨q, p, b, a, c⟩

/-- A relation on two entries. -/
theorem rel_twin {R : ℝ → Prop} {φ : ℝ → Rat} (hφ : Keeps R φ) {S : Scales} {l r : HP} (wl : l.wf = true) (wr : r.wf = true)
    (kl : KindIn R l.kind) (kr : KindIn R r.kind) (pl : Pos (S l) l.kind) (pr : Pos (S r) r.kind) {a b : Option ℝ} {a' b' : NV}
    (ha : Ent (S l) l.kind R φ a a') (hb : Ent (S r) r.kind R φ b b') (op : RelOp) :
    relOnEntries S op l r a b = Verif.relOnEntries op l r a' b' := by
  rcases ha with ⟨rfl, rfl⟩ | ⟨x, y, rfl, hs, hy, rfl⟩
  · rfl
  · rcases hb with ⟨rfl, rfl⟩ | ⟨x2, y2, rfl, hs2, hy2, rfl⟩
    · rfl
    · obtain ⟨u, u', e1, e2, e3⟩ := toVal_twin hφ wl kl pl hs hy
      obtain ⟨w, w', f1, f2, f3⟩ := toVal_twin hφ wr kr pr hs2 hy2
      simp only [relOnEntries, Verif.relOnEntries, e1, e2, f1, f2]
      exact onVals_twin hφ e3 f3 op

end

end Verif.Scaled
