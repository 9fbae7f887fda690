import Verif.Spec.Weights
import Verif.Lemmas.Eq
import Verif.Lemmas.Value
import Verif.Lemmas.Subst
import Verif.Props.Distributions

/-!
# Lemmas about weighted choices
-/

set_option autoImplicit false

namespace Verif

theorem mkWCat_ok {n : Name} {cs : List Val} {d : Option Val} {ws : Option (List Rat)} {w : WCat}
    (h : mkWCat n cs d ws = .ok w) : w.name = n ∧ w.choices = cs ∧ w.weights = ws ∧ distinctVals cs = true ∧ cs ≠ [] ∧
      (∀ l, ws = some l → l.length = cs.length ∧ (∀ x ∈ l, 0 ≤ x) ∧ ∃ x ∈ l, x ≠ 0) ∧ w.default.pyIn cs = true ∧
      (∀ v, d = some v → w.default = v) := by
  unfold mkWCat at h
  cases hm : mkCat n cs d ws with
  | error e => rw [hm] at h; cases h
  | ok hp =>
    rw [hm] at h
    cases h
    obtain ⟨h1, h2, h3, h4, h5⟩ := C48_categorical hm
    unfold HP.wf at h1
    rw [h3] at h1
    simp only [Bool.and_eq_true, Bool.not_eq_true', List.isEmpty_eq_false_iff] at h1
    refine ⟨rfl, rfl, rfl, h1.1.2, h1.1.1, ?_, h4, h5⟩
    rintro l rfl
    unfold mkCat at hm
    split at hm
    · cases hm
    · split at hm
      · cases hm
      · rename_i hb
        simp only [badWeights, Bool.or_eq_true, decide_eq_true_eq, List.any_eq_true, List.all_eq_true, not_or, not_not, not_exists,
          not_and, not_lt] at hb
        refine ⟨hb.1.1, hb.1.2, ?_⟩
        by_contra hc
        refine hb.2 fun x hx => ?_
        by_contra hx0
        exact hc ⟨x, hx, hx0⟩

/-- What the constructor establishes. -/
structure WCat.Ok (w : WCat) : Prop where
  distinct : distinctVals w.choices = true
  ne : w.choices ≠ []
  weights : ∀ l, w.weights = some l → l.length = w.choices.length ∧ (∀ x ∈ l, 0 ≤ x) ∧ ∃ x ∈ l, x ≠ 0

theorem mkWCat_Ok {n : Name} {cs : List Val} {d : Option Val} {ws : Option (List Rat)} {w : WCat}
    (h : mkWCat n cs d ws = .ok w) : w.Ok := by
  obtain ⟨_, rfl, rfl, h4, h5, h6, _⟩ := mkWCat_ok h
  exact ⟨h4, h5, h6⟩

theorem WCat.Ok.len_pos {w : WCat} (h : w.Ok) : 0 < w.choices.length := List.length_pos_iff.2 h.ne

theorem WCat.Ok.probs {w : WCat} (h : w.Ok) : w.probs.sum = 1 ∧ (∀ p ∈ w.probs, 0 ≤ p) ∧ w.probs.length = w.choices.length := by
  obtain ⟨a, b, c, _⟩ := Num.C47_probabilities (K := Rat) h.len_pos h.weights
  exact ⟨a, b, c⟩

theorem probs_get {w : WCat} {i : Nat} (hi : i < w.choices.length) {p : Rat} :
    w.probs[i]? = some p ↔ match w.weights with
      | none => p = 1 / (w.choices.length : Rat)
      | some ws => ∃ x, ws[i]? = some x ∧ p = x / ws.sum := by
  unfold WCat.probs Num.probabilities
  cases w.weights with
  | none =>
    simp only
    rw [List.getElem?_eq_getElem (by simpa using hi), List.getElem_replicate, Option.some.injEq]
    exact eq_comm
  | some ws =>
    simp only [List.getElem?_map, Option.map_eq_some_iff]
    exact exists_congr fun x => and_congr_right fun _ => eq_comm

theorem share_iff {w : WCat} (hw : w.Ok) {v : Val} {p : Rat} :
    Share w.choices w.weights v p ↔ ∃ i, seqIndex w.choices v = some i ∧ w.probs[i]? = some p := by
  constructor
  · rintro ⟨i, c, h1, h2, h3⟩
    have hi : i < w.choices.length := (List.getElem?_eq_some_iff.1 h1).1
    refine ⟨i, ?_, (probs_get hi).2 h3⟩
    have := seqIndex_getElem hw.distinct h1
    unfold seqIndex at this ⊢
    simpa only [Val.pyEq_congr_right h2] using this
  · rintro ⟨i, h1, h2⟩
    obtain ⟨c, h3, h4⟩ := seqIndex_some h1
    exact ⟨i, c, h3, h4, (probs_get (List.getElem?_eq_some_iff.1 h3).1).1 h2⟩

theorem trunc_nat (i : Nat) : trunc (i : Rat) = i := by
  unfold trunc
  rw [if_pos (by exact_mod_cast Nat.zero_le i)]
  exact_mod_cast Rat.floor_intCast (i : Int)

theorem choiceMask_nat {size i : Nat} (h : i < size) : choiceMask size (i : Rat) = true := by
  unfold choiceMask
  have h1 : (0 : Rat) ≤ i := by exact_mod_cast Nat.zero_le i
  have h2 : (i : Rat) ≤ (size : Rat) - 1 := by
    have : ((i + 1 : Nat) : Rat) ≤ size := by exact_mod_cast h
    push_cast at this; linarith
  rw [decide_eq_true h1, decide_eq_true h2, closeToInt_nat]
  rfl

theorem pdfVector_nat {w : WCat} {i : Nat} {p : Rat} (hw : w.Ok) (h : w.probs[i]? = some p) :
    w.pdfVector (i : Rat) = p := by
  have hlen := hw.probs.2.2
  have hi : i < w.choices.length := hlen ▸ (List.getElem?_eq_some_iff.1 h).1
  have h1 : (0 : Rat) ≤ i := by exact_mod_cast Nat.zero_le i
  have h2 : (i : Rat) ≤ (w.choices.length : Rat) - 1 := by
    have : ((i + 1 : Nat) : Rat) ≤ w.choices.length := by exact_mod_cast hi
    push_cast at this; linarith
  have hl : (Kind.cat w.choices).legalVec (i : Rat) = true := by
    simp only [Kind.legalVec, Bool.and_eq_true, decide_eq_true_eq]
    exact ⟨⟨h1, by exact_mod_cast hi⟩, closeToInt_nat i⟩
  unfold WCat.pdfVector
  rw [hl, if_pos rfl, mul_one]
  unfold WCat.distPdf
  cases hws : w.weights with
  | none =>
    simp only
    rw [choiceMask_nat hi, if_pos rfl]
    have := (probs_get hi).1 h
    rw [hws] at this
    exact this.symm
  | some ws =>
    simp only
    rw [choiceMask_nat hi, if_pos rfl]
    have hc : clipQ (i : Rat) 0 ((w.choices.length : Rat) - 1) = i := by
      unfold clipQ
      rw [if_neg (not_lt.2 h1), if_neg (not_lt.2 h2)]
    rw [hc, trunc_nat, Int.toNat_natCast, List.getD_eq_getElem?_getD, h]
    rfl

theorem cat_toVec {cs : List Val} {v : Val} {i : Nat} (h : seqIndex cs v = some i) : (Kind.cat cs).toVec v = some (i : Rat) := by
  show (seqIndex cs v).map _ = _
  rw [h]; rfl

theorem share_pdfVector {w : WCat} (hw : w.Ok) {v : Val} {p : Rat} (h : Share w.choices w.weights v p) :
    ∃ x, (Kind.cat w.choices).toVec v = some x ∧ w.pdfVector x = p := by
  obtain ⟨i, h1, h2⟩ := (share_iff hw).1 h
  exact ⟨i, cat_toVec h1, pdfVector_nat hw h2⟩

theorem share_exists {w : WCat} (hw : w.Ok) {v : Val} (h : v.pyIn w.choices = true) : ∃ p, Share w.choices w.weights v p := by
  obtain ⟨i, hi⟩ := seqIndex_isSome h
  obtain ⟨c, hc, _⟩ := seqIndex_some hi
  have hlt : i < w.probs.length := by rw [hw.probs.2.2]; exact (List.getElem?_eq_some_iff.1 hc).1
  exact ⟨w.probs[i], (share_iff hw).2 ⟨i, hi, List.getElem?_eq_getElem hlt⟩⟩

theorem share_unique {w : WCat} (hw : w.Ok) {v : Val} {p q : Rat} (h : Share w.choices w.weights v p)
    (h' : Share w.choices w.weights v q) : p = q := by
  obtain ⟨i, h1, h2⟩ := (share_iff hw).1 h
  obtain ⟨j, h3, h4⟩ := (share_iff hw).1 h'
  rw [h1] at h3
  cases h3
  rw [h2] at h4
  exact Option.some.inj h4

theorem share_mem {cs : List Val} {ws : Option (List Rat)} {v : Val} {p : Rat} (h : Share cs ws v p) : v.pyIn cs = true := by
  obtain ⟨i, c, h1, h2, _⟩ := h
  exact pyIn_iff.2 ⟨c, List.mem_of_getElem? h1, h2⟩

theorem share_congr {cs : List Val} {ws : Option (List Rat)} {v v' : Val} {p : Rat} (e : v.pyEq v' = true)
    (h : Share cs ws v p) : Share cs ws v' p := by
  obtain ⟨i, c, h1, h2, h3⟩ := h
  exact ⟨i, c, h1, Val.pyEq_trans h2 e, h3⟩

theorem length_le_of_rel {α β : Type} {R : α → β → Prop} : ∀ {cs : List α} {ds : List β}, (∀ c ∈ cs, ∃ d ∈ ds, R c d) →
    cs.Pairwise (fun a b => ∀ d, ¬ (R a d ∧ R b d)) → cs.length ≤ ds.length
  | [], _, _, _ => Nat.zero_le _
  | c :: cs, ds, hR, hp => by
    obtain ⟨d0, hd0, hcd0⟩ := hR c (by simp)
    obtain ⟨l1, l2, rfl⟩ := List.append_of_mem hd0
    have hp' := List.pairwise_cons.1 hp
    have ih := length_le_of_rel (cs := cs) (ds := l1 ++ l2) (R := R) (by
        intro c' hc'
        obtain ⟨d', hd', hcd'⟩ := hR c' (by simp [hc'])
        have : d' ≠ d0 := by rintro rfl; exact hp'.1 c' hc' d' ⟨hcd0, hcd'⟩
        refine ⟨d', ?_, hcd'⟩
        simp only [List.mem_append, List.mem_cons] at hd' ⊢
        rcases hd' with h | h | h
        · exact .inl h
        · exact absurd h this
        · exact .inr h) hp'.2
    simp only [List.length_append, List.length_cons] at ih ⊢
    omega

/-! ## Sampling -/

theorem cumsum_length (acc : Rat) (ps : List Rat) : (cumsum acc ps).length = ps.length := by
  induction ps generalizing acc with
  | nil => rfl
  | cons p ps ih => simp [cumsum, ih]

theorem cumsum_getLastD (acc d : Rat) (ps : List Rat) (h : ps ≠ []) : (cumsum acc ps).getLastD d = acc + ps.sum := by
  induction ps generalizing acc d with
  | nil => exact absurd rfl h
  | cons p ps ih =>
    cases ps with
    | nil => simp [cumsum]
    | cons q ps =>
      have := ih (acc + p) (acc + p) (by simp)
      rw [cumsum, List.getLastD_cons, this, List.sum_cons (a := p), add_assoc]

/-- Counting the partial sums that are at most `u` finds the interval in which `u` lies. -/
theorem count_cumsum (ps : List Rat) : ∀ (acc u : Rat), (∀ p ∈ ps, 0 ≤ p) → acc ≤ u → u < acc + ps.sum → ∀ i,
    ((cumsum acc ps).countP (fun c => decide (c ≤ u)) = i ↔ acc + sumFirst ps i ≤ u ∧ u < acc + sumFirst ps (i + 1)) := by
  induction ps with
  | nil => intro acc u _ h1 h2; simp at h2; linarith
  | cons p ps ih =>
    intro acc u hp h1 h2 i
    have hp0 := hp p (List.mem_cons_self ..)
    have hps : ∀ q ∈ ps, 0 ≤ q := fun q hq => hp q (List.mem_cons_of_mem _ hq)
    rw [List.sum_cons] at h2
    unfold cumsum
    rw [List.countP_cons]
    by_cases hle : acc + p ≤ u
    · rw [if_pos (by simpa using hle)]
      cases i with
      | zero =>
        constructor
        · intro e; omega
        · rintro ⟨_, h⟩
          simp [sumFirst] at h; linarith
      | succ i =>
        have := ih (acc + p) u hps hle (by linarith) i
        simp only [sumFirst] at this ⊢
        rw [List.take_succ_cons, List.take_succ_cons, List.sum_cons, List.sum_cons, ← add_assoc, ← add_assoc, ← this]
        omega
    · rw [if_neg (by simpa using hle)]
      have hz : (cumsum (acc + p) ps).countP (fun c => decide (c ≤ u)) = 0 := by
        rw [List.countP_eq_zero]
        have key : ∀ (qs : List Rat) (b : Rat), (∀ q ∈ qs, 0 ≤ q) → u < b → ∀ c ∈ cumsum b qs, ¬ c ≤ u := by
          intro qs
          induction qs with
          | nil => intro b _ _ c hc; simp [cumsum] at hc
          | cons q qs ih' =>
            intro b hq hb c hc
            have := hq q (List.mem_cons_self ..)
            simp only [cumsum, List.mem_cons] at hc
            rcases hc with rfl | hc
            · linarith
            · exact ih' (b + q) (fun q hq' => hq q (List.mem_cons_of_mem _ hq')) (by linarith) c hc
        intro c hc
        simpa using key ps (acc + p) hps (not_le.1 hle) c hc
      rw [hz]
      cases i with
      | zero => simp [sumFirst]; exact ⟨h1, not_le.1 hle⟩
      | succ i =>
        constructor
        · intro e; omega
        · rintro ⟨h, _⟩
          exfalso
          simp only [sumFirst, List.take_succ_cons, List.sum_cons] at h
          have : 0 ≤ (ps.take i).sum := List.sum_nonneg fun q hq => hps q (List.mem_of_mem_take hq)
          linarith

theorem numpyChoice_iff {ps : List Rat} (hp : ∀ p ∈ ps, 0 ≤ p) (hs : ps.sum = 1) {u : Rat} (h0 : 0 ≤ u) (h1 : u < 1) (i : Nat) :
    numpyChoice ps u = i ↔ sumFirst ps i ≤ u ∧ u < sumFirst ps (i + 1) := by
  have hne : ps ≠ [] := by rintro rfl; simp at hs
  unfold numpyChoice
  dsimp only
  rw [cumsum_getLastD 0 1 ps hne, zero_add, hs]
  have hid : (fun x : Rat => x / 1) = id := by funext x; simp
  simp only [hid, List.map_id]
  have := count_cumsum ps 0 u hp h0 (by rw [hs]; linarith) i
  simpa using this

theorem sumFirst_succ {ps : List Rat} {i : Nat} {p : Rat} (h : ps[i]? = some p) : sumFirst ps (i + 1) = sumFirst ps i + p := by
  obtain ⟨hi, rfl⟩ := List.getElem?_eq_some_iff.1 h
  unfold sumFirst
  rw [List.take_add_one, List.getElem?_eq_getElem hi, List.sum_append]
  simp

theorem numpyChoice_pos {ps : List Rat} (hp : ∀ p ∈ ps, 0 ≤ p) (hs : ps.sum = 1) {u : Rat} (h0 : 0 ≤ u) (h1 : u < 1) :
    ∃ p, ps[numpyChoice ps u]? = some p ∧ 0 < p := by
  obtain ⟨h2, h3⟩ := (numpyChoice_iff hp hs h0 h1 _).1 rfl
  by_cases hi : numpyChoice ps u < ps.length
  · refine ⟨ps[numpyChoice ps u], List.getElem?_eq_getElem hi, ?_⟩
    rw [sumFirst_succ (List.getElem?_eq_getElem hi)] at h3
    linarith
  · exfalso
    unfold sumFirst at h2
    rw [List.take_of_length_le (not_lt.1 hi), hs] at h2
    linarith

end Verif
