import Verif.Lemmas.Weights

/-!
# C91: weights of choices are probabilities
-/

set_option autoImplicit false

namespace Verif

theorem pdfValues_eq {w : WCat} (hw : w.Ok) {vs : List Val} {ps : List Rat}
    (h : List.Forall₂ (Share w.choices w.weights) vs ps) : w.pdfValues vs = .ok ps := by
  have key : ∃ xs, mapExcept w.entry vs = .ok xs ∧ xs.map w.pdfVector = ps := by
    induction h with
    | nil => exact ⟨[], rfl, rfl⟩
    | cons h _ ih =>
      obtain ⟨xs, e1, e2⟩ := ih
      obtain ⟨x, e3, e4⟩ := share_pdfVector hw h
      refine ⟨x :: xs, ?_, by rw [List.map_cons, e4, e2]⟩
      unfold mapExcept
      simp only [WCat.entry, e3]
      rw [show mapExcept _ _ = Except.ok xs from e1]
  obtain ⟨xs, e1, e2⟩ := key
  unfold WCat.pdfValues
  rw [e1]
  exact congrArg Except.ok e2

theorem pdfValues_unknown {w : WCat} {vs : List Val} (h : ∃ v ∈ vs, v.pyIn w.choices = false) :
    w.pdfValues vs = .error .keyError := by
  have key : mapExcept w.entry vs = .error .keyError := by
    induction vs with
    | nil => simp at h
    | cons v vs ih =>
      unfold mapExcept
      cases hi : seqIndex w.choices v with
      | none =>
        have : (Kind.cat w.choices).toVec v = none := by
          show (seqIndex w.choices v).map _ = _
          rw [hi]; rfl
        have : w.entry v = .error .keyError := by unfold WCat.entry; rw [this]
        rw [this]
      | some i =>
        have : w.entry v = .ok (i : Rat) := by unfold WCat.entry; rw [cat_toVec hi]
        rw [this]
        obtain ⟨u, hu, hn⟩ := h
        rcases List.mem_cons.1 hu with rfl | hu
        · obtain ⟨c, h1, h2⟩ := seqIndex_some hi
          rw [pyIn_iff.2 ⟨c, List.mem_of_getElem? h1, h2⟩] at hn
          cases hn
        · rw [ih ⟨u, hu, hn⟩]
  unfold WCat.pdfValues
  rw [key]

/-- **C91**, densities: the density of a choice is its share of the weights, for any number of values in any order; the densities
of all choices sum to one and none is negative. -/
theorem C91_densities {n : Name} {cs : List Val} {d : Option Val} {ws : Option (List Rat)} {w : WCat}
    (hb : mkWCat n cs d ws = .ok w) :
    (∀ vs ps, List.Forall₂ (Share cs ws) vs ps → w.pdfValues vs = .ok ps) ∧
    (∀ v, v.pyIn cs = true → ∃ p, 0 ≤ p ∧ Share cs ws v p) ∧
    ∃ ps, w.pdfValues cs = .ok ps ∧ ps.sum = 1 := by
  have hw := mkWCat_Ok hb
  obtain ⟨_, rfl, rfl, _⟩ := mkWCat_ok hb
  refine ⟨fun vs ps h => pdfValues_eq hw h, ?_, w.probs, ?_, hw.probs.1⟩
  · intro v hv
    obtain ⟨p, hp⟩ := share_exists hw hv
    refine ⟨p, ?_, hp⟩
    obtain ⟨i, _, h2⟩ := (share_iff hw).1 hp
    exact hw.probs.2.1 p (List.mem_of_getElem? h2)
  · refine pdfValues_eq hw (List.forall₂_iff_get.2 ⟨hw.probs.2.2.symm, fun i h1 h2 => ?_⟩)
    refine (share_iff hw).2 ⟨i, seqIndex_getElem hw.distinct (List.getElem?_eq_getElem h1), List.getElem?_eq_getElem h2⟩

example : ∃ w, mkWCat "c" [.str "a", .str "b", .int 3] none (some [1, 0, 3]) = .ok w ∧ w.default = .int 3 ∧
    w.pdfValues [.flt 3, .str "b", .str "a"] = .ok [3 / 4, 0, 1 / 4] := by
  refine ⟨⟨"c", [.str "a", .str "b", .int 3], .int 3, some [1, 0, 3]⟩, by decide +kernel, rfl, by decide +kernel⟩

/-- **C91**, false of the code: the documentation of `pdf_values` says that the density is zero where values are not legal.  For
categorical hyperparameters one value that is not a choice makes the whole call raise `KeyError`. -/
theorem C91_illegal_raises {n : Name} {cs : List Val} {d : Option Val} {ws : Option (List Rat)} {w : WCat}
    (hb : mkWCat n cs d ws = .ok w) {vs : List Val} (h : ∃ v ∈ vs, v.pyIn cs = false) : w.pdfValues vs = .error .keyError := by
  obtain ⟨_, rfl, rfl, _⟩ := mkWCat_ok hb
  exact pdfValues_unknown h

/-- **C91**, equality: two categorical hyperparameters compare equal exactly if they have the same name, equal defaults, and every
value has the same probability in both - in whatever order the choices are written and however the weights are scaled. -/
theorem C91_equal {n n' : Name} {cs cs' : List Val} {d d' : Option Val} {ws ws' : Option (List Rat)} {a b : WCat}
    (ha : mkWCat n cs d ws = .ok a) (hb : mkWCat n' cs' d' ws' = .ok b) :
    a.eq b = true ↔ n = n' ∧ a.default.pyEq b.default = true ∧ ∀ v p, Share cs ws v p ↔ Share cs' ws' v p := by
  have hA := mkWCat_Ok ha
  have hB := mkWCat_Ok hb
  obtain ⟨rfl, rfl, rfl, _⟩ := mkWCat_ok ha
  obtain ⟨rfl, rfl, rfl, _⟩ := mkWCat_ok hb
  have hzip : (a.choices.zip a.probs).all b.sameProb = true ↔
      ∀ v p, Share a.choices a.weights v p → Share b.choices b.weights v p := by
    rw [List.all_eq_true]
    constructor
    · intro h v p hs
      obtain ⟨i, h1, h2⟩ := (share_iff hA).1 hs
      obtain ⟨c, h3, h4⟩ := seqIndex_some h1
      have hm : (c, p) ∈ a.choices.zip a.probs := by
        refine List.mem_of_getElem? (i := i) ?_
        rw [List.getElem?_zip_eq_some]
        exact ⟨h3, h2⟩
      have := h _ hm
      unfold WCat.sameProb at this
      cases hi : seqIndex b.choices c with
      | none => simp [hi] at this
      | some j =>
        simp only [hi, decide_eq_true_eq] at this
        exact share_congr h4 ((share_iff hB).2 ⟨j, hi, this⟩)
    · rintro h ⟨c, p⟩ hm
      obtain ⟨i, hi⟩ := List.mem_iff_getElem?.1 hm
      obtain ⟨h1, h2⟩ := List.getElem?_zip_eq_some.1 hi
      have := h c p ((share_iff hA).2 ⟨i, seqIndex_getElem hA.distinct h1, h2⟩)
      obtain ⟨j, h3, h4⟩ := (share_iff hB).1 this
      unfold WCat.sameProb
      simp only [h3, h4, decide_true]
  have hin : ∀ {x : WCat}, x.Ok → ∀ v, v.pyIn x.choices = true ↔ ∃ p, Share x.choices x.weights v p :=
    fun hx v => ⟨fun h => share_exists hx h, fun ⟨p, h⟩ => share_mem h⟩
  unfold WCat.eq
  constructor
  · intro h
    split at h
    · cases h
    · rename_i hc
      simp only [ne_eq, Bool.or_eq_true, decide_eq_true_eq, Bool.not_eq_true', not_or, not_not, Bool.not_eq_false] at hc
      obtain ⟨⟨h1, h2⟩, h3⟩ := hc
      refine ⟨h1, h2, ?_⟩
      have hab := hzip.1 h
      intro v p
      refine ⟨hab v p, fun hs => ?_⟩
      obtain ⟨y, hy, e⟩ := pyIn_iff.1 (share_mem hs)
      obtain ⟨c, hc, e'⟩ := pigeonhole (R := fun c d : Val => d.pyEq c = true) h3
        (fun c hc => pyIn_iff.1 ((hin hB c).2 (by
          obtain ⟨q, hq⟩ := (hin hA c).1 (pyIn_iff.2 ⟨c, hc, Val.pyEq_refl c⟩)
          exact ⟨q, hab c q hq⟩))) (distinctVals_apart hA.distinct) y hy
      obtain ⟨q, hq⟩ := (hin hA v).1 (pyIn_iff.2 ⟨c, hc, Val.pyEq_trans (Val.pyEq_symm e') e⟩)
      rw [share_unique hB hs (hab v q hq)]
      exact hq
  · rintro ⟨h1, h2, h3⟩
    have hl : a.choices.length = b.choices.length := by
      have key : ∀ {x y : WCat}, x.Ok → y.Ok → (∀ v p, Share x.choices x.weights v p ↔ Share y.choices y.weights v p) →
          x.choices.length ≤ y.choices.length := by
        intro x y hx hy h
        refine length_le_of_rel (R := fun c d : Val => d.pyEq c = true) (fun c hc => pyIn_iff.1 ?_) (distinctVals_apart hx.distinct)
        obtain ⟨q, hq⟩ := (hin hx c).1 (pyIn_iff.2 ⟨c, hc, Val.pyEq_refl c⟩)
        exact (hin hy c).2 ⟨q, (h c q).1 hq⟩
      exact le_antisymm (key hA hB h3) (key hB hA fun v p => (h3 v p).symm)
    rw [if_neg]
    · exact hzip.2 fun v p => (h3 v p).1
    · simp [h1, h2, hl]

/-- **C91**, equality is an equivalence on what the constructor builds. -/
theorem C91_equivalence {n n' n'' : Name} {cs cs' cs'' : List Val} {d d' d'' : Option Val} {ws ws' ws'' : Option (List Rat)}
    {a b c : WCat} (ha : mkWCat n cs d ws = .ok a) (hb : mkWCat n' cs' d' ws' = .ok b) (hc : mkWCat n'' cs'' d'' ws'' = .ok c) :
    a.eq a = true ∧ (a.eq b = true → b.eq a = true) ∧ (a.eq b = true → b.eq c = true → a.eq c = true) := by
  refine ⟨(C91_equal ha ha).2 ⟨rfl, Val.pyEq_refl _, fun _ _ => Iff.rfl⟩, fun h => ?_, fun h h' => ?_⟩
  · obtain ⟨h1, h2, h3⟩ := (C91_equal ha hb).1 h
    exact (C91_equal hb ha).2 ⟨h1.symm, Val.pyEq_symm h2, fun v p => (h3 v p).symm⟩
  · obtain ⟨h1, h2, h3⟩ := (C91_equal ha hb).1 h
    obtain ⟨k1, k2, k3⟩ := (C91_equal hb hc).1 h'
    exact (C91_equal ha hc).2 ⟨h1.trans k1, Val.pyEq_trans h2 k2, fun v p => (h3 v p).trans (k3 v p)⟩

/-- **C91**: hyperparameters that compare equal give the same answer to every question about densities of values. -/
theorem C91_equal_densities {n n' : Name} {cs cs' : List Val} {d d' : Option Val} {ws ws' : Option (List Rat)} {a b : WCat}
    (ha : mkWCat n cs d ws = .ok a) (hb : mkWCat n' cs' d' ws' = .ok b) (h : a.eq b = true) (vs : List Val) :
    a.pdfValues vs = b.pdfValues vs := by
  obtain ⟨_, _, h3⟩ := (C91_equal ha hb).1 h
  have hA := mkWCat_Ok ha
  have hB := mkWCat_Ok hb
  obtain ⟨rfl, rfl, rfl, _⟩ := mkWCat_ok ha
  obtain ⟨rfl, rfl, rfl, _⟩ := mkWCat_ok hb
  by_cases hv : ∀ v ∈ vs, v.pyIn a.choices = true
  · have : ∃ ps, List.Forall₂ (Share a.choices a.weights) vs ps := by
      induction vs with
      | nil => exact ⟨[], .nil⟩
      | cons v vs ih =>
        obtain ⟨ps, hps⟩ := ih fun v hv' => hv v (List.mem_cons_of_mem _ hv')
        obtain ⟨p, hp⟩ := share_exists hA (hv v (List.mem_cons_self ..))
        exact ⟨p :: ps, .cons hp hps⟩
    obtain ⟨ps, hps⟩ := this
    rw [pdfValues_eq hA hps, pdfValues_eq hB (hps.imp fun v p => (h3 v p).1)]
  · have hv' : ∃ v ∈ vs, v.pyIn a.choices = false := by
      by_contra hc
      refine hv fun v hm => ?_
      by_contra hn
      exact hc ⟨v, hm, by simpa using hn⟩
    obtain ⟨v, hm, hn⟩ := hv'
    rw [pdfValues_unknown ⟨v, hm, hn⟩, pdfValues_unknown ⟨v, hm, ?_⟩]
    cases hb' : v.pyIn b.choices with
    | false => rfl
    | true =>
      obtain ⟨p, hp⟩ := share_exists hB hb'
      rw [share_mem ((h3 v p).2 hp)] at hn
      cases hn

example : (WCat.mk "c" [.str "a", .str "b", .int 3] (.str "a") (some [1, 1, 2])).eq
    ⟨"c", [.int 3, .str "a", .str "b"], .str "a", some [10, 5, 5]⟩ = true := by decide +kernel

/-- C91: what compares equal need not have the same entries; a choice is stored as its position. -/
theorem C91_equal_other_entries :
    ∃ a b : WCat, mkWCat "c" [.str "a", .str "b"] (some (.str "a")) none = .ok a ∧
      mkWCat "c" [.str "b", .str "a"] (some (.str "a")) none = .ok b ∧ a.eq b = true ∧
      (Kind.cat a.choices).toVec (.str "a") = some 0 ∧ (Kind.cat b.choices).toVec (.str "a") = some 1 :=
  ⟨⟨"c", [.str "a", .str "b"], .str "a", none⟩, ⟨"c", [.str "b", .str "a"], .str "a", none⟩, by decide +kernel, by decide +kernel,
    by decide +kernel, by decide +kernel, by decide +kernel⟩

theorem probabilities_scaled {size : Nat} {ws : List Rat} {c : Rat} (hc : c ≠ 0) :
    Num.probabilities size (some (ws.map (c * ·))) = Num.probabilities size (some ws) := by
  have hs : (ws.map (c * ·)).sum = c * ws.sum := by rw [List.sum_map_mul_left, List.map_id']
  show (ws.map (c * ·)).map (· / (ws.map (c * ·)).sum) = ws.map (· / ws.sum)
  rw [hs, List.map_map]
  exact List.map_congr_left fun x _ => mul_div_mul_left _ _ hc

/-- **C91**: only the proportions of the weights matter: multiplied by a positive number they are accepted as well, give the same
default and a hyperparameter that compares equal. -/
theorem C91_scaled {n : Name} {cs : List Val} {d : Option Val} {ws : List Rat} {w : WCat} (hb : mkWCat n cs d (some ws) = .ok w)
    {c : Rat} (hc : 0 < c) :
    ∃ w', mkWCat n cs d (some (ws.map (c * ·))) = .ok w' ∧ w'.default = w.default ∧ w.eq w' = true := by
  have hm : mkCat n cs d (some (ws.map (c * ·))) = mkCat n cs d (some ws) := by
    have h1 : badWeights cs (some (ws.map (c * ·))) = badWeights cs (some ws) := by
      unfold badWeights
      simp only [List.length_map, List.any_map, List.all_map]
      congr 1
      · congr 2
        funext x
        simp [mul_neg_iff, hc, not_lt.2 hc.le]
      · congr 1
        funext x
        simp [hc.ne']
    have h2 : (ws.map (c * ·)).map (· / (ws.map (c * ·)).sum) = ws.map (· / ws.sum) := probabilities_scaled (size := 0) hc.ne'
    unfold mkCat
    rw [h1]
    cases d with
    | some d => rfl
    | none =>
      dsimp only
      rw [h2]
  have hw : mkWCat n cs d (some (ws.map (c * ·))) = .ok { w with weights := some (ws.map (c * ·)) } := by
    unfold mkWCat at hb ⊢
    rw [hm]
    cases he : mkCat n cs d (some ws) with
    | error e => rw [he] at hb; cases hb
    | ok h =>
      rw [he] at hb
      cases hb
      rfl
  refine ⟨_, hw, rfl, (C91_equal hb hw).2 ⟨rfl, Val.pyEq_refl _, fun v p => ?_⟩⟩
  have hsum : (ws.map (c * ·)).sum = c * ws.sum := by rw [List.sum_map_mul_left, List.map_id']
  unfold Share
  refine exists_congr fun i => exists_congr fun x => and_congr_right fun _ => and_congr_right fun _ => ?_
  simp only [List.getElem?_map, hsum]
  constructor
  · rintro ⟨y, h1, h2⟩
    exact ⟨c * y, by rw [h1]; rfl, by rw [h2, mul_div_mul_left _ _ hc.ne']⟩
  · rintro ⟨y, h1, h2⟩
    obtain ⟨z, h3, rfl⟩ := Option.map_eq_some_iff.1 h1
    exact ⟨z, h3, by rw [h2, mul_div_mul_left _ _ hc.ne']⟩

/-- **C91**: no weights and equal weights are the same, and `to_uniform` makes this of any hyperparameter: the same name, choices
and default, and every choice equally probable. -/
theorem C91_uniform {n : Name} {cs : List Val} {d : Option Val} {ws : Option (List Rat)} {w : WCat} (hb : mkWCat n cs d ws = .ok w)
    {c : Rat} (hc : 0 < c) :
    ∃ u u', w.toUniform = .ok u ∧ u.name = n ∧ u.choices = cs ∧ u.default = w.default ∧
      (∀ v p, Share u.choices u.weights v p ↔ v.pyIn cs = true ∧ p = 1 / (cs.length : Rat)) ∧
      mkWCat n cs (some w.default) (some (cs.map fun _ => c)) = .ok u' ∧ u.eq u' = true := by
  obtain ⟨rfl, rfl, rfl, h4, h5, h6, h7, h8⟩ := mkWCat_ok hb
  have mk : ∀ ws', (∀ l, ws' = some l → l.length = w.choices.length ∧ (∀ x ∈ l, 0 ≤ x) ∧ ∃ x ∈ l, x ≠ 0) →
      mkWCat w.name w.choices (some w.default) ws' = .ok { w with weights := ws' } := by
    intro ws' hws'
    obtain ⟨h, e, _⟩ := C48_categorical_accepts (n := w.name) (d := some w.default) h5 h4 (by rintro v ⟨⟩; exact h7) hws'
    obtain ⟨_, _, _, _, e'⟩ := C48_categorical e
    unfold mkWCat
    rw [e]
    simp only
    rw [e' _ rfl]
  have hlen : (0 : Rat) < w.choices.length := by exact_mod_cast List.length_pos_iff.2 h5
  have hu := mk none (by simp)
  have hu' := mk (some (w.choices.map fun _ => c)) (by
    rintro l ⟨⟩
    refine ⟨by simp, by simp [hc.le], c, ?_, hc.ne'⟩
    obtain ⟨x, hx⟩ := List.exists_mem_of_ne_nil _ h5
    exact List.mem_map.2 ⟨x, hx, rfl⟩)
  have hsh : ∀ v p, Share w.choices none v p ↔ v.pyIn w.choices = true ∧ p = 1 / (w.choices.length : Rat) := by
    intro v p
    constructor
    · intro h
      exact ⟨share_mem h, by obtain ⟨i, x, _, _, h3⟩ := h; exact h3⟩
    · rintro ⟨h1, h2⟩
      obtain ⟨x, hx, e⟩ := pyIn_iff.1 h1
      obtain ⟨i, hi⟩ := List.mem_iff_getElem?.1 hx
      exact ⟨i, x, hi, e, h2⟩
  refine ⟨_, _, hu, rfl, rfl, rfl, hsh, hu', (C91_equal hu hu').2 ⟨rfl, Val.pyEq_refl _, fun v p => ?_⟩⟩
  unfold Share
  refine exists_congr fun i => exists_congr fun x => and_congr_right fun hx => and_congr_right fun _ => ?_
  have hsum : (w.choices.map fun _ => c).sum = w.choices.length * c := by
    rw [List.map_const', List.sum_replicate, nsmul_eq_mul]
  have hdiv : c / (w.choices.length * c) = 1 / (w.choices.length : Rat) := by
    field_simp
  simp only [hsum, List.getElem?_map, hx, Option.map_some, Option.some.injEq]
  constructor
  · rintro rfl
    exact ⟨c, rfl, hdiv.symm⟩
  · rintro ⟨_, rfl, rfl⟩
    exact hdiv

/-- **C91**, sampling: whatever is drawn, one value per draw is returned; every one of them is a choice whose probability is not zero. -/
theorem C91_samples {n : Name} {cs : List Val} {d : Option Val} {ws : Option (List Rat)} {w : WCat} (hb : mkWCat n cs d ws = .ok w)
    {draws : List CatDraw} (hd : ∀ x ∈ draws, w.canDraw x = true) :
    ∃ vs, w.sampleValues draws = some vs ∧ vs.length = draws.length ∧ ∀ v ∈ vs, v ∈ cs ∧ ∃ p, Share cs ws v p ∧ 0 < p := by
  have hw := mkWCat_Ok hb
  obtain ⟨_, rfl, rfl, _⟩ := mkWCat_ok hb
  have one : ∀ x : CatDraw, w.canDraw x = true → ∃ (i : Nat) (p : Rat), w.sampleVector x = i ∧ w.probs[i]? = some p ∧ 0 < p := by
    intro x hx
    cases x with
    | index i =>
      simp only [WCat.canDraw, Bool.and_eq_true, Option.isNone_iff_eq_none, decide_eq_true_eq] at hx
      have hpos : (0 : Rat) < w.choices.length := by exact_mod_cast hw.len_pos
      refine ⟨i, 1 / w.choices.length, rfl, (probs_get hx.2).2 ?_, by positivity⟩
      rw [hx.1]
    | unit u =>
      simp only [WCat.canDraw, Bool.and_eq_true, decide_eq_true_eq] at hx
      obtain ⟨p, h1, h2⟩ := numpyChoice_pos hw.probs.2.1 hw.probs.1 hx.1.2 hx.2
      exact ⟨_, p, rfl, h1, h2⟩
  unfold WCat.sampleValues
  induction draws with
  | nil => exact ⟨[], rfl, rfl, by simp⟩
  | cons x draws ih =>
    obtain ⟨vs, e1, e2, e3⟩ := ih fun y hy => hd y (List.mem_cons_of_mem _ hy)
    obtain ⟨i, p, h1, h2, h3⟩ := one x (hd x (List.mem_cons_self ..))
    have hi : i < w.choices.length := hw.probs.2.2 ▸ (List.getElem?_eq_some_iff.1 h2).1
    have hval : (Kind.cat w.choices).toVal (w.sampleVector x) = some w.choices[i] := by
      rw [h1]
      show (if closeToInt (i : Rat) then Kind.pyIndex w.choices (rint (i : Rat)) else none) = _
      have hr : rint (i : Rat) = (i : Int) := by exact_mod_cast rint_int (i : Int)
      rw [closeToInt_nat, if_pos rfl, hr, pyIndex_nat, List.getElem?_eq_getElem hi]
    refine ⟨w.choices[i] :: vs, ?_, by simp [e2], ?_⟩
    · rw [List.map_cons, List.mapM_cons, hval, e1]
      rfl
    · intro v hv
      rcases List.mem_cons.1 hv with rfl | hv
      · exact ⟨List.getElem_mem _, p,
          (share_iff hw).2 ⟨i, seqIndex_getElem hw.distinct (List.getElem?_eq_getElem hi), h2⟩, h3⟩
      · exact e3 v hv

/-- **C91**, sampling with weights: the `i`-th choice is returned exactly for the uniform numbers of an interval whose length is the
share of its weight; the intervals lie side by side in the order of the choices. -/
theorem C91_sample_interval {n : Name} {cs : List Val} {d : Option Val} {ws : List Rat} {w : WCat}
    (hb : mkWCat n cs d (some ws) = .ok w) {u : Rat} (h0 : 0 ≤ u) (h1 : u < 1) (i : Nat) :
    (w.sampleVector (.unit u) = i ↔ sumFirst ws i / ws.sum ≤ u ∧ u < sumFirst ws (i + 1) / ws.sum) ∧
    ∀ x, ws[i]? = some x → sumFirst ws (i + 1) / ws.sum - sumFirst ws i / ws.sum = x / ws.sum := by
  have hw := mkWCat_Ok hb
  obtain ⟨_, rfl, h3, _⟩ := mkWCat_ok hb
  have hp : w.probs = ws.map (· / ws.sum) := by unfold WCat.probs; rw [h3]; rfl
  have hf : ∀ k, sumFirst w.probs k = sumFirst ws k / ws.sum := by
    intro k
    unfold sumFirst
    rw [hp, ← List.map_take, Num.sum_map_div]
  refine ⟨?_, fun x hx => ?_⟩
  · rw [← hf, ← hf, ← numpyChoice_iff hw.probs.2.1 hw.probs.1 h0 h1 i]
    show ((numpyChoice w.probs u : Nat) : Rat) = (i : Rat) ↔ _
    exact Nat.cast_inj
  · rw [sumFirst_succ hx]
    ring

example : (WCat.mk "c" [.str "a", .str "b", .int 3] (.str "a") (some [1, 0, 3])).sampleValues
    [.unit 0, .unit (1 / 4), .unit (1 / 5), .unit (99 / 100)] = some [.str "a", .int 3, .str "a", .int 3] := by decide +kernel

/-- C91, false of the code: an entry slightly above the last position is legal and decodes to the last choice, but its density is
zero, with and without weights. -/
theorem C91_last_entry_has_no_density (ws : Option (List Rat)) :
    (Kind.cat [.str "a", .str "b"]).legalVec (1 + 1 / 1000000) = true ∧
    (Kind.cat [.str "a", .str "b"]).toVal (1 + 1 / 1000000) = some (.str "b") ∧
    (WCat.mk "c" [.str "a", .str "b"] (.str "a") ws).pdfVector (1 + 1 / 1000000) = 0 := by
  refine ⟨by decide +kernel, by decide +kernel, ?_⟩
  have hm : choiceMask 2 (1 + 1 / 1000000) = false := by decide +kernel
  have : (WCat.mk "c" [.str "a", .str "b"] (.str "a") ws).distPdf (1 + 1 / 1000000) = 0 := by
    cases ws with
    | none =>
      show (if choiceMask 2 (1 + 1 / 1000000) = true then _ else _) = _
      rw [hm]; rfl
    | some ws =>
      show (if choiceMask 2 (1 + 1 / 1000000) = true then _ else _) = _
      rw [hm]; rfl
  unfold WCat.pdfVector
  rw [this, zero_mul]

/-! ## The theorems applied to two descriptions of the same hyperparameter -/

namespace ExWt

/-- Choices `a`, `b`, 3 with weights 1, 1, 2. -/
def one : WCat := ⟨"c", [.str "a", .str "b", .int 3], .str "a", some [1, 1, 2]⟩

/-- The same in another order, with weights five times as large. -/
def two : WCat := ⟨"c", [.int 3, .str "a", .str "b"], .str "a", some [10, 5, 5]⟩

theorem made_one : mkWCat "c" [.str "a", .str "b", .int 3] (some (.str "a")) (some [1, 1, 2]) = .ok one := by decide +kernel
theorem made_two : mkWCat "c" [.int 3, .str "a", .str "b"] (some (.str "a")) (some [10, 5, 5]) = .ok two := by decide +kernel

example := C91_densities made_one
example := C91_illegal_raises made_one (vs := [.str "a", .str "z"]) ⟨.str "z", by decide, by decide⟩
example := (C91_equal made_one made_two).1 (by decide +kernel)
example := C91_equivalence made_one made_two made_one
example : one.pdfValues [.str "b", .int 3] = two.pdfValues [.str "b", .int 3] := C91_equal_densities made_one made_two (by decide +kernel) _
example := C91_scaled made_one (c := 1 / 3) (by decide +kernel)
example := C91_uniform made_one (c := 7) (by decide)
example := C91_samples made_one (draws := [.unit 0, .unit (1 / 2)]) (by decide +kernel)
example := (C91_sample_interval made_one (u := 3 / 10) (by decide +kernel) (by decide +kernel) 1).1.2 (by decide +kernel)

end ExWt

end Verif
