import Verif.Model.Raise
import Verif.Spec.Raise
import Verif.Lemmas.Sample
import Verif.Lemmas.Value
import Verif.Lemmas.Config

/-!
# Evaluation of clauses with exceptions
-/

set_option autoImplicit false

namespace Verif
open Verif.Spec

/-! ## Single entries -/

theorem toValE_of {k : Kind} {q : Rat} {w : Val} (h : k.toVal q = some w) : k.toValE q = .ok w := by
  cases k with
  | cat cs =>
    simp only [Kind.toVal, Kind.toValE, choiceAt] at h ⊢
    split at h
    · rename_i hc
      rw [if_pos hc, h]
    · cases h
  | ord cs =>
    simp only [Kind.toVal, Kind.toValE, choiceAt] at h ⊢
    split at h
    · rename_i hc
      rw [if_pos hc, h]
    · cases h
  | const c => simp only [Kind.toVal, Option.some.injEq] at h; subst h; rfl
  | int l u => simp only [Kind.toVal, Option.some.injEq] at h; subst h; rfl
  | flt l u => simp only [Kind.toVal, Option.some.injEq] at h; subst h; rfl

theorem lt?_isSome_comm (a b : Val) : (a.lt? b).isSome = (b.lt? a).isSome := by
  cases a <;> cases b <;> simp [Val.lt?, Val.num?]

theorem onValsE_of {op : RelOp} {a b : Val} (h : op = .eq ∨ (a.lt? b).isSome = true) :
    op.onValsE a b = .ok (op.onVals a b) := by
  cases op with
  | eq => rfl
  | lt =>
    rcases h with h | h
    · cases h
    · obtain ⟨r, hr⟩ := Option.isSome_iff_exists.1 h
      simp only [RelOp.onValsE, RelOp.onVals, hr]
      cases r <;> rfl
  | gt =>
    rcases h with h | h
    · cases h
    · rw [lt?_isSome_comm] at h
      obtain ⟨r, hr⟩ := Option.isSome_iff_exists.1 h
      simp only [RelOp.onValsE, RelOp.onVals, hr]
      cases r <;> rfl

theorem onValsE_cases (op : RelOp) (a b : Val) :
    op.onValsE a b = .error .typeError ∨ op.onValsE a b = .ok (op.onVals a b) := by
  by_cases h : op = .eq ∨ (a.lt? b).isSome = true
  · exact .inr (onValsE_of h)
  · simp only [not_or, Bool.not_eq_true, Option.isSome_eq_false_iff, Option.isNone_iff_eq_none] at h
    left
    cases op with
    | eq => exact absurd rfl h.1
    | lt => simp only [RelOp.onValsE, h.2]
    | gt =>
      have := lt?_isSome_comm a b
      rw [h.2] at this
      have h2 : b.lt? a = none := by
        cases hb : b.lt? a with
        | none => rfl
        | some r => rw [hb] at this; cases this
      simp only [RelOp.onValsE, h2]

theorem onValsE_none {op : RelOp} {a b : Val} (ho : op ≠ .eq) (h : a.lt? b = none) :
    op.onValsE a b = .error .typeError := by
  rcases onValsE_cases op a b with e | e
  · exact e
  · exfalso
    have h2 : b.lt? a = none := by
      have := lt?_isSome_comm a b
      rw [h] at this
      cases hb : b.lt? a with
      | none => rfl
      | some r => rw [hb] at this; cases this
    cases op with
    | eq => exact ho rfl
    | lt => simp [RelOp.onValsE, h] at e
    | gt => simp [RelOp.onValsE, h2] at e

/-- Entries that are set at the hyperparameters of a clause stand for values. -/
def DecAt (idx : Name → Nat) (v : Vec) (f : Forb) : Prop :=
  ∀ op l r, HasRel op l r f → (∀ q, v.at (idx l.name) = some q → ∃ w, l.kind.toVal q = some w) ∧
    (∀ q, v.at (idx r.name) = some q → ∃ w, r.kind.toVal q = some w)

theorem relOnEntriesE_cases {op : RelOp} {l r : HP} {a b : NV} (hl : ∀ q, a = some q → ∃ w, l.kind.toVal q = some w)
    (hr : ∀ q, b = some q → ∃ w, r.kind.toVal q = some w) :
    relOnEntriesE op l r a b = .error .typeError ∨ relOnEntriesE op l r a b = .ok (relOnEntries op l r a b) := by
  cases a with
  | none => right; cases b <;> rfl
  | some x =>
    cases b with
    | none => right; rfl
    | some y =>
      obtain ⟨u, hu⟩ := hl x rfl
      obtain ⟨w, hw⟩ := hr y rfl
      simp only [relOnEntriesE, relOnEntries, toValE_of hu, toValE_of hw, hu, hw]
      exact onValsE_cases op u w

theorem relOnEntriesE_of {op : RelOp} {l r : HP} {a b : NV} (hc : op = .eq ∨ Ordered l r)
    (hl : ∀ q, a = some q → ∃ w, l.kind.toVal q = some w)
    (hr : ∀ q, b = some q → ∃ w, r.kind.toVal q = some w) :
    relOnEntriesE op l r a b = .ok (relOnEntries op l r a b) := by
  cases a with
  | none => cases b <;> rfl
  | some x =>
    cases b with
    | none => rfl
    | some y =>
      obtain ⟨u, hu⟩ := hl x rfl
      obtain ⟨w, hw⟩ := hr y rfl
      simp only [relOnEntriesE, relOnEntries, toValE_of hu, toValE_of hw, hu, hw]
      exact onValsE_of (hc.imp id (fun h => h u w ⟨x, hu⟩ ⟨y, hw⟩))

mutual
theorem onVecE_cases {idx : Name → Nat} {v : Vec} : ∀ (f : Forb), DecAt idx v f →
    (f.onVecE idx v = .error .typeError ∨ f.onVecE idx v = .ok (f.onVec idx v)) ∧
      (Comparable f → f.onVecE idx v = .ok (f.onVec idx v))
  | .eq _ _ _, _ => ⟨.inr rfl, fun _ => rfl⟩
  | .isIn _ _ _, _ => ⟨.inr rfl, fun _ => rfl⟩
  | .rel op l r, hd => by
    obtain ⟨h1, h2⟩ := hd op l r .here
    exact ⟨relOnEntriesE_cases h1 h2, fun hc => relOnEntriesE_of (hc op l r .here) h1 h2⟩
  | .and cs, hd => by
    have := onVecAllE_cases (idx := idx) (v := v) cs (fun c hc op l r h => hd op l r (.inside hc h))
    exact ⟨this.1, fun hc => this.2 (fun c hcs op l r h => hc op l r (.inside hcs h))⟩
theorem onVecAllE_cases {idx : Name → Nat} {v : Vec} : ∀ (cs : List Forb), (∀ c ∈ cs, DecAt idx v c) →
    (Forb.onVecAllE idx v cs = .error .typeError ∨ Forb.onVecAllE idx v cs = .ok (Forb.onVecAll idx v cs)) ∧
      ((∀ c ∈ cs, Comparable c) → Forb.onVecAllE idx v cs = .ok (Forb.onVecAll idx v cs))
  | [], _ => ⟨.inr rfl, fun _ => rfl⟩
  | c :: cs, hd => by
    have h1 := onVecE_cases c (hd c (by simp))
    have h2 := onVecAllE_cases cs (fun d hd' => hd d (by simp [hd']))
    refine ⟨?_, ?_⟩
    · simp only [Forb.onVecAllE, Forb.onVecAll]
      rcases h1.1 with e | e
      · left; rw [e]; rfl
      · rw [e]
        cases c.onVec idx v with
        | false => right; rfl
        | true => simpa [bind, Except.bind] using h2.1
    · intro hc
      simp only [Forb.onVecAllE, Forb.onVecAll]
      rw [h1.2 (hc c (by simp))]
      cases c.onVec idx v with
      | false => rfl
      | true => simpa [bind, Except.bind] using h2.2 (fun d hd' => hc d (by simp [hd']))
end

/-! ## Rows -/

theorem mapM_ok {α β : Type} {f : α → Except Err β} {g : α → β} : ∀ {xs : List α}, (∀ x ∈ xs, f x = .ok (g x)) →
    xs.mapM f = .ok (xs.map g)
  | [], _ => rfl
  | x :: xs, h => by
    rw [List.mapM_cons, h x (by simp), mapM_ok (fun y hy => h y (by simp [hy]))]
    rfl

theorem mapM_cases {α β : Type} {f : α → Except Err β} {g : α → β} {e : Err} : ∀ {xs : List α},
    (∀ x ∈ xs, f x = .error e ∨ f x = .ok (g x)) → xs.mapM f = .error e ∨ xs.mapM f = .ok (xs.map g)
  | [], _ => .inr rfl
  | x :: xs, h => by
    rw [List.mapM_cons]
    rcases h x (by simp) with k | k
    · left; rw [k]; rfl
    · rw [k]
      rcases mapM_cases (f := f) (g := g) (e := e) (xs := xs) (fun y hy => h y (by simp [hy])) with k2 | k2
      · left; rw [k2]; rfl
      · right; rw [k2]; rfl

/-- The value of an entry that stands for one. -/
def Kind.valD (k : Kind) (q : Rat) : Val := (k.toVal q).getD (.int 0)

theorem valD_of {k : Kind} {q : Rat} (h : ∃ w, k.toVal q = some w) : k.toVal q = some (k.valD q) := by
  obtain ⟨w, hw⟩ := h
  simp [Kind.valD, hw]

theorem toValArrE_of {k : Kind} {xs : List Rat} (h : ∀ x ∈ xs, ∃ w, k.toVal x = some w) :
    k.toValArrE xs = .ok (xs.map k.valD) := by
  have key : xs.mapM k.toValE = .ok (xs.map k.valD) := mapM_ok (fun x hx => toValE_of (valD_of (h x hx)))
  have hclose : ∀ cs, k = .cat cs ∨ k = .ord cs → xs.all closeToInt = true := by
    intro cs hk
    rw [List.all_eq_true]
    intro x hx
    obtain ⟨w, hw⟩ := h x hx
    rcases hk with rfl | rfl <;> simp only [Kind.toVal] at hw <;> split at hw
    · assumption
    · cases hw
    · assumption
    · cases hw
  cases k with
  | cat cs =>
    simp only [Kind.toValArrE, hclose cs (.inl rfl), if_true]
    rw [← key]
    refine mapM_congr_left ?_
    intro x hx
    have := List.all_eq_true.1 (hclose cs (.inl rfl)) x hx
    simp only [Kind.toValE, this, if_true]
  | ord cs =>
    simp only [Kind.toValArrE, hclose cs (.inr rfl), if_true]
    rw [← key]
    refine mapM_congr_left ?_
    intro x hx
    have := List.all_eq_true.1 (hclose cs (.inr rfl)) x hx
    simp only [Kind.toValE, this, if_true]
  | const c => exact key
  | int l u => exact key
  | flt l u => exact key
where
  mapM_congr_left {α β : Type} {f g : α → Except Err β} {xs : List α} (h : ∀ x ∈ xs, f x = g x) :
      xs.mapM f = xs.mapM g := by
    induction xs with
    | nil => rfl
    | cons x xs ih =>
      rw [List.mapM_cons, List.mapM_cons, h x (by simp), ih (fun y hy => h y (by simp [hy]))]

theorem scatter_map (f : NV × NV → Bool) (g : Rat × Rat → Bool) : ∀ (ps : List (NV × NV)),
    (∀ p ∈ ps, f p = match p.1, p.2 with | some x, some y => g (x, y) | _, _ => false) →
    scatter (ps.map (fun p => isSet p.1 && isSet p.2))
      ((ps.filterMap (fun p => match p.1, p.2 with | some x, some y => some (x, y) | _, _ => none)).map g) = ps.map f
  | [], _ => rfl
  | (none, b) :: ps, h => by
    have h0 := h (none, b) (by simp)
    have := scatter_map f g ps (fun p hp => h p (by simp [hp]))
    simp only [List.map_cons, isSet, Option.isSome_none, Bool.false_and, List.filterMap_cons, scatter]
    simp only at h0
    rw [h0]
    simpa [isSet] using this
  | (some x, none) :: ps, h => by
    have h0 := h (some x, none) (by simp)
    have := scatter_map f g ps (fun p hp => h p (by simp [hp]))
    simp only [List.map_cons, isSet, Option.isSome_none, Bool.and_false, List.filterMap_cons, scatter]
    simp only at h0
    rw [h0]
    simpa [isSet] using this
  | (some x, some y) :: ps, h => by
    have h0 := h (some x, some y) (by simp)
    have := scatter_map f g ps (fun p hp => h p (by simp [hp]))
    simp only [List.map_cons, isSet, Option.isSome_some, Bool.and_true, List.filterMap_cons, scatter]
    simp only at h0
    rw [h0]
    simpa [isSet] using this

theorem toVal_zero {cs : List Val} (h : cs ≠ []) : ∃ v, v ∈ cs ∧ (Kind.cat cs).toVal 0 = some v ∧
    (Kind.ord cs).toVal 0 = some v := by
  cases cs with
  | nil => exact absurd rfl h
  | cons c cs =>
    have h1 : closeToInt 0 = true := by simpa using closeToInt_int 0
    have h2 : rint 0 = 0 := by simpa using rint_int 0
    exact ⟨c, by simp, by simp [Kind.toVal, h1, h2, Kind.pyIndex], by simp [Kind.toVal, h1, h2, Kind.pyIndex]⟩

/-- A value of a hyperparameter with an array of numbers, or of texts. -/
theorem elemType_value {h : HP} (hw : h.wf = true) :
    (h.kind.elemType = .number → ∃ v, ValueOf h v ∧ v.num?.isSome = true) ∧
    (h.kind.elemType = .text → ∃ v, ValueOf h v ∧ v.num? = none) := by
  have hch : ∀ cs, h.kind = .cat cs ∨ h.kind = .ord cs → cs ≠ [] := by
    rintro cs (e | e) rfl <;> simp [HP.wf, e] at hw
  have hcase : ∀ cs, h.kind = .cat cs ∨ h.kind = .ord cs →
      (choicesType cs = .number → ∃ v, ValueOf h v ∧ v.num?.isSome = true) ∧
      (choicesType cs = .text → ∃ v, ValueOf h v ∧ v.num? = none) := by
    intro cs hk
    obtain ⟨v, hv, e1, e2⟩ := toVal_zero (hch cs hk)
    have hval : ValueOf h v := by
      rcases hk with e | e
      · exact ⟨0, by rw [e]; exact e1⟩
      · exact ⟨0, by rw [e]; exact e2⟩
    unfold choicesType
    refine ⟨fun ht => ⟨v, hval, ?_⟩, fun ht => ⟨v, hval, ?_⟩⟩
    · split at ht
      · cases ht
      · split at ht
        · rename_i h2
          exact List.all_eq_true.1 h2 v hv
        · cases ht
    · split at ht
      · rename_i h1
        simpa using List.all_eq_true.1 h1 v hv
      · split at ht <;> cases ht
  cases hk : h.kind with
  | cat cs => simpa [Kind.elemType] using hcase cs (.inl hk)
  | ord cs => simpa [Kind.elemType] using hcase cs (.inr hk)
  | const c => simp [Kind.elemType]
  | int l u =>
    refine ⟨fun _ => ⟨.int (rint (scaleQ 0 l u)), ⟨0, ?_⟩, rfl⟩, by simp [Kind.elemType]⟩
    rw [hk]; rfl
  | flt l u =>
    refine ⟨fun _ => ⟨.flt (clipQ (scaleQ 0 l u) l u), ⟨0, ?_⟩, rfl⟩, by simp [Kind.elemType]⟩
    rw [hk]; rfl

theorem lt?_num_text {a b : Val} (ha : a.num?.isSome = true) (hb : b.num? = none) : a.lt? b = none := by
  cases a <;> cases b <;> simp_all [Val.lt?, Val.num?]

theorem lt?_text_num {a b : Val} (ha : a.num? = none) (hb : b.num?.isSome = true) : a.lt? b = none := by
  have := lt?_isSome_comm a b
  rw [lt?_num_text hb ha] at this
  cases h : a.lt? b with
  | none => rfl
  | some r => rw [h] at this; cases this

/-- Arrays of hyperparameters with an order between their values have no clash of element types. -/
theorem no_clash {l r : HP} (hl : l.wf = true) (hr : r.wf = true) (ho : Ordered l r) :
    ¬ (l.kind.elemType = .number ∧ r.kind.elemType = .text ∨ l.kind.elemType = .text ∧ r.kind.elemType = .number) := by
  rintro (⟨h1, h2⟩ | ⟨h1, h2⟩)
  · obtain ⟨a, ha, ha'⟩ := (elemType_value hl).1 h1
    obtain ⟨b, hb, hb'⟩ := (elemType_value hr).2 h2
    have := ho a b ha hb
    rw [lt?_num_text ha' hb'] at this
    cases this
  · obtain ⟨a, ha, ha'⟩ := (elemType_value hl).2 h1
    obtain ⟨b, hb, hb'⟩ := (elemType_value hr).1 h2
    have := ho a b ha hb
    rw [lt?_text_num ha' hb'] at this
    cases this

theorem zip_map_pair {α : Type} (f g : α → Rat) (a b : Rat → Val) (xs : List α) :
    ((xs.map f).map a).zip ((xs.map g).map b) = xs.map (fun x => (a (f x), b (g x))) := by
  induction xs with
  | nil => rfl
  | cons x xs ih => simp only [List.map_cons, List.zip_cons_cons, ih]

theorem relOnRowsE_cases {op : RelOp} {l r : HP} (hwl : l.wf = true) (hwr : r.wf = true) {xs ys : List NV}
    (hl : ∀ q, some q ∈ xs → ∃ w, l.kind.toVal q = some w) (hr : ∀ q, some q ∈ ys → ∃ w, r.kind.toVal q = some w) :
    (relOnRowsE op l r xs ys = .error .typeError ∨
      relOnRowsE op l r xs ys = .ok (List.zipWith (relOnEntries op l r) xs ys)) ∧
    (op = .eq ∨ Ordered l r → relOnRowsE op l r xs ys = .ok (List.zipWith (relOnEntries op l r) xs ys)) ∧
    (op ≠ .eq → (l.kind.elemType = .number ∧ r.kind.elemType = .text ∨
      l.kind.elemType = .text ∧ r.kind.elemType = .number) → relOnRowsE op l r xs ys = .error .typeError) := by
  have hkept : ∀ p ∈ (xs.zip ys).filterMap (fun p => match p.1, p.2 with | some x, some y => some (x, y) | _, _ => none),
      (∃ w, l.kind.toVal p.1 = some w) ∧ ∃ w, r.kind.toVal p.2 = some w := by
    rintro ⟨x, y⟩ hp
    obtain ⟨⟨a, b⟩, hab, e⟩ := List.mem_filterMap.1 hp
    have := List.of_mem_zip hab
    cases a with
    | none => simp at e
    | some a =>
      cases b with
      | none => simp at e
      | some b =>
        simp only [Option.some.injEq, Prod.mk.injEq] at e
        obtain ⟨rfl, rfl⟩ := e
        exact ⟨hl _ this.1, hr _ this.2⟩
  unfold relOnRowsE
  simp only
  have hscat := scatter_map (fun p => relOnEntries op l r p.1 p.2) (fun p => op.onVals (l.kind.valD p.1) (r.kind.valD p.2))
    (xs.zip ys) (by
      rintro ⟨a, b⟩ hab
      have := List.of_mem_zip hab
      cases a with
      | none => cases b <;> rfl
      | some a =>
        cases b with
        | none => rfl
        | some b => simp only [relOnEntries, valD_of (hl _ this.1), valD_of (hr _ this.2)])
  generalize (xs.zip ys).filterMap (fun p => match p.1, p.2 with | some x, some y => some (x, y) | _, _ => none) = kept
    at hkept hscat ⊢
  rw [toValArrE_of (k := l.kind) (by
      intro x hx
      obtain ⟨p, hp, rfl⟩ := List.mem_map.1 hx
      exact (hkept p hp).1),
    toValArrE_of (k := r.kind) (by
      intro x hx
      obtain ⟨p, hp, rfl⟩ := List.mem_map.1 hx
      exact (hkept p hp).2)]
  simp only [bind, Except.bind]
  have hz : List.zipWith (relOnEntries op l r) xs ys = (xs.zip ys).map (fun p => relOnEntries op l r p.1 p.2) := by
    rw [List.zip, List.map_zipWith]
  have hcmp : (cmpArrays op l.kind.elemType r.kind.elemType ((kept.map Prod.fst).map l.kind.valD)
      ((kept.map Prod.snd).map r.kind.valD) = .error .typeError ∨
      cmpArrays op l.kind.elemType r.kind.elemType ((kept.map Prod.fst).map l.kind.valD)
      ((kept.map Prod.snd).map r.kind.valD) = .ok (kept.map (fun p => op.onVals (l.kind.valD p.1) (r.kind.valD p.2)))) ∧
      (op = .eq ∨ Ordered l r → cmpArrays op l.kind.elemType r.kind.elemType ((kept.map Prod.fst).map l.kind.valD)
      ((kept.map Prod.snd).map r.kind.valD) = .ok (kept.map (fun p => op.onVals (l.kind.valD p.1) (r.kind.valD p.2)))) := by
    unfold cmpArrays
    rw [zip_map_pair]
    have hm : ∀ p : Rat × Rat, (fun q : Val × Val => op.onValsE q.1 q.2) (l.kind.valD p.1, r.kind.valD p.2) =
        op.onValsE (l.kind.valD p.1) (r.kind.valD p.2) := fun _ => rfl
    have hmm : (kept.map (fun x => (l.kind.valD x.1, r.kind.valD x.2))).map (fun q : Val × Val => op.onVals q.1 q.2) =
        kept.map (fun p => op.onVals (l.kind.valD p.1) (r.kind.valD p.2)) := by
      rw [List.map_map]; rfl
    rw [← hmm]
    constructor
    · split
      · exact .inl rfl
      · exact mapM_cases (fun q _ => onValsE_cases op q.1 q.2)
    · intro hc
      rw [if_neg]
      · refine mapM_ok ?_
        intro q hq
        obtain ⟨p, hp, rfl⟩ := List.mem_map.1 hq
        exact onValsE_of (hc.imp id (fun h => h _ _ ⟨_, valD_of (hkept p hp).1⟩ ⟨_, valD_of (hkept p hp).2⟩))
      · rintro ⟨h1, h2⟩
        rcases hc with hc | hc
        · exact h1 hc
        · exact no_clash hwl hwr hc h2
  refine ⟨?_, ?_, ?_⟩
  · rcases hcmp.1 with e | e
    · left; rw [e]
    · right; rw [e, hz]; simp only [hscat]
  · intro hc
    rw [hcmp.2 hc, hz]
    simp only [hscat]
  · intro ho ht
    have : cmpArrays op l.kind.elemType r.kind.elemType ((kept.map Prod.fst).map l.kind.valD)
      ((kept.map Prod.snd).map r.kind.valD) = .error .typeError := by
      unfold cmpArrays
      rw [if_pos ⟨ho, ht⟩]
    rw [this]

/-! ## Clauses on matrices -/

/-- Entries of a matrix that are set at the hyperparameters of a clause stand for values. -/
def DecRows (idx : Name → Nat) (m : Mat) (f : Forb) : Prop :=
  ∀ op l r, HasRel op l r f → (l.wf = true ∧ r.wf = true) ∧
    (∀ q, some q ∈ m.row (idx l.name) → ∃ w, l.kind.toVal q = some w) ∧
    (∀ q, some q ∈ m.row (idx r.name) → ∃ w, r.kind.toVal q = some w)

/-- A relation `<` or `>` between an array of numbers and one of texts. -/
def Clash (op : RelOp) (l r : HP) : Prop :=
  op ≠ .eq ∧ (l.kind.elemType = .number ∧ r.kind.elemType = .text ∨ l.kind.elemType = .text ∧ r.kind.elemType = .number)

mutual
theorem onArrE_cases {idx : Name → Nat} {w : Nat} {m : Mat} : ∀ (f : Forb), DecRows idx m f →
    (f.onArrE idx w m = .error .typeError ∨ f.onArrE idx w m = .ok (f.onArr idx w m)) ∧
    (Comparable f → f.onArrE idx w m = .ok (f.onArr idx w m)) ∧
    (∀ op l r, HasRel op l r f → Clash op l r → f.onArrE idx w m = .error .typeError)
  | .eq _ _ _, _ => ⟨.inr rfl, fun _ => rfl, fun _ _ _ h => by cases h⟩
  | .isIn _ _ _, _ => ⟨.inr rfl, fun _ => rfl, fun _ _ _ h => by cases h⟩
  | .rel op l r, hd => by
    obtain ⟨⟨w1, w2⟩, h1, h2⟩ := hd op l r .here
    have := relOnRowsE_cases (op := op) w1 w2 h1 h2
    refine ⟨this.1, fun hc => this.2.1 (hc op l r .here), ?_⟩
    intro op' l' r' h hcl
    cases h
    exact this.2.2 hcl.1 hcl.2
  | .and cs, hd => by
    have := onArrAllE_cases (idx := idx) (w := w) (m := m) cs (fun c hc op l r h => hd op l r (.inside hc h))
      (List.replicate w true)
    refine ⟨this.1, fun hc => this.2.1 (fun c hcs op l r h => hc op l r (.inside hcs h)), ?_⟩
    intro op l r h hcl
    cases h with
    | inside hc h' => exact this.2.2 op l r _ hc h' hcl
theorem onArrAllE_cases {idx : Name → Nat} {w : Nat} {m : Mat} : ∀ (cs : List Forb), (∀ c ∈ cs, DecRows idx m c) →
    ∀ acc, (Forb.onArrAllE idx w m acc cs = .error .typeError ∨
      Forb.onArrAllE idx w m acc cs = .ok (Forb.onArrAll idx w m acc cs)) ∧
    ((∀ c ∈ cs, Comparable c) → Forb.onArrAllE idx w m acc cs = .ok (Forb.onArrAll idx w m acc cs)) ∧
    (∀ op l r, ∀ c ∈ cs, HasRel op l r c → Clash op l r → Forb.onArrAllE idx w m acc cs = .error .typeError)
  | [], _, acc => ⟨.inr rfl, fun _ => rfl, fun _ _ _ c hc => by cases hc⟩
  | c :: cs, hd, acc => by
    have h1 := onArrE_cases (w := w) c (hd c (by simp))
    have h2 := onArrAllE_cases (w := w) cs (fun d hd' => hd d (by simp [hd']))
    simp only [Forb.onArrAllE, Forb.onArrAll, bind, Except.bind]
    refine ⟨?_, ?_, ?_⟩
    · rcases h1.1 with e | e
      · left; rw [e]
      · rw [e]; exact (h2 _).1
    · intro hc
      rw [h1.2.1 (hc c (by simp))]
      exact (h2 _).2.1 (fun d hd' => hc d (by simp [hd']))
    · intro op l r d hdm hh hcl
      rcases List.mem_cons.1 hdm with rfl | hdm
      · rw [h1.2.2 op l r hh hcl]
      · rcases h1.1 with e | e
        · rw [e]
        · rw [e]; exact (h2 _).2.2 op l r d hdm hh hcl
end

theorem forbMaskE_cases {s : Space} {w : Nat} {m : Mat} : ∀ (fs : List Forb), (∀ f ∈ fs, DecRows s.idx m f) →
    (forbMaskE s w m fs = .error .typeError ∨ forbMaskE s w m fs = .ok (forbMask s w m fs)) ∧
    ((∀ f ∈ fs, Comparable f) → forbMaskE s w m fs = .ok (forbMask s w m fs)) ∧
    (∀ op l r, ∀ f ∈ fs, HasRel op l r f → Clash op l r → forbMaskE s w m fs = .error .typeError) := by
  unfold forbMaskE forbMask
  generalize List.replicate w false = acc
  intro fs
  induction fs generalizing acc with
  | nil => exact fun _ => ⟨.inr rfl, fun _ => rfl, fun _ _ _ _ h => by cases h⟩
  | cons f fs ih =>
    intro hd
    have h1 := onArrE_cases (w := w) f (hd f (by simp))
    have h2 := fun a => ih a (fun g hg => hd g (by simp [hg]))
    simp only [List.foldlM_cons, List.foldl_cons, bind, Except.bind]
    simp only [bind, Except.bind] at h2
    refine ⟨?_, ?_, ?_⟩
    · rcases h1.1 with e | e
      · left; rw [e]
      · rw [e]; exact (h2 _).1
    · intro hc
      rw [h1.2.1 (hc f (by simp))]
      exact (h2 _).2.1 (fun d hd' => hc d (by simp [hd']))
    · intro op l r d hdm hh hcl
      rcases List.mem_cons.1 hdm with rfl | hdm
      · rw [h1.2.2 op l r hh hcl]
      · rcases h1.1 with e | e
        · rw [e]
        · rw [e]; exact (h2 _).2.2 op l r d hdm hh hcl

end Verif
