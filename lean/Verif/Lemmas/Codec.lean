import Verif.Spec.Codec
import Verif.Lemmas.Serial

/-!
# Encoding and decoding with tables
-/

set_option autoImplicit false

namespace Verif
open Verif.Spec

section dict
variable {K V : Type} [DecidableEq K]

theorem dictGet_merge (base user : List (K × V)) (k : K) :
    dictGet (dictMerge base user) k = (dictGet user k).orElse (fun _ => dictGet base k) := by
  unfold dictGet dictMerge
  rw [List.reverse_append, List.find?_append]
  cases List.find? (fun kv => decide (kv.1 = k)) user.reverse <;> rfl

theorem dictGet_none {d : List (K × V)} {k : K} (h : k ∉ d.map Prod.fst) : dictGet d k = none := by
  unfold dictGet
  rw [List.find?_eq_none.2]
  · rfl
  · intro x hx
    simp only [decide_eq_true_eq]
    rintro rfl
    exact h (List.mem_map_of_mem (List.mem_reverse.1 hx))

theorem dictGet_some {d : List (K × V)} {k : K} (h : k ∈ d.map Prod.fst) : ∃ v, dictGet d k = some v := by
  obtain ⟨kv, hm, rfl⟩ := List.mem_map.1 h
  unfold dictGet
  cases hf : List.find? (fun x => decide (x.1 = kv.1)) d.reverse with
  | some y => exact ⟨_, rfl⟩
  | none => exact absurd (List.find?_eq_none.1 hf kv (List.mem_reverse.2 hm)) (by simp)

theorem dictGet_merge_not {base user : List (K × V)} {k : K} (h : k ∉ user.map Prod.fst) :
    dictGet (dictMerge base user) k = dictGet base k := by
  rw [dictGet_merge, dictGet_none h]; rfl

theorem dictGet_merge_mem {base user : List (K × V)} {k : K} (h : k ∈ user.map Prod.fst) :
    ∃ v, dictGet user k = some v ∧ dictGet (dictMerge base user) k = some v := by
  obtain ⟨v, hv⟩ := dictGet_some h
  exact ⟨v, hv, by rw [dictGet_merge, hv]; rfl⟩

end dict

theorem lookup_pop_ne {fs : Fields} {k k' : String} (h : k ≠ k') : (fs.pop k').lookup k = fs.lookup k := by
  induction fs with
  | nil => rfl
  | cons kv fs ih =>
    obtain ⟨a, j⟩ := kv
    unfold Fields.pop at ih ⊢
    by_cases ha : a = k'
    · subst ha
      rw [List.filter_cons_of_neg (by simp), ih, List.lookup_cons]
      have : (k == a) = false := by simpa using h
      rw [this]
    · rw [List.filter_cons_of_pos (by simpa using ha), List.lookup_cons, List.lookup_cons, ih]

theorem lookup_pop_self (fs : Fields) (k : String) : (fs.pop k).lookup k = none := by
  induction fs with
  | nil => rfl
  | cons kv fs ih =>
    obtain ⟨a, j⟩ := kv
    unfold Fields.pop at ih ⊢
    by_cases ha : a = k
    · subst ha
      rw [List.filter_cons_of_neg (by simp), ih]
    · have : (k == a) = false := by simpa using Ne.symm ha
      rw [List.filter_cons_of_pos (by simpa using ha), List.lookup_cons, ih, this]

theorem pop_of_lookup_none {fs : Fields} {k : String} (h : fs.lookup k = none) : fs.pop k = fs := by
  unfold Fields.pop
  rw [List.filter_eq_self]
  intro kv hkv
  rw [List.lookup_eq_none_iff] at h
  have := h kv hkv
  exact bne_iff_ne.2 (Ne.symm (bne_iff_ne.1 this))

theorem popType_tagged {tag : String} {fs : Fields} (h : fs.lookup "type" = none) : popType (tagged tag fs) = .ok (tag, fs) := by
  have e : tagged tag fs = ("type", .str tag) :: fs := by
    unfold tagged
    rw [h, pop_of_lookup_none h]
    rfl
  have e2 : Fields.pop (("type", Json.str tag) :: fs) "type" = fs := by
    unfold Fields.pop
    rw [List.filter_cons_of_neg (by simp)]
    exact pop_of_lookup_none h
  rw [e]
  unfold popType
  have e3 : List.lookup "type" (("type", Json.str tag) :: fs) = some (.val (.str tag)) := rfl
  rw [e3]
  exact congrArg (fun x => Except.ok (tag, x)) e2

section generic
variable {Ty Item : Type} [DecidableEq Ty] {typeOf : Item → Ty} {parts : Item → List Item} {Legal : Space → Item → Prop}

/-- Encoder and decoder of an item belong together. -/
def Resolved (typeOf : Item → Ty) (parts : Item → List Item) (Legal : Space → Item → Prop)
    (E : List (Ty × String × Encoder Item)) (D : List (String × Decoder Item)) (k : Ty) : Prop :=
  ∃ tag e d, dictGet E k = some (tag, e) ∧ dictGet D tag = some d ∧ Inverse typeOf parts Legal k e d

theorem resolved_merge {base user : List (Ty × String × Encoder Item)} {dbase duser : List (String × Decoder Item)}
    (hb : ∀ k, Resolved typeOf parts Legal base dbase k) (hm : Matched typeOf parts Legal base dbase user duser) (k : Ty) :
    Resolved typeOf parts Legal (dictMerge base user) (dictMerge dbase duser) k := by
  by_cases hk : k ∈ user.map Prod.fst
  · obtain ⟨⟨tag, e⟩, -, hv⟩ := dictGet_merge_mem (base := base) hk
    obtain ⟨d, h1, h2⟩ := hm k tag e hv (.inl hk)
    exact ⟨tag, e, d, hv, h1, h2⟩
  · obtain ⟨tag, e, d, h1, h2, h3⟩ := hb k
    have he : dictGet (dictMerge base user) k = some (tag, e) := by rw [dictGet_merge_not hk, h1]
    by_cases ht : tag ∈ duser.map Prod.fst
    · obtain ⟨d', k1, k2⟩ := hm k tag e he (.inr ht)
      exact ⟨tag, e, d', he, k1, k2⟩
    · exact ⟨tag, e, d, he, by rw [dictGet_merge_not ht, h2], h3⟩

theorem roundTrip {calls : List Call} {s : Space} (hr : Reach calls s) {E : List (Ty × String × Encoder Item)}
    {D : List (String × Decoder Item)} (h : ∀ k, Resolved typeOf parts Legal E D k) (rank : Item → Nat)
    (hrank : ∀ x, ∀ y ∈ parts x, rank y < rank x) (hleg : ∀ x, Legal s x → ∀ y ∈ parts x, Legal s y) :
    ∀ (n m : Nat) (x : Item), Legal s x → rank x < n → rank x < m →
      ∃ j, encWith typeOf E n x = .ok j ∧ decWith D s m j = .ok x
  | 0, _, _, _, hn, _ => absurd hn (by omega)
  | _, 0, _, _, _, hm => absurd hm (by omega)
  | n + 1, m + 1, x, hx, hn, hm => by
    obtain ⟨tag, e, d, h1, h2, h3⟩ := h (typeOf x)
    obtain ⟨fs, k1, k2, k3⟩ := h3 calls s x (encWith typeOf E n) (decWith D s m) hr rfl hx (fun y hy => by
      have := hrank x y hy
      exact roundTrip hr h rank hrank hleg n m y (hleg x hx y hy) (by omega) (by omega))
    refine ⟨.obj (tagged tag fs), ?_, ?_⟩
    · simp only [encWith, h1, k1]
    · simp only [decWith, popType_tagged k2, h2, k3]

theorem roundTrip_list {s : Space} {E : Item → Except Err Json} {D : Json → Except Err Item} :
    ∀ {xs : List Item}, (∀ x ∈ xs, ∃ j, E x = .ok j ∧ D j = .ok x) → ∃ js, mapExcept E xs = .ok js ∧ mapExcept D js = .ok xs
  | [], _ => ⟨[], rfl, rfl⟩
  | x :: xs, h => by
    obtain ⟨j, h1, h2⟩ := h x (by simp)
    obtain ⟨js, k1, k2⟩ := roundTrip_list (s := s) (fun y hy => h y (List.mem_cons_of_mem _ hy))
    exact ⟨j :: js, by simp [mapExcept, h1, k1], by simp [mapExcept, h2, k2]⟩

end generic

/-! ## The default tables -/

theorem hp_resolved (k : HPTy) : Resolved hpTy (fun _ => []) (fun _ => LegalHP) hpEncoders hpDecoders k := by
  have key : ∀ (tag : String) (x : HP × Option (List Rat)), LegalHP x → (encHP x.1 x.2) = .obj (("type", .str tag) :: (encHP x.1 x.2).untyped) →
      (encHP x.1 x.2).untyped.lookup "type" = none → decHPFields tag (encHP x.1 x.2).untyped = .ok x := by
    rintro tag ⟨h, w⟩ ⟨h1, h2, h3⟩ e hl
    have := decHP_encHP h1 h2
    simp only at e hl ⊢
    rw [e] at this
    have hp : popType (("type", Json.str tag) :: (encHP h w).untyped) = .ok (tag, (encHP h w).untyped) := by
      have := popType_tagged (tag := tag) hl
      unfold tagged at this
      rwa [hl, pop_of_lookup_none hl] at this
    rw [decHP] at this
    rw [hp] at this
    simp only at this
    rw [this]
    unfold keptWeights
    cases hk : h.kind with
    | cat cs => rfl
    | _ => exact congrArg (fun y => Except.ok (h, y)) (h3 (by simp [hk])).symm
  have go : ∀ (tag : String) (x : HP × Option (List Rat)), LegalHP x → (∃ fs : Fields, encHP x.1 x.2 = .obj (("type", .str tag) :: fs) ∧ fs.lookup "type" = none) →
      ∃ fs : Fields, hpEncoder x (fun _ => .error .valueError) = .ok fs ∧ fs.lookup "type" = none ∧ decHPFields tag fs = .ok x := by
    rintro tag x hx ⟨fs, e, hl⟩
    have hu : (encHP x.1 x.2).untyped = fs := by
      rw [e]
      simp only [Json.untyped, Fields.pop]
      rw [List.filter_cons_of_neg (by simp)]
      exact pop_of_lookup_none hl
    exact ⟨fs, by simp only [hpEncoder, hu], hl, by rw [← hu]; exact key tag x hx (by rw [hu]; exact e) (by rw [hu]; exact hl)⟩
  have fin : ∀ (tag : String) (k : HPTy), (∀ x : HP × Option (List Rat), hpTy x = k →
      ∃ fs : Fields, encHP x.1 x.2 = .obj (("type", .str tag) :: fs) ∧ fs.lookup "type" = none) →
      Inverse hpTy (fun _ => []) (fun _ => LegalHP) k hpEncoder (fun _ item _ => decHPFields tag item) := by
    intro tag k he calls s x encode decode _ hk hx _
    exact go tag x hx (he x hk)
  cases k with
  | flt =>
    refine ⟨"uniform_float", hpEncoder, fun _ item _ => decHPFields "uniform_float" item, rfl, rfl, fin _ _ ?_⟩
    rintro ⟨⟨n, k, d⟩, w⟩ hk
    cases k <;> first | cases hk; done | exact ⟨_, rfl, rfl⟩
  | int =>
    refine ⟨"uniform_int", hpEncoder, fun _ item _ => decHPFields "uniform_int" item, rfl, rfl, fin _ _ ?_⟩
    rintro ⟨⟨n, k, d⟩, w⟩ hk
    cases k <;> first | cases hk; done | exact ⟨_, rfl, rfl⟩
  | cat =>
    refine ⟨"categorical", hpEncoder, fun _ item _ => decHPFields "categorical" item, rfl, rfl, fin _ _ ?_⟩
    rintro ⟨⟨n, k, d⟩, w⟩ hk
    cases k <;> first | cases hk; done | exact ⟨_, rfl, rfl⟩
  | ord =>
    refine ⟨"ordinal", hpEncoder, fun _ item _ => decHPFields "ordinal" item, rfl, rfl, fin _ _ ?_⟩
    rintro ⟨⟨n, k, d⟩, w⟩ hk
    cases k <;> first | cases hk; done | exact ⟨_, rfl, rfl⟩
  | const =>
    refine ⟨"constant", hpEncoder, fun _ item _ => decHPFields "constant" item, rfl, rfl, fin _ _ ?_⟩
    rintro ⟨⟨n, k, d⟩, w⟩ hk
    cases k <;> first | cases hk; done | exact ⟨_, rfl, rfl⟩

/-- A legal condition of a space. -/
abbrev LegalCond (s : Space) (c : Cond) : Prop := c.wf = true ∧ CondIn s c

/-- A legal clause of a space. -/
abbrev LegalForb (s : Space) (f : Forb) : Prop := f.wf = true ∧ ForbIn s f

theorem bin_inverse {op : BOp} :
    Inverse condTy condParts LegalCond (.bin op) litEncoder (fun s item _ => decBin s op item) := by
  intro calls s x encode decode hr hk hx _
  match x, hk, hx with
  | .lit ⟨c, p, .bin op' v q⟩, hk, hx =>
    obtain rfl : op' = op := by simpa [condTy] using hk
    clear hk
    refine ⟨[("child", .str c.name), ("parent", .str p.name), ("value", .val v)], rfl, rfl, ?_⟩
    have h1 := hx.1
    simp only [Cond.wf, Bool.and_eq_true] at h1
    have h2 := hx.2 _ (List.mem_cons_self : (⟨c, p, .bin op' v q⟩ : Lit) ∈ Cond.dlcs (.lit ⟨c, p, .bin op' v q⟩))
    have := decLit_encLit (looked hr) (wf0_lit h1.1 ⟨c, p, .bin op' v q⟩ (by simp [Cond.dlcs])) h2.1 h2.2
    rw [← this]
    cases op' <;> rfl

theorem in_inverse : Inverse condTy condParts LegalCond .isIn litEncoder (fun s item _ => decIn s item) := by
  intro calls s x encode decode hr hk hx _
  match x, hk, hx with
  | .lit ⟨c, p, .isIn vs q⟩, rfl, hx =>
    refine ⟨[("child", .str c.name), ("parent", .str p.name), ("values", .arr (vs.map Json.val))], rfl, rfl, ?_⟩
    have h1 := hx.1
    simp only [Cond.wf, Bool.and_eq_true] at h1
    have h2 := hx.2 _ (List.mem_cons_self : (⟨c, p, .isIn vs q⟩ : Lit) ∈ Cond.dlcs (.lit ⟨c, p, .isIn vs q⟩))
    have := decLit_encLit (looked hr) (wf0_lit h1.1 ⟨c, p, .isIn vs q⟩ (by simp [Cond.dlcs])) h2.1 h2.2
    rw [← this]
    rfl

theorem and_inverse : Inverse condTy condParts LegalCond .and conjEncoder (conjDecoder mkAnd) := by
  intro calls s x encode decode hr hk hx hp
  cases x with
  | lit l => obtain ⟨c, p, t⟩ := l; cases t <;> cases hk
  | or cs => cases hk
  | and cs =>
    obtain ⟨js, k1, k2⟩ := roundTrip_list (s := s) hp
    simp only [condParts] at k1 k2
    refine ⟨[("child", .str (Cond.and cs).childStr), ("conditions", .arr js)], by simp only [conjEncoder, k1], rfl, ?_⟩
    have h1 := hx.1
    simp only [Cond.wf, Bool.and_eq_true] at h1
    obtain ⟨h3, h4⟩ := wf0_and.1 h1.1
    have hs : sameChild (Cond.dlcsL cs) = true := by simpa [Cond.dlcs] using h1.2
    have e : conjDecoder mkAnd s [("child", .str (Cond.and cs).childStr), ("conditions", .arr js)] decode =
        (match mapExcept decode js with
        | .error e => .error e
        | .ok cs => mkAnd cs) := rfl
    rw [e, k2]
    simp only [mkAnd]
    rw [if_neg (by omega), if_pos hs]

theorem or_inverse : Inverse condTy condParts LegalCond .or conjEncoder (conjDecoder mkOr) := by
  intro calls s x encode decode hr hk hx hp
  cases x with
  | lit l => obtain ⟨c, p, t⟩ := l; cases t <;> cases hk
  | and cs => cases hk
  | or cs =>
    obtain ⟨js, k1, k2⟩ := roundTrip_list (s := s) hp
    simp only [condParts] at k1 k2
    refine ⟨[("child", .str (Cond.or cs).childStr), ("conditions", .arr js)], by simp only [conjEncoder, k1], rfl, ?_⟩
    have h1 := hx.1
    simp only [Cond.wf, Bool.and_eq_true] at h1
    obtain ⟨h3, h4⟩ := wf0_or.1 h1.1
    have hs : sameChild (Cond.dlcsL cs) = true := by simpa [Cond.dlcs] using h1.2
    have e : conjDecoder mkOr s [("child", .str (Cond.or cs).childStr), ("conditions", .arr js)] decode =
        (match mapExcept decode js with
        | .error e => .error e
        | .ok cs => mkOr cs) := rfl
    rw [e, k2]
    simp only [mkOr]
    rw [if_neg (by omega), if_pos hs]

theorem cond_resolved (k : CondTy) : Resolved condTy condParts LegalCond condEncoders condDecoders k := by
  match k with
  | .bin .eq => exact ⟨_, _, _, rfl, rfl, bin_inverse⟩
  | .bin .ne => exact ⟨_, _, _, rfl, rfl, bin_inverse⟩
  | .bin .lt => exact ⟨_, _, _, rfl, rfl, bin_inverse⟩
  | .bin .gt => exact ⟨_, _, _, rfl, rfl, bin_inverse⟩
  | .isIn => exact ⟨_, _, _, rfl, rfl, in_inverse⟩
  | .and => exact ⟨_, _, _, rfl, rfl, and_inverse⟩
  | .or => exact ⟨_, _, _, rfl, rfl, or_inverse⟩

theorem forb_simple {k : ForbTy} {d : Decoder Forb}
    (hd : ∀ s f decode, forbTy f = k → (encForb f).untyped.lookup "type" = none ∧ forbEncoder f = (fun _ => .ok (encForb f).untyped) ∧
      d s (encForb f).untyped decode = decForb s (encForb f)) :
    Inverse forbTy forbParts LegalForb k forbEncoder d := by
  intro calls s x encode decode hr hx hl _
  obtain ⟨h1, h2, h3⟩ := hd s x decode hx
  exact ⟨_, by rw [h2], h1, by rw [h3]; exact decForb_encForb (looked hr) hl.1 hl.2⟩

theorem forb_and_inverse : Inverse forbTy forbParts LegalForb .and forbEncoder forbAndDecoder := by
  intro calls s x encode decode hr hk hx hp
  cases x with
  | eq _ _ _ => cases hk
  | isIn _ _ _ => cases hk
  | rel _ _ _ => cases hk
  | and fs =>
    obtain ⟨js, k1, k2⟩ := roundTrip_list (s := s) hp
    simp only [forbParts] at k1 k2
    refine ⟨[("clauses", .arr js)], by simp only [forbEncoder, k1], rfl, ?_⟩
    have e : forbAndDecoder s [("clauses", .arr js)] decode = (match mapExcept decode js with
        | .error e => .error e
        | .ok fs => .ok (.and fs)) := rfl
    rw [e, k2]

theorem forb_resolved (k : ForbTy) : Resolved forbTy forbParts LegalForb forbEncoders forbDecoders k := by
  match k with
  | .and => exact ⟨_, _, _, rfl, rfl, forb_and_inverse⟩
  | .eq =>
    refine ⟨_, _, _, rfl, rfl, forb_simple ?_⟩
    intro s f decode hf
    cases f <;> first | cases hf; done | exact ⟨rfl, rfl, rfl⟩
  | .isIn =>
    refine ⟨_, _, _, rfl, rfl, forb_simple ?_⟩
    intro s f decode hf
    cases f <;> first | cases hf; done | exact ⟨rfl, rfl, rfl⟩
  | .rel .lt =>
    refine ⟨_, _, _, rfl, rfl, forb_simple ?_⟩
    intro s f decode hf
    cases f <;> cases hf <;> exact ⟨rfl, rfl, rfl⟩
  | .rel .eq =>
    refine ⟨_, _, _, rfl, rfl, forb_simple ?_⟩
    intro s f decode hf
    cases f <;> cases hf <;> exact ⟨rfl, rfl, rfl⟩
  | .rel .gt =>
    refine ⟨_, _, _, rfl, rfl, forb_simple ?_⟩
    intro s f decode hf
    cases f <;> cases hf <;> exact ⟨rfl, rfl, rfl⟩

end Verif
