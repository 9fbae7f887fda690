import Verif.Model.Files
import Verif.Spec.Files
import Verif.Lemmas.Serial
import Verif.Lemmas.Grid

/-!
# Equal dictionaries are decoded alike; files keep the data of a dictionary
-/

set_option autoImplicit false

namespace Verif.Files
open Verif.Spec

/-! ## What the decoders look at -/

/-- The data without the contents of lists and dictionaries. -/
def shape : Json → Json
  | .arr _ => .arr []
  | .obj _ => .obj []
  | j => j

/-- Everything that a decoder can find out about a piece of data. -/
structure Alike (a b : Json) : Prop where
  shape : shape a = shape b
  vals : asVals (some a) = asVals (some b)
  weights : asWeights (some a) = asWeights (some b)
  hp : decHP a = decHP b
  cond : ∀ s, decCond s a = decCond s b
  conds : ∀ s, decCondArr s a = decCondArr s b
  forb : ∀ s, decForb s a = decForb s b
  forbs : ∀ s, decForbArr s a = decForbArr s b

/-- Two lists of fields that agree key by key. -/
def AlikeF (fs gs : Fields) : Prop :=
  ∀ k, (fs.lookup k = none ∧ gs.lookup k = none) ∨
    ∃ a b, fs.lookup k = some a ∧ gs.lookup k = some b ∧ Alike a b

theorem asStr_shape (a : Json) : asStr (some a) = asStr (some (shape a)) := by
  cases a <;> rfl

theorem asNum_shape (a : Json) : asNum (some a) = asNum (some (shape a)) := by
  cases a <;> rfl

theorem asNum?_shape (a : Json) : asNum? (some a) = asNum? (some (shape a)) := by
  cases a <;> rfl

theorem asVal_shape (a : Json) : asVal a = asVal (shape a) := by
  cases a <;> rfl

theorem asVal?_shape (a : Json) : asVal? (some a) = asVal? (some (shape a)) := by
  cases a <;> rfl

theorem opt_alike {fs gs : Fields} (h : AlikeF fs gs) {β : Type} (F : Option Json → β)
    (hF : ∀ a b, Alike a b → F (some a) = F (some b)) (k : String) : F (fs.lookup k) = F (gs.lookup k) := by
  rcases h k with ⟨h1, h2⟩ | ⟨a, b, h1, h2, h3⟩
  · rw [h1, h2]
  · rw [h1, h2, hF a b h3]

theorem lookup_pop (fs : Fields) (q k : String) : (fs.pop q).lookup k = if k = q then none else fs.lookup k := by
  unfold Fields.pop
  induction fs with
  | nil => simp
  | cons x fs ih =>
    obtain ⟨m, j⟩ := x
    simp only [List.filter_cons]
    by_cases hm : m = q
    · subst hm
      rw [if_neg (by simp), ih]
      by_cases hk : k = m
      · simp [hk]
      · have hkm : (k == m) = false := by simpa using hk
        rw [if_neg hk, if_neg hk, List.lookup_cons, hkm]
    · rw [if_pos (by simpa using hm), List.lookup_cons, List.lookup_cons, ih]
      by_cases hk : k = m
      · subst hk
        simp [hm]
      · have hkm : (k == m) = false := by simpa using hk
        rw [hkm]

theorem AlikeF.pop {fs gs : Fields} (h : AlikeF fs gs) (q : String) : AlikeF (fs.pop q) (gs.pop q) := by
  intro k
  rw [lookup_pop, lookup_pop]
  by_cases hk : k = q
  · simp [hk]
  · rw [if_neg hk, if_neg hk]
    exact h k

theorem AlikeF.snoc {fs gs : Fields} (h : AlikeF fs gs) (q : String) {a b : Json} (hab : Alike a b) :
    AlikeF (fs ++ [(q, a)]) (gs ++ [(q, b)]) := by
  intro k
  rw [lookup_append, lookup_append]
  rcases h k with ⟨h1, h2⟩ | ⟨x, y, h1, h2, h3⟩
  · rw [h1, h2]
    by_cases hk : k = q
    · subst hk
      exact .inr ⟨a, b, by simp, by simp, hab⟩
    · have hkq : (k == q) = false := by simpa using hk
      exact .inl ⟨by simp [List.lookup_cons, hkq], by simp [List.lookup_cons, hkq]⟩
  · rw [h1, h2]
    exact .inr ⟨x, y, by simp, by simp, h3⟩

theorem AlikeF.compat {fs gs : Fields} (h : AlikeF fs gs) : AlikeF (compat fs) (compat gs) := by
  have hq := h.pop "q"
  unfold Verif.compat
  simp only
  rcases hq "default" with ⟨h1, h2⟩ | ⟨a, b, h1, h2, h3⟩
  · rw [h1, h2]
    exact hq.pop _
  · rw [h1, h2]
    have hs := h3.shape
    cases a <;> cases b <;> first | (exfalso; simp [Files.shape] at hs; done) | exact hq.pop _ | exact ((hq.pop _).pop _).snoc _ h3

theorem lookup_isSome_alike {fs gs : Fields} (h : AlikeF fs gs) (k : String) : (fs.lookup k).isSome = (gs.lookup k).isSome :=
  opt_alike h (fun o => o.isSome) (fun _ _ _ => rfl) k

theorem all_keys {fs : Fields} {P : String → Bool} :
    fs.all (fun kv => P kv.1) = true ↔ ∀ k, (fs.lookup k).isSome = true → P k = true := by
  rw [List.all_eq_true]
  constructor
  · intro h k hk
    obtain ⟨j, hj⟩ := Option.isSome_iff_exists.1 hk
    exact h _ (lookup_mem hj)
  · intro h kv hkv
    exact h _ (lookup_isSome_iff.2 (List.mem_map_of_mem hkv))

theorem kwargs_alike {fs gs : Fields} (h : AlikeF fs gs) (r o : List String) : kwargs fs r o = kwargs gs r o := by
  unfold kwargs
  congr 1
  · rw [Bool.eq_iff_iff]
    have e1 := @all_keys fs (fun k => decide (k ∈ r ++ o))
    have e2 := @all_keys gs (fun k => decide (k ∈ r ++ o))
    rw [e1, e2]
    simp only [lookup_isSome_alike h]
  · simp only [lookup_isSome_alike h]

theorem noLog_alike {fs gs : Fields} (h : AlikeF fs gs) : noLog fs = noLog gs := by
  unfold noLog
  refine opt_alike h (fun o => match o with
    | none => true
    | some (.bool b) => !b
    | some _ => false) ?_ "log"
  intro a b hab
  have hs := hab.shape
  cases a <;> cases b <;> first | (exfalso; simp [Files.shape] at hs; done) | rfl | (simp only [Files.shape, Json.bool.injEq] at hs; rw [hs])

theorem str_alike {fs gs : Fields} (h : AlikeF fs gs) (k : String) : asStr (fs.lookup k) = asStr (gs.lookup k) :=
  opt_alike h asStr (fun a b hab => by rw [asStr_shape a, asStr_shape b, hab.shape]) k

theorem num_alike {fs gs : Fields} (h : AlikeF fs gs) (k : String) : asNum (fs.lookup k) = asNum (gs.lookup k) :=
  opt_alike h asNum (fun a b hab => by rw [asNum_shape a, asNum_shape b, hab.shape]) k

theorem num?_alike {fs gs : Fields} (h : AlikeF fs gs) (k : String) : asNum? (fs.lookup k) = asNum? (gs.lookup k) :=
  opt_alike h asNum? (fun a b hab => by rw [asNum?_shape a, asNum?_shape b, hab.shape]) k

theorem val?_alike {fs gs : Fields} (h : AlikeF fs gs) (k : String) : asVal? (fs.lookup k) = asVal? (gs.lookup k) :=
  opt_alike h asVal? (fun a b hab => by rw [asVal?_shape a, asVal?_shape b, hab.shape]) k

theorem vals_alike {fs gs : Fields} (h : AlikeF fs gs) (k : String) : asVals (fs.lookup k) = asVals (gs.lookup k) :=
  opt_alike h asVals (fun _ _ hab => hab.vals) k

theorem weights_alike {fs gs : Fields} (h : AlikeF fs gs) (k : String) : asWeights (fs.lookup k) = asWeights (gs.lookup k) :=
  opt_alike h asWeights (fun _ _ hab => hab.weights) k

theorem decHPFields_alike {fs gs : Fields} (h : AlikeF fs gs) (t : String) : decHPFields t fs = decHPFields t gs := by
  have hc := h.compat
  have hp := hc.pop "probabilities"
  unfold decHPFields
  simp only [kwargs_alike hc, noLog_alike hc, str_alike hc, num_alike hc, num?_alike hc, val?_alike hc, vals_alike hc,
    kwargs_alike hp, str_alike hp, val?_alike hp, vals_alike hp, weights_alike hp]
  rcases hc "value" with ⟨h1, h2⟩ | ⟨a, b, h1, h2, h3⟩
  · rw [h1, h2]
  · have e : asVal a = asVal b := by rw [asVal_shape a, asVal_shape b, h3.shape]
    rw [h1, h2]
    simp only [e]

theorem popType_alike {fs gs : Fields} (h : AlikeF fs gs) :
    (∃ e, popType fs = .error e ∧ popType gs = .error e) ∨
      ∃ t, popType fs = .ok (t, fs.pop "type") ∧ popType gs = .ok (t, gs.pop "type") := by
  unfold popType
  rcases h "type" with ⟨h1, h2⟩ | ⟨a, b, h1, h2, h3⟩
  · rw [h1, h2]
    exact .inl ⟨_, rfl, rfl⟩
  · rw [h1, h2]
    have hs := h3.shape
    cases a <;> cases b <;> first | (exfalso; simp [Files.shape] at hs; done) | exact .inl ⟨_, rfl, rfl⟩ | skip
    simp only [Files.shape, Json.val.injEq] at hs
    subst hs
    rename_i v
    cases v
    · exact .inl ⟨_, rfl, rfl⟩
    · exact .inl ⟨_, rfl, rfl⟩
    · exact .inr ⟨_, rfl, rfl⟩

theorem get_alike {fs gs : Fields} (h : AlikeF fs gs) (k : String) :
    (∃ e, fs.get k = .error e ∧ gs.get k = .error e) ∨ ∃ a b, fs.get k = .ok a ∧ gs.get k = .ok b ∧ Alike a b := by
  unfold Fields.get
  rcases h k with ⟨h1, h2⟩ | ⟨a, b, h1, h2, h3⟩
  · rw [h1, h2]
    exact .inl ⟨_, rfl, rfl⟩
  · rw [h1, h2]
    exact .inr ⟨a, b, rfl, rfl, h3⟩

theorem getField_alike {fs gs : Fields} (h : AlikeF fs gs) (s : Space) (k : String) : s.getField fs k = s.getField gs k := by
  unfold Space.getField
  rcases get_alike h k with ⟨e, h1, h2⟩ | ⟨a, b, h1, h2, h3⟩
  · rw [h1, h2]
  · rw [h1, h2]
    have hs := h3.shape
    cases a <;> cases b <;> first | (exfalso; simp [Files.shape] at hs; done) | rfl | skip
    simp only [Files.shape, Json.val.injEq] at hs
    subst hs
    rfl

theorem get_val_alike {fs gs : Fields} (h : AlikeF fs gs) (k : String) {β : Type} (F : Val → Except Err β) :
    (fs.get k >>= fun j => asVal j >>= F) = (gs.get k >>= fun j => asVal j >>= F) := by
  rcases get_alike h k with ⟨e, h1, h2⟩ | ⟨a, b, h1, h2, h3⟩
  · rw [h1, h2]
  · rw [h1, h2, bind_ok, bind_ok, asVal_shape a, asVal_shape b, h3.shape]

theorem get_vals_alike {fs gs : Fields} (h : AlikeF fs gs) (k : String) {β : Type} (F : List Val → Except Err β) :
    (fs.get k >>= fun j => asVals (some j) >>= F) = (gs.get k >>= fun j => asVals (some j) >>= F) := by
  rcases get_alike h k with ⟨e, h1, h2⟩ | ⟨a, b, h1, h2, h3⟩
  · rw [h1, h2]
  · rw [h1, h2, bind_ok, bind_ok, h3.vals]

theorem decBin_alike {fs gs : Fields} (h : AlikeF fs gs) (s : Space) (op : BOp) : decBin s op fs = decBin s op gs := by
  unfold decBin
  simp only [getField_alike h s, get_val_alike h]

theorem decIn_alike {fs gs : Fields} (h : AlikeF fs gs) (s : Space) : decIn s fs = decIn s gs := by
  unfold decIn
  simp only [getField_alike h s, get_vals_alike h]

theorem decForbEq_alike {fs gs : Fields} (h : AlikeF fs gs) (s : Space) : decForbEq s fs = decForbEq s gs := by
  unfold decForbEq
  simp only [getField_alike h s, get_val_alike h]

theorem decForbIn_alike {fs gs : Fields} (h : AlikeF fs gs) (s : Space) : decForbIn s fs = decForbIn s gs := by
  unfold decForbIn
  simp only [getField_alike h s, get_vals_alike h]

theorem decRel_alike {fs gs : Fields} (h : AlikeF fs gs) (s : Space) (op : RelOp) : decRel s op fs = decRel s op gs := by
  unfold decRel
  simp only [getField_alike h s]

theorem decRelLegacy_alike {fs gs : Fields} (h : AlikeF fs gs) (s : Space) : decRelLegacy s fs = decRelLegacy s gs := by
  unfold decRelLegacy
  rcases get_alike h "lambda" with ⟨e, h1, h2⟩ | ⟨a, b, h1, h2, h3⟩
  · rw [h1, h2]
  · rw [h1, h2]
    have hs := h3.shape
    cases a <;> cases b <;> first | (exfalso; simp [Files.shape] at hs; done) | rfl | skip
    simp only [Files.shape, Json.val.injEq] at hs
    subst hs
    simp only [decRel_alike h]

theorem decCondField_lookup (s : Space) (fs : Fields) : decCondField s fs = match fs.lookup "conditions" with
    | some j => decCondArr s j
    | none => .error .keyError := by
  induction fs with
  | nil => simp [decCondField]
  | cons x fs ih =>
    obtain ⟨k, j⟩ := x
    unfold decCondField
    rw [List.lookup_cons]
    by_cases hk : k = "conditions"
    · rw [if_pos hk, hk]
      rfl
    · rw [if_neg hk, ih]
      have : ("conditions" == k) = false := by simpa using fun h => hk h.symm
      rw [this]

theorem decForbField_lookup (s : Space) (fs : Fields) : decForbField s fs = match fs.lookup "clauses" with
    | some j => decForbArr s j
    | none => .error .keyError := by
  induction fs with
  | nil => simp [decForbField]
  | cons x fs ih =>
    obtain ⟨k, j⟩ := x
    unfold decForbField
    rw [List.lookup_cons]
    by_cases hk : k = "clauses"
    · rw [if_pos hk, hk]
      rfl
    · rw [if_neg hk, ih]
      have : ("clauses" == k) = false := by simpa using fun h => hk h.symm
      rw [this]

theorem decCondField_alike {fs gs : Fields} (h : AlikeF fs gs) (s : Space) : decCondField s fs = decCondField s gs := by
  rw [decCondField_lookup, decCondField_lookup]
  exact opt_alike h (fun o => match o with
    | some j => decCondArr s j
    | none => .error .keyError) (fun _ _ hab => hab.conds s) _

theorem decForbField_alike {fs gs : Fields} (h : AlikeF fs gs) (s : Space) : decForbField s fs = decForbField s gs := by
  rw [decForbField_lookup, decForbField_lookup]
  exact opt_alike h (fun o => match o with
    | some j => decForbArr s j
    | none => .error .keyError) (fun _ _ hab => hab.forbs s) _

theorem obj_alike {fs gs : Fields} (h : AlikeF fs gs) : Alike (.obj fs) (.obj gs) where
  shape := rfl
  vals := rfl
  weights := rfl
  hp := by
    unfold decHP
    simp only
    rcases popType_alike h with ⟨e, h1, h2⟩ | ⟨t, h1, h2⟩
    · rw [h1, h2]
    · rw [h1, h2]
      exact decHPFields_alike (h.pop _) t
  cond := by
    intro s
    unfold decCond
    rcases popType_alike h with ⟨e, h1, h2⟩ | ⟨t, h1, h2⟩
    · rw [h1, h2]
    · rw [h1, h2]
      simp only [decBin_alike (h.pop _), decIn_alike (h.pop _), decCondField_alike h]
  conds := fun s => by simp [decCondArr]
  forb := by
    intro s
    unfold decForb
    rcases popType_alike h with ⟨e, h1, h2⟩ | ⟨t, h1, h2⟩
    · rw [h1, h2]
    · rw [h1, h2]
      simp only [decForbEq_alike (h.pop _), decForbIn_alike (h.pop _), decForbField_alike h, decRel_alike (h.pop _),
        decRelLegacy_alike (h.pop _)]
  forbs := fun s => by simp [decForbArr]

/-! ## Lists -/

theorem mapExcept_alike {β : Type} {f : Json → Except Err β} : ∀ {xs ys : List Json}, xs.length = ys.length →
    (∀ (i : Nat) a b, xs[i]? = some a → ys[i]? = some b → f a = f b) → mapExcept f xs = mapExcept f ys
  | [], [], _, _ => rfl
  | x :: xs, y :: ys, hl, h => by
    have h0 := h 0 x y rfl rfl
    have ht := mapExcept_alike (f := f) (xs := xs) (ys := ys) (by simpa using hl)
      (fun i a b ha hb => h (i + 1) a b (by simpa using ha) (by simpa using hb))
    simp only [mapExcept, h0, ht]

theorem decConds_map (s : Space) : ∀ js, decConds s js = mapExcept (decCond s) js
  | [] => by simp [decConds, mapExcept]
  | j :: js => by
    unfold decConds mapExcept
    rw [decConds_map s js]
    cases decCond s j with
    | error e => rfl
    | ok c => cases mapExcept (decCond s) js <;> rfl

theorem decForbs_map (s : Space) : ∀ js, decForbs s js = mapExcept (decForb s) js
  | [] => by simp [decForbs, mapExcept]
  | j :: js => by
    unfold decForbs mapExcept
    rw [decForbs_map s js]
    cases decForb s j with
    | error e => rfl
    | ok c => cases mapExcept (decForb s) js <;> rfl

theorem arr_alike {xs ys : List Json} (hl : xs.length = ys.length)
    (h : ∀ (i : Nat) a b, xs[i]? = some a → ys[i]? = some b → Alike a b) : Alike (.arr xs) (.arr ys) where
  shape := rfl
  vals := mapExcept_alike hl fun i a b ha hb => by rw [asVal_shape a, asVal_shape b, (h i a b ha hb).shape]
  weights := by
    unfold asWeights
    simp only
    rw [mapExcept_alike (f := fun j => asNum (some j)) hl fun i a b ha hb => by
      rw [asNum_shape a, asNum_shape b, (h i a b ha hb).shape]]
  hp := rfl
  cond := fun s => by simp [decCond]
  conds := fun s => by
    unfold decCondArr
    rw [decConds_map, decConds_map]
    exact mapExcept_alike hl fun i a b ha hb => (h i a b ha hb).cond s
  forb := fun s => by simp [decForb]
  forbs := fun s => by
    unfold decForbArr
    rw [decForbs_map, decForbs_map]
    exact mapExcept_alike hl fun i a b ha hb => (h i a b ha hb).forb s

theorem alike_of_same {a b : Json} (h : SameData a b) : Alike a b := by
  induction h with
  | null => exact ⟨rfl, rfl, rfl, rfl, fun _ => rfl, fun _ => rfl, fun _ => rfl, fun _ => rfl⟩
  | bool b => exact ⟨rfl, rfl, rfl, rfl, fun _ => rfl, fun _ => rfl, fun _ => rfl, fun _ => rfl⟩
  | val v => exact ⟨rfl, rfl, rfl, rfl, fun _ => rfl, fun _ => rfl, fun _ => rfl, fun _ => rfl⟩
  | arr hl _ ih => exact arr_alike hl ih
  | @obj fs gs hk hf ih =>
    refine obj_alike fun k => ?_
    cases e : fs.lookup k with
    | none =>
      cases e' : gs.lookup k with
      | none => exact .inl ⟨rfl, rfl⟩
      | some b =>
        obtain ⟨a, ha⟩ := (hk k).2 ⟨b, e'⟩
        rw [e] at ha
        cases ha
    | some a =>
      obtain ⟨b, hb⟩ := (hk k).1 ⟨a, e⟩
      exact .inr ⟨a, b, rfl, hb, ih k a b e hb⟩

theorem SameData.refl : ∀ a : Json, SameData a a := by
  intro a
  have key : ∀ n (a : Json), sizeOf a < n → SameData a a := by
    intro n
    induction n with
    | zero => intro a h; omega
    | succ n ih =>
      intro a ha
      cases a with
      | null => exact .null
      | bool b => exact .bool b
      | val v => exact .val v
      | arr xs =>
        refine .arr rfl fun i a b h1 h2 => ?_
        rw [h1] at h2
        cases h2
        refine ih a ?_
        have := List.sizeOf_lt_of_mem (List.mem_of_getElem? h1)
        simp only [Json.arr.sizeOf_spec] at ha
        omega
      | obj fs =>
        refine .obj (fun k => Iff.rfl) fun k a b h1 h2 => ?_
        rw [h1] at h2
        cases h2
        refine ih a ?_
        have := List.sizeOf_lt_of_mem (lookup_mem h1)
        simp only [Json.obj.sizeOf_spec] at ha
        simp only [Prod.mk.sizeOf_spec] at this
        omega
  exact key _ a (Nat.lt_succ_self _)

/-! ## What the files keep -/

theorem dataL_map : ∀ ds : List Doc, Doc.dataL ds = ds.map Doc.data
  | [] => by simp [Doc.dataL]
  | d :: ds => by rw [Doc.dataL, dataL_map ds, List.map_cons]

theorem dataF_map : ∀ fs : List (String × Doc), Doc.dataF fs = fs.map (fun kd => (kd.1, kd.2.data))
  | [] => by simp [Doc.dataF]
  | (k, d) :: fs => by rw [Doc.dataF, dataF_map fs, List.map_cons]

mutual
theorem data_viaJson : ∀ d : Doc, d.viaJson.data = d.data
  | .none => by simp [Doc.viaJson]
  | .bool b => by simp [Doc.viaJson]
  | .val v => by simp [Doc.viaJson]
  | .seq k ds => by simp only [Doc.viaJson, Doc.data, dataL_viaJson ds]
  | .dict fs => by simp only [Doc.viaJson, Doc.data, dataF_viaJson fs]
theorem dataL_viaJson : ∀ ds : List Doc, Doc.dataL (Doc.viaJsonL ds) = Doc.dataL ds
  | [] => by simp [Doc.viaJsonL]
  | d :: ds => by simp only [Doc.viaJsonL, Doc.dataL, data_viaJson d, dataL_viaJson ds]
theorem dataF_viaJson : ∀ fs : List (String × Doc), Doc.dataF (Doc.viaJsonF fs) = Doc.dataF fs
  | [] => by simp [Doc.viaJsonF]
  | (k, d) :: fs => by simp only [Doc.viaJsonF, Doc.dataF, data_viaJson d, dataF_viaJson fs]
end

mutual
theorem data_ofJson : ∀ j : Json, (Doc.ofJson j).data = j
  | .null => by simp [Doc.ofJson, Doc.data]
  | .bool b => by simp [Doc.ofJson, Doc.data]
  | .val v => by simp [Doc.ofJson, Doc.data]
  | .arr js => by simp only [Doc.ofJson, Doc.data, dataL_ofJson js]
  | .obj fs => by simp only [Doc.ofJson, Doc.data, dataF_ofJson fs]
theorem dataL_ofJson : ∀ js : List Json, Doc.dataL (Doc.ofJsonL js) = js
  | [] => by simp [Doc.ofJsonL, Doc.dataL]
  | j :: js => by simp only [Doc.ofJsonL, Doc.dataL, data_ofJson j, dataL_ofJson js]
theorem dataF_ofJson : ∀ fs : List (String × Json), Doc.dataF (Doc.ofJsonF fs) = fs
  | [] => by simp [Doc.ofJsonF, Doc.dataF]
  | (k, j) :: fs => by simp only [Doc.ofJsonF, Doc.dataF, data_ofJson j, dataF_ofJson fs]
end

mutual
theorem hasTuple_ofJson : ∀ j : Json, (Doc.ofJson j).hasTuple = false
  | .null => by simp [Doc.ofJson, Doc.hasTuple]
  | .bool b => by simp [Doc.ofJson, Doc.hasTuple]
  | .val v => by simp [Doc.ofJson, Doc.hasTuple]
  | .arr js => by simp [Doc.ofJson, Doc.hasTuple, hasTupleL_ofJson js]
  | .obj fs => by simp [Doc.ofJson, Doc.hasTuple, hasTupleF_ofJson fs]
theorem hasTupleL_ofJson : ∀ js : List Json, Doc.hasTupleL (Doc.ofJsonL js) = false
  | [] => by simp [Doc.ofJsonL, Doc.hasTupleL]
  | j :: js => by simp [Doc.ofJsonL, Doc.hasTupleL, hasTuple_ofJson j, hasTupleL_ofJson js]
theorem hasTupleF_ofJson : ∀ fs : List (String × Json), Doc.hasTupleF (Doc.ofJsonF fs) = false
  | [] => by simp [Doc.ofJsonF, Doc.hasTupleF]
  | (k, j) :: fs => by simp [Doc.ofJsonF, Doc.hasTupleF, hasTuple_ofJson j, hasTupleF_ofJson fs]
end

theorem dataL_vals (vs : List Val) : Doc.dataL (vs.map Doc.val) = vs.map Json.val := by
  rw [dataL_map, List.map_map]
  rfl

theorem hasTupleL_iff : ∀ {ds : List Doc}, Doc.hasTupleL ds = true ↔ ∃ d ∈ ds, d.hasTuple = true
  | [] => by simp [Doc.hasTupleL]
  | d :: ds => by simp [Doc.hasTupleL, hasTupleL_iff (ds := ds)]

theorem hasTupleL_vals (vs : List Val) : Doc.hasTupleL (vs.map Doc.val) = false := by
  rw [Bool.eq_false_iff]
  intro h
  obtain ⟨d, hd, h⟩ := hasTupleL_iff.1 h
  obtain ⟨v, _, rfl⟩ := List.mem_map.1 hd
  simp [Doc.hasTuple] at h

theorem data_docLit (k : Lit → SeqKind) (l : Lit) : (docLit k l).data = encLit l := by
  cases ht : l.test with
  | bin op v x => simp only [docLit, ht, data_ofJson]
  | isIn vs xs => simp only [docLit, encLit, ht, Doc.data, Doc.dataF, dataL_vals, Json.str]

mutual
theorem data_docCond (k : Lit → SeqKind) : ∀ c : Cond, (docCond k c).data = encCond c
  | .lit l => by simp only [docCond, encCond, data_docLit]
  | .and cs => by simp only [docCond, encCond, Doc.data, Doc.dataF, dataL_docConds k cs, Json.str]
  | .or cs => by simp only [docCond, encCond, Doc.data, Doc.dataF, dataL_docConds k cs, Json.str]
theorem dataL_docConds (k : Lit → SeqKind) : ∀ cs : List Cond, Doc.dataL (docConds k cs) = encConds cs
  | [] => by simp only [docConds, encConds, Doc.dataL]
  | c :: cs => by simp only [docConds, encConds, Doc.dataL, data_docCond k c, dataL_docConds k cs]
end

mutual
theorem data_docForb : ∀ f : Forb, (docForb f).data = encForb f
  | .eq h v x => by simp only [docForb, data_ofJson]
  | .isIn h vs xs => by simp only [docForb, encForb, Doc.data, Doc.dataF, dataL_vals, Json.str]
  | .rel op l r => by simp only [docForb, data_ofJson]
  | .and fs => by simp only [docForb, encForb, Doc.data, Doc.dataF, dataL_docForbs fs, Json.str]
theorem dataL_docForbs : ∀ fs : List Forb, Doc.dataL (docForbs fs) = encForbs fs
  | [] => by simp only [docForbs, encForbs, Doc.dataL]
  | f :: fs => by simp only [docForbs, encForbs, Doc.dataL, data_docForb f, dataL_docForbs fs]
end

/-- Without the kinds of the collections the dictionary is the one of `Model/Serial`. -/
theorem data_toDoc (s : Space) (k : Lit → SeqKind) (w : Name → Option (List Rat)) (ver : String) :
    (toDoc s k w ver).data = s.toDict w ver := by
  simp only [toDoc, Space.toDict, Doc.data, Doc.dataF, dataL_docConds, dataL_docForbs, Json.str]
  have : Doc.dataL (s.com.map (fun x => docHP x.hp (w x.name))) = s.com.map (fun x => encHP x.hp (w x.name)) := by
    rw [dataL_map, List.map_map]
    refine List.map_congr_left fun x _ => ?_
    simp only [Function.comp, docHP, data_ofJson]
  rw [this]

/-! ## Where tuples are -/

theorem hasTuple_docLit (k : Lit → SeqKind) (l : Lit) :
    (docLit k l).hasTuple = true ↔ (∃ vs xs, l.test = .isIn vs xs) ∧ k l = .tuple := by
  cases ht : l.test with
  | bin op v x => simp [docLit, ht, hasTuple_ofJson]
  | isIn vs xs => simp [docLit, ht, Doc.hasTuple, Doc.hasTupleF, hasTupleL_vals]

theorem docConds_map (k : Lit → SeqKind) : ∀ cs : List Cond, docConds k cs = cs.map (docCond k)
  | [] => by simp [docConds]
  | c :: cs => by rw [docConds, docConds_map k cs, List.map_cons]

theorem docForbs_map : ∀ fs : List Forb, docForbs fs = fs.map docForb
  | [] => by simp [docForbs]
  | f :: fs => by rw [docForbs, docForbs_map fs, List.map_cons]

theorem hasTuple_docCond (k : Lit → SeqKind) (c : Cond) :
    (docCond k c).hasTuple = true ↔ ∃ l ∈ c.dlcs, (∃ vs xs, l.test = .isIn vs xs) ∧ k l = .tuple := by
  induction c using Cond.induct with
  | hl l => simp [docCond, Cond.dlcs, hasTuple_docLit]
  | ha cs ih =>
    simp only [docCond, Doc.hasTuple, Doc.hasTupleF, Cond.dlcs, Bool.false_or, Bool.or_false, docConds_map]
    rw [show decide (SeqKind.list = SeqKind.tuple) = false from rfl, Bool.false_or, hasTupleL_iff]
    constructor
    · rintro ⟨d, hd, h⟩
      obtain ⟨c, hc, rfl⟩ := List.mem_map.1 hd
      obtain ⟨l, hl, h'⟩ := (ih c hc).1 h
      exact ⟨l, mem_dlcsL.2 ⟨c, hc, hl⟩, h'⟩
    · rintro ⟨l, hl, h⟩
      obtain ⟨c, hc, hl⟩ := mem_dlcsL.1 hl
      exact ⟨_, List.mem_map_of_mem hc, (ih c hc).2 ⟨l, hl, h⟩⟩
  | ho cs ih =>
    simp only [docCond, Doc.hasTuple, Doc.hasTupleF, Cond.dlcs, Bool.false_or, Bool.or_false, docConds_map]
    rw [show decide (SeqKind.list = SeqKind.tuple) = false from rfl, Bool.false_or, hasTupleL_iff]
    constructor
    · rintro ⟨d, hd, h⟩
      obtain ⟨c, hc, rfl⟩ := List.mem_map.1 hd
      obtain ⟨l, hl, h'⟩ := (ih c hc).1 h
      exact ⟨l, mem_dlcsL.2 ⟨c, hc, hl⟩, h'⟩
    · rintro ⟨l, hl, h⟩
      obtain ⟨c, hc, hl⟩ := mem_dlcsL.1 hl
      exact ⟨_, List.mem_map_of_mem hc, (ih c hc).2 ⟨l, hl, h⟩⟩

theorem hasTuple_docForb (f : Forb) : (docForb f).hasTuple = true ↔ ContainsIn f := by
  induction f using Forb.induct with
  | he h v x =>
    simp only [docForb, hasTuple_ofJson]
    exact ⟨fun h => absurd h (by simp), fun h => by cases h⟩
  | hi h vs xs =>
    simp only [docForb, Doc.hasTuple, Doc.hasTupleF]
    exact ⟨fun _ => .here _ _ _, fun _ => by simp⟩
  | hr op l r =>
    simp only [docForb, hasTuple_ofJson]
    exact ⟨fun h => absurd h (by simp), fun h => by cases h⟩
  | ha fs ih =>
    simp only [docForb, Doc.hasTuple, Doc.hasTupleF, Bool.false_or, Bool.or_false, docForbs_map]
    rw [show decide (SeqKind.list = SeqKind.tuple) = false from rfl, Bool.false_or, hasTupleL_iff]
    constructor
    · rintro ⟨d, hd, h⟩
      obtain ⟨f, hf, rfl⟩ := List.mem_map.1 hd
      exact .inside hf ((ih f hf).1 h)
    · intro h
      cases h with
      | inside hf h => exact ⟨_, List.mem_map_of_mem hf, (ih _ hf).2 h⟩

theorem hasTuple_toDoc (s : Space) (k : Lit → SeqKind) (w : Name → Option (List Rat)) (ver : String) :
    (toDoc s k w ver).hasTuple = true ↔ (∃ f ∈ s.forbs, ContainsIn f) ∨
      ∃ c ∈ s.conditions, ∃ l ∈ c.dlcs, (∃ vs xs, l.test = .isIn vs xs) ∧ k l = .tuple := by
  have h1 : Doc.hasTupleL (s.com.map (fun x => docHP x.hp (w x.name))) = false := by
    rw [Bool.eq_false_iff]
    intro h
    obtain ⟨d, hd, h⟩ := hasTupleL_iff.1 h
    obtain ⟨x, _, rfl⟩ := List.mem_map.1 hd
    rw [docHP, hasTuple_ofJson] at h
    cases h
  simp only [toDoc, Doc.hasTuple, Doc.hasTupleF, h1, Bool.false_or, Bool.or_false]
  rw [show decide (SeqKind.list = SeqKind.tuple) = false from rfl]
  simp only [Bool.false_or, Bool.or_eq_true, hasTupleL_iff, docConds_map, docForbs_map, List.mem_map]
  constructor
  · rintro (⟨d, ⟨c, hc, rfl⟩, h⟩ | ⟨d, ⟨f, hf, rfl⟩, h⟩)
    · exact .inr ⟨c, hc, (hasTuple_docCond k c).1 h⟩
    · exact .inl ⟨f, hf, (hasTuple_docForb f).1 h⟩
  · rintro (⟨f, hf, h⟩ | ⟨c, hc, h⟩)
    · exact .inr ⟨_, ⟨f, hf, rfl⟩, (hasTuple_docForb f).2 h⟩
    · exact .inl ⟨_, ⟨c, hc, rfl⟩, (hasTuple_docCond k c).2 h⟩

/-! ## Sorted keys -/

/-- A Python dictionary has every key once, at every level. -/
inductive Dicts : Doc → Prop
  | none : Dicts .none
  | bool (b : Bool) : Dicts (.bool b)
  | val (v : Val) : Dicts (.val v)
  | seq (k : SeqKind) {ds : List Doc} (h : ∀ d ∈ ds, Dicts d) : Dicts (.seq k ds)
  | dict {fs : List (String × Doc)} (hk : (fs.map Prod.fst).Nodup) (h : ∀ kd ∈ fs, Dicts kd.2) : Dicts (.dict fs)

theorem sortedL_map : ∀ ds : List Doc, Doc.sortedL ds = ds.map Doc.sorted
  | [] => by simp [Doc.sortedL]
  | d :: ds => by rw [Doc.sortedL, sortedL_map ds, List.map_cons]

theorem sortedF_map : ∀ fs : List (String × Doc), Doc.sortedF fs = fs.map (fun kd => (kd.1, kd.2.sorted))
  | [] => by simp [Doc.sortedF]
  | (k, d) :: fs => by rw [Doc.sortedF, sortedF_map fs, List.map_cons]

theorem lookup_mapped {α β : Type} (f : α → β) (k : String) : ∀ fs : List (String × α),
    (fs.map (fun kd => (kd.1, f kd.2))).lookup k = (fs.lookup k).map f
  | [] => rfl
  | (m, a) :: fs => by
    rw [List.map_cons, List.lookup_cons, List.lookup_cons, lookup_mapped f k fs]
    cases k == m <;> rfl

theorem same_sorted {d : Doc} (h : Dicts d) : SameData d.sorted.data d.data := by
  induction h with
  | none => exact .null
  | bool b => exact .bool b
  | val v => exact .val v
  | @seq k ds _ ih =>
    simp only [Doc.sorted, Doc.data, dataL_map, sortedL_map]
    refine .arr (by simp) fun i a b ha hb => ?_
    simp only [List.map_map, List.getElem?_map, Option.map_eq_some_iff] at ha hb
    obtain ⟨d, hd, rfl⟩ := ha
    obtain ⟨d', hd', rfl⟩ := hb
    rw [hd] at hd'
    cases hd'
    exact ih d (List.mem_of_getElem? hd)
  | @dict fs hk _ ih =>
    simp only [Doc.sorted, Doc.data, dataF_map, sortedF_map]
    have hp : ∀ k, ((sortBy (fun a b => decide (a.1 ≤ b.1)) (fs.map (fun kd => (kd.1, kd.2.sorted)))).map
        (fun kd => (kd.1, kd.2.data))).lookup k = (fs.lookup k).map (fun d => d.sorted.data) := by
      intro k
      rw [lookup_mapped Doc.data, lookup_perm (sortBy_perm _ _) (by
        rw [List.map_map]
        exact hk), lookup_mapped Doc.sorted, Option.map_map]
      rfl
    refine .obj (fun k => ?_) fun k a b ha hb => ?_
    · rw [hp, lookup_mapped Doc.data]
      cases fs.lookup k <;> simp
    · rw [hp] at ha
      rw [lookup_mapped Doc.data] at hb
      cases e : fs.lookup k with
      | none => rw [e] at ha; cases ha
      | some d =>
        rw [e] at ha hb
        cases ha
        cases hb
        exact ih (k, d) (lookup_mem e)

theorem ofJsonL_vals : ∀ vs : List Val, Doc.ofJsonL (vs.map Json.val) = vs.map Doc.val
  | [] => by simp [Doc.ofJsonL]
  | v :: vs => by simp only [List.map_cons, Doc.ofJsonL, Doc.ofJson, ofJsonL_vals vs]

theorem dicts_vals (k : SeqKind) (vs : List Val) : Dicts (.seq k (vs.map Doc.val)) :=
  .seq k fun d hd => by
    obtain ⟨v, _, rfl⟩ := List.mem_map.1 hd
    exact .val v

theorem dicts_fields {fs : List (String × Doc)} (hk : (fs.map Prod.fst).Nodup) (h : (∀ d ∈ fs.map Prod.snd, Dicts d)) :
    Dicts (.dict fs) := .dict hk fun kd hkd => h _ (List.mem_map_of_mem hkd)

theorem dicts_docHP (h : HP) (w : Option (List Rat)) : Dicts (docHP h w) := by
  have hw : Dicts (Doc.ofJson (match w with
      | some (x :: xs) => .arr ((x :: xs).map (fun q => Json.val (.flt q)))
      | _ => .null)) := by
    match w with
    | none => exact .none
    | some [] => exact .none
    | some (x :: xs) =>
      have e : ((x :: xs).map (fun q => Json.val (.flt q))) = ((x :: xs).map Val.flt).map Json.val := by
        rw [List.map_map]
        rfl
      simp only [Doc.ofJson]
      rw [e, ofJsonL_vals]
      exact dicts_vals _ _
  unfold docHP encHP
  cases h.kind with
  | flt l u =>
    simp only [Doc.ofJson, Doc.ofJsonF, Json.str]
    refine dicts_fields (by simp) ?_
    simp only [List.map_cons, List.map_nil, List.forall_mem_cons]
    exact ⟨.val _, .val _, .val _, .val _, .val _, .bool _, .none, by simp⟩
  | int l u =>
    simp only [Doc.ofJson, Doc.ofJsonF, Json.str]
    refine dicts_fields (by simp) ?_
    simp only [List.map_cons, List.map_nil, List.forall_mem_cons]
    exact ⟨.val _, .val _, .val _, .val _, .val _, .bool _, .none, by simp⟩
  | cat cs =>
    simp only [Doc.ofJson, Doc.ofJsonF, Json.str, ofJsonL_vals]
    refine dicts_fields (by simp) ?_
    simp only [List.map_cons, List.map_nil, List.forall_mem_cons]
    exact ⟨.val _, .val _, dicts_vals _ _, hw, .val _, .none, by simp⟩
  | ord cs =>
    simp only [Doc.ofJson, Doc.ofJsonF, Json.str, ofJsonL_vals]
    refine dicts_fields (by simp) ?_
    simp only [List.map_cons, List.map_nil, List.forall_mem_cons]
    exact ⟨.val _, .val _, dicts_vals _ _, .val _, .none, by simp⟩
  | const v =>
    simp only [Doc.ofJson, Doc.ofJsonF, Json.str]
    refine dicts_fields (by simp) ?_
    simp only [List.map_cons, List.map_nil, List.forall_mem_cons]
    exact ⟨.val _, .val _, .val _, .none, by simp⟩

theorem dicts_docLit (k : Lit → SeqKind) (l : Lit) : Dicts (docLit k l) := by
  unfold docLit encLit
  cases l.test with
  | bin op v x =>
    simp only [Doc.ofJson, Doc.ofJsonF, Json.str]
    refine dicts_fields (by simp) ?_
    simp only [List.map_cons, List.map_nil, List.forall_mem_cons]
    exact ⟨.val _, .val _, .val _, .val _, by simp⟩
  | isIn vs xs =>
    refine dicts_fields (by simp) ?_
    simp only [List.map_cons, List.map_nil, List.forall_mem_cons]
    exact ⟨.val _, .val _, .val _, dicts_vals _ _, by simp⟩

theorem dicts_docCond (k : Lit → SeqKind) (c : Cond) : Dicts (docCond k c) := by
  induction c using Cond.induct with
  | hl l => simpa only [docCond] using dicts_docLit k l
  | ha cs ih =>
    simp only [docCond, docConds_map]
    refine dicts_fields (by simp) ?_
    simp only [List.map_cons, List.map_nil, List.forall_mem_cons]
    exact ⟨.val _, .val _, .seq _ fun d hd => by
      obtain ⟨c, hc, rfl⟩ := List.mem_map.1 hd
      exact ih c hc, by simp⟩
  | ho cs ih =>
    simp only [docCond, docConds_map]
    refine dicts_fields (by simp) ?_
    simp only [List.map_cons, List.map_nil, List.forall_mem_cons]
    exact ⟨.val _, .val _, .seq _ fun d hd => by
      obtain ⟨c, hc, rfl⟩ := List.mem_map.1 hd
      exact ih c hc, by simp⟩

theorem dicts_docForb (f : Forb) : Dicts (docForb f) := by
  induction f using Forb.induct with
  | he h v x =>
    simp only [docForb, encForb, Doc.ofJson, Doc.ofJsonF, Json.str]
    refine dicts_fields (by simp) ?_
    simp only [List.map_cons, List.map_nil, List.forall_mem_cons]
    exact ⟨.val _, .val _, .val _, by simp⟩
  | hi h vs xs =>
    simp only [docForb]
    refine dicts_fields (by simp) ?_
    simp only [List.map_cons, List.map_nil, List.forall_mem_cons]
    exact ⟨.val _, .val _, dicts_vals _ _, by simp⟩
  | hr op l r =>
    simp only [docForb, encForb, Doc.ofJson, Doc.ofJsonF, Json.str]
    refine dicts_fields (by simp) ?_
    simp only [List.map_cons, List.map_nil, List.forall_mem_cons]
    exact ⟨.val _, .val _, .val _, by simp⟩
  | ha fs ih =>
    simp only [docForb, docForbs_map]
    refine dicts_fields (by simp) ?_
    simp only [List.map_cons, List.map_nil, List.forall_mem_cons]
    exact ⟨.val _, .seq _ fun d hd => by
      obtain ⟨f, hf, rfl⟩ := List.mem_map.1 hd
      exact ih f hf, by simp⟩

theorem dicts_toDoc (s : Space) (k : Lit → SeqKind) (w : Name → Option (List Rat)) (ver : String) : Dicts (toDoc s k w ver) := by
  unfold toDoc
  refine dicts_fields (by simp) ?_
  simp only [List.map_cons, List.map_nil, List.forall_mem_cons, docConds_map, docForbs_map]
  refine ⟨.none, .seq _ fun d hd => ?_, .seq _ fun d hd => ?_, .seq _ fun d hd => ?_, .val _, .val _, by simp⟩
  · obtain ⟨x, _, rfl⟩ := List.mem_map.1 hd
    exact dicts_docHP _ _
  · obtain ⟨c, _, rfl⟩ := List.mem_map.1 hd
    exact dicts_docCond k c
  · obtain ⟨f, _, rfl⟩ := List.mem_map.1 hd
    exact dicts_docForb f

end Verif.Files
