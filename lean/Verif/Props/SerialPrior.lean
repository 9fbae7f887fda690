import Verif.Model.SerialPrior
import Verif.Props.Prior
import Verif.Lemmas.Serial

/-!
# Distributions, scales and meta data in dictionaries (C83); copies of hyperparameters (C84)
-/

set_option autoImplicit false

namespace Verif
open Verif.Spec

theorem decNum_int (n : Name) (l u d : Int) (p : Prior) (log : Bool) (md : Json) :
    decNum (encNum { hp := { name := n, kind := .int l u, default := .int d }, prior := p, log := log } md) =
      (apiInteger n (some ((l : Rat), (u : Rat))) (distOf p) (some ((trunc (d : Rat) : Int) : Rat)) log >>= fun r => .ok (r, md)) := by
  cases p <;> rfl

theorem decNum_flt (n : Name) (l u d : Rat) (p : Prior) (log : Bool) (md : Json) :
    decNum (encNum { hp := { name := n, kind := .flt l u, default := .flt d }, prior := p, log := log } md) =
      (apiFloat n (l, u) (distOf p) (some d) log >>= fun r => .ok (r, md)) := by
  cases p <;> rfl

/-- **C83** (partial: all but normal distributions on a logarithmic scale whose mean was rounded to zero): decoding the dictionary of
a numerical hyperparameter gives the hyperparameter back, with its bounds, default, scale, distribution and meta data. -/
theorem C83_numerical_round_trip_partial {r : NumHP} (h : Made r) (md : Json)
    (hmu : ∀ mu s, r.prior = .normal mu s → r.log = true → 0 < mu) : decNum (encNum r md) = .ok (r, md) := by
  rcases made_cases h with ⟨l, u, d, dist, hk, hd, hlu, hp, h1, h2, hs, hpr⟩ |
    ⟨l, u, d, dist, hk, hd, hlu, hp, h1, h2, rl, ru, rd, hs, hpr⟩
  · obtain ⟨⟨n, k, df⟩, pr, log⟩ := r
    simp only at hk hd hp hs hpr hmu
    subst hk hd hpr
    rw [decNum_int, trunc_int]
    have hint : integerOf (distOf (priorOf true dist)) ((d : Int) : Rat) = d := by
      cases dist <;> first | exact trunc_int _ | exact rint_int _
    have : apiInteger n (some ((l : Rat), (u : Rat))) (distOf (priorOf true dist)) (some (d : Rat)) log =
        .ok { hp := { name := n, kind := .int l u, default := .int d }, prior := priorOf true dist, log := log } := by
      rw [apiInteger_ok]
      simp only [rint_int]
      refine ⟨⟨hlu, hp, ?_, ?_⟩, ?_⟩
      · cases dist with
        | none => trivial
        | uniform => trivial
        | normal mu s => exact hs
        | beta x y => exact hs
        | other => exact absurd hs id
      · rintro _ ⟨⟩
        rw [hint]
        exact ⟨closeToInt_int _, h1, h2⟩
      · simp only [intDefault, hint]
        cases dist <;> rfl
    rw [this]
    rfl
  · obtain ⟨⟨n, k, df⟩, pr, log⟩ := r
    simp only at hk hd hp hs hpr hmu
    subst hk hd hpr
    rw [decNum_flt]
    have : apiFloat n (l, u) (distOf (priorOf false dist)) (some d) log =
        .ok { hp := { name := n, kind := .flt l u, default := .flt d }, prior := priorOf false dist, log := log } := by
      rw [apiFloat_ok]
      simp only [rl, ru]
      refine ⟨⟨hlu, hp, ?_, ?_⟩, ?_⟩
      · cases dist with
        | none => trivial
        | uniform => trivial
        | normal mu s => exact fun hl => hmu _ _ rfl hl
        | beta x y => exact ⟨one_le_roundPlaces hs.1, one_le_roundPlaces hs.2⟩
        | other => exact absurd hs id
      · rintro _ ⟨⟩
        rw [rd]
        exact ⟨h1, h2⟩
      · simp only [fltDefault, rd]
        cases dist with
        | normal mu s => simp [distOf, priorOf, roundPlaces_idem]
        | beta x y => simp [distOf, priorOf, roundPlaces_idem]
        | _ => rfl
    rw [this]
    rfl

/-- C83, false of the code: a normal distribution on a logarithmic scale whose mean was rounded to zero can be made and encoded,
but not decoded. -/
theorem C83_rounded_mean_is_not_decoded :
    (∀ (r : NumHP) (md : Json) (mu s : Rat), Made r → r.prior = .normal mu s → r.log = true → mu ≤ 0 →
      decNum (encNum r md) = .error .valueError) ∧
    ∃ (r : NumHP) (mu s : Rat), Made r ∧ r.prior = .normal mu s ∧ r.log = true ∧ mu ≤ 0 := by
  constructor
  · intro r md mu s h hpr hl hmu
    rcases made_cases h with ⟨l, u, d, dist, hk, hd, hlu, hp, h1, h2, hs, hpr'⟩ |
      ⟨l, u, d, dist, hk, hd, hlu, hp, h1, h2, rl, ru, rd, hs, hpr'⟩
    · obtain ⟨⟨n, k, df⟩, pr, log⟩ := r
      simp only at hk hd hp hs hpr hl
      subst hk hd hpr hl
      rw [decNum_int]
      have : apiInteger n (some ((l : Rat), (u : Rat))) (distOf (.normal mu s)) (some ((trunc (d : Rat) : Int) : Rat)) true =
          .error .valueError := by
        simp only [apiInteger, distOf, reduceCtorEq, if_false]
        unfold mkNormalInt
        rw [if_pos (by simpa using hmu)]
      rw [this]
      rfl
    · obtain ⟨⟨n, k, df⟩, pr, log⟩ := r
      simp only at hk hd hp hs hpr hl
      subst hk hd hpr hl
      rw [decNum_flt]
      have : apiFloat n (l, u) (distOf (.normal mu s)) (some d) true = .error .valueError := by
        simp only [apiFloat, distOf, reduceCtorEq, if_false]
        unfold mkNormalFlt
        rw [if_pos (by simpa using hmu)]
      rw [this]
      rfl
  · obtain ⟨r, h, hp, _⟩ := C80_log_mean_rounded_to_zero
    have hl : r.log = true := by
      obtain ⟨_, rfl⟩ := apiFloat_ok.1 h
      rfl
    exact ⟨r, 0, 1, .inr ⟨_, _, _, _, _, h⟩, hp, hl, le_refl _⟩

/-- **C83**: whatever is decoded as a numerical hyperparameter could also have been made by `Integer(...)` or `Float(...)`. -/
theorem C83_decoded_is_made {j : Json} {r : NumHP} {md : Json} (h : decNum j = .ok (r, md)) : Made r := by
  cases j with
  | obj fs =>
    unfold decNum at h
    simp only at h
    cases hp : popType fs with
    | error e => rw [hp] at h; cases h
    | ok p =>
      obtain ⟨t, item⟩ := p
      rw [hp] at h
      simp only at h
      unfold decNumFields at h
      simp only at h
      generalize compat item = gs at h
      generalize (if t = "normal_int" ∨ t = "normal_float" then ["mu", "sigma"]
        else if t = "beta_int" ∨ t = "beta_float" then ["alpha", "beta"] else []) = params at h
      split at h
      · cases h
      · split at h
        · cases h
        · cases h1 : asStr (gs.lookup "name") with
          | error e => rw [h1] at h; cases h
          | ok n =>
          rw [h1, bind_ok] at h
          cases h2 : asNum (gs.lookup "lower") with
          | error e => rw [h2] at h; cases h
          | ok l =>
          rw [h2, bind_ok] at h
          cases h3 : asNum (gs.lookup "upper") with
          | error e => rw [h3] at h; cases h
          | ok u =>
          rw [h3, bind_ok] at h
          cases h4 : asNum? (gs.lookup "default_value") with
          | error e => rw [h4] at h; cases h
          | ok d =>
          rw [h4, bind_ok] at h
          cases h5 : asBool false (gs.lookup "log") with
          | error e => rw [h5] at h; cases h
          | ok log =>
          rw [h5, bind_ok] at h
          cases h6 : mapExcept (fun k => asNum (gs.lookup k)) params with
          | error e => rw [h6] at h; cases h
          | ok ps =>
          rw [h6, bind_ok] at h
          split at h
          · cases h7 : mkUniformInt n l u d log with
            | error e => rw [h7] at h; cases h
            | ok r' => rw [h7] at h; cases h; exact .inl ⟨n, some (l, u), .uniform, d, log, h7⟩
          · cases h7 : mkUniformFlt n l u d log with
            | error e => rw [h7] at h; cases h
            | ok r' => rw [h7] at h; cases h; exact .inr ⟨n, (l, u), .uniform, d, log, h7⟩
          · rename_i mu sigma _
            cases h7 : mkNormalInt n mu sigma l u d log with
            | error e => rw [h7] at h; cases h
            | ok r' => rw [h7] at h; cases h; exact .inl ⟨n, some (l, u), .normal mu sigma, d, log, h7⟩
          · rename_i mu sigma _
            cases h7 : mkNormalFlt n mu sigma l u d log with
            | error e => rw [h7] at h; cases h
            | ok r' => rw [h7] at h; cases h; exact .inr ⟨n, (l, u), .normal mu sigma, d, log, h7⟩
          · rename_i a b _
            cases h7 : mkBetaInt n a b l u d log with
            | error e => rw [h7] at h; cases h
            | ok r' => rw [h7] at h; cases h; exact .inl ⟨n, some (l, u), .beta a b, d, log, h7⟩
          · rename_i a b _
            cases h7 : mkBetaFlt n a b l u d log with
            | error e => rw [h7] at h; cases h
            | ok r' => rw [h7] at h; cases h; exact .inr ⟨n, (l, u), .beta a b, d, log, h7⟩
          · cases h
  | _ => cases h

example : ∃ r : NumHP, Made r ∧ r.prior = .beta 3 (5 / 2) ∧ r.hp.kind = .int 1 100 ∧ r.log = true ∧
    ∀ md, decNum (encNum r md) = .ok (r, md) := by
  obtain ⟨r, h⟩ := C77_integer_accepted_iff (n := "x") (bounds := some (1, 100)) (dist := .beta 3 (5 / 2)) (default := some 7)
    (log := true) |>.2 ⟨1, 100, rfl, by decide +kernel, by decide +kernel, ⟨by decide +kernel, by decide +kernel⟩, by
      rintro d ⟨⟩; decide +kernel⟩
  obtain ⟨_, rfl⟩ := apiInteger_ok.1 h
  refine ⟨_, .inl ⟨_, _, _, _, _, h⟩, rfl, by simp only [Kind.int.injEq]; decide +kernel, rfl, fun md => ?_⟩
  exact C83_numerical_round_trip_partial (.inl ⟨_, _, _, _, _, h⟩) md (by rintro mu s ⟨⟩)

/-! ## Copies -/

/-- C84, false of the code: `copy` raises for every hyperparameter and every choice of attributes to change, because the fields that
`dataclasses.replace` hands to the constructor contain internal ones that no constructor accepts. -/
theorem C84_copy_always_raises (c : HPClass) (changes : List String) :
    c.copy changes = .error .typeError ∨ c.copy changes = .error .valueError ∧ "size" ∈ changes := by
  unfold HPClass.copy
  split
  · rename_i h
    right
    refine ⟨rfl, ?_⟩
    rw [List.any_eq_true] at h
    obtain ⟨k, hk, hf⟩ := h
    have : k ∈ ["size"] := by
      have hf := of_decide_eq_true hf
      cases c <;> simp [HPClass.otherFields] at hf <;> simp [hf]
    rw [List.mem_singleton] at this
    exact this ▸ hk
  · left
    simp only
    rw [if_neg]
    intro h
    rw [List.all_eq_true] at h
    have hv : "_vector_dist" ∈ c.initFields := by cases c <;> decide
    have hn : "_vector_dist" ∉ c.initArgs := by cases c <;> decide
    by_cases hc : "_vector_dist" ∈ changes
    · exact hn (of_decide_eq_true (h _ (List.mem_append_left _ hc)))
    · exact hn (of_decide_eq_true (h _ (List.mem_append_right _ (List.mem_filter.2 ⟨hv, decide_eq_true hc⟩))))

/-- What the decoder makes from the description of a beta distributed integer is made by the constructors. -/
example : ∃ j r, decNum j = .ok (r, .null) ∧ r.prior = .beta 3 (5 / 2) ∧ Made r := by
  obtain ⟨r, h⟩ := C77_integer_accepted_iff (n := "x") (bounds := some (1, 100)) (dist := .beta 3 (5 / 2)) (default := some 7)
    (log := true) |>.2 ⟨1, 100, rfl, by decide +kernel, by decide +kernel, ⟨by decide +kernel, by decide +kernel⟩, by
      rintro d ⟨⟩; decide +kernel⟩
  have hm : Made r := .inl ⟨_, _, _, _, _, h⟩
  have hd := C83_numerical_round_trip_partial hm .null (by obtain ⟨_, rfl⟩ := apiInteger_ok.1 h; rintro mu s ⟨⟩)
  obtain ⟨_, rfl⟩ := apiInteger_ok.1 h
  exact ⟨_, _, hd, rfl, C83_decoded_is_made hd⟩

end Verif
