import Verif.Spec.FromDict
import Verif.Props.Construct
import Verif.Props.Accept
import Verif.Props.Graph

/-!
# C66: building a space from a mapping
-/

set_option autoImplicit false

namespace Verif
open Verif.Spec

theorem dictParams_forall₂ {α β : Type} {f : α → Except Err β} : ∀ {l : List α} {r : List β},
    mapExcept f l = .ok r → List.Forall₂ (fun x y => f x = .ok y) l r
  | [], r, h => by simp only [mapExcept, Except.ok.injEq] at h; subst h; exact .nil
  | x :: l, r, h => by
    simp only [mapExcept] at h
    cases hx : f x with
    | error e => rw [hx] at h; cases h
    | ok y =>
      rw [hx] at h
      cases hl : mapExcept f l with
      | error e => rw [hl] at h; cases h
      | ok ys =>
        rw [hl] at h
        cases h
        exact .cons hx (dictParams_forall₂ hl)

theorem int_of_near {l m : Int} (h : |(l : Rat) - m| ≤ 1 / 2) : l = m := by
  have h1 := (abs_le.1 h).1
  have h2 := (abs_le.1 h).2
  have a : ((l - m : Int) : Rat) < 1 := by push_cast; linarith
  have b : ((-1 : Int) : Rat) < ((l - m : Int) : Rat) := by push_cast; linarith
  have a' : l - m < 1 := by exact_mod_cast a
  have b' : -1 < l - m := by exact_mod_cast b
  omega

theorem parseEntry_means {n : Name} {e : Entry} {h : HP} (ho : OneType e) (hp : parseEntry n e = .ok h) :
    Means n e h ∧ h.wf = true := by
  cases e with
  | hp h' => simp only [parseEntry, Except.ok.injEq] at hp; subst hp; exact ⟨.hp _, ho⟩
  | tuple vs =>
    match vs, ho with
    | [.int l, .int u], _ =>
      simp only [parseEntry, boundOf, Val.num?] at hp
      obtain ⟨hw, hn, l', u', m, hk, hd, h1, h2, h3, h4⟩ := C48_integer hp
      obtain rfl := int_of_near h3
      obtain rfl := int_of_near h4
      refine ⟨?_, hw⟩
      obtain ⟨n', k', d'⟩ := h
      cases hn; cases hk; cases hd
      exact .ints _ _ _ h1 h2.1 h2.2
    | [.flt l, .flt u], _ =>
      simp only [parseEntry, boundOf, Val.num?] at hp
      obtain ⟨hw, hn, l', u', m, hk, hd, h1, h2, h3, h4, _⟩ := C48_float hp
      refine ⟨?_, hw⟩
      obtain ⟨n', k', d'⟩ := h
      cases hn; cases hk; cases hd
      exact .floats _ _ _ _ _ h3 h4 h1 h2.1 h2.2
  | list vs =>
    cases vs with
    | nil => simp [parseEntry] at hp
    | cons v vs =>
      simp only [parseEntry, List.isEmpty_cons, Bool.false_eq_true, if_false] at hp
      obtain ⟨hw, _⟩ := C48_categorical hp
      refine ⟨?_, hw⟩
      unfold mkCat at hp
      split at hp; · cases hp
      split at hp; · cases hp
      split at hp; · cases hp
      split at hp; · cases hp
      have hp := (finishHP_ok (h := { name := n, kind := .cat (v :: vs), default := v })).1 hp
      rw [hp.1]
      exact .choices _ _
  | other v =>
    obtain ⟨h', e1, hw, hn, hk, hd⟩ := C48_constant n v
    simp only [parseEntry] at hp
    rw [e1] at hp
    cases hp
    refine ⟨?_, hw⟩
    obtain ⟨n', k', d'⟩ := h
    cases hn; cases hk
    simp only at hd
    subst hd
    exact .constant _

theorem distinctVals_of_pairwise {cs : List Val} (h : cs.Pairwise (fun a b => a.pyEq b = false)) : distinctVals cs = true := by
  induction h with
  | nil => rfl
  | @cons a l ha _ ih =>
    simp only [distinctVals, Bool.and_eq_true, Bool.not_eq_true', ih, and_true]
    unfold Val.pyIn
    rw [Bool.eq_false_iff, Ne, List.any_eq_true]
    rintro ⟨x, hx, hxa⟩
    rw [Val.pyEq_comm, ha x hx] at hxa
    cases hxa

theorem parseEntry_sane {n : Name} {e : Entry} (hs : Sane n e) : ∃ h, parseEntry n e = .ok h ∧ h.wf = true ∧ h.name = n := by
  cases e with
  | hp h' => exact ⟨h', rfl, hs⟩
  | tuple vs =>
    match vs, hs with
    | [.int l, .int u], hs =>
      obtain ⟨h, hb, _⟩ := C48_integer_accepts (n := n) (l := l) (u := u) hs (d := none) (by simp)
      have := C48_integer hb
      exact ⟨h, hb, this.1, this.2.1⟩
    | [.flt l, .flt u], hs =>
      have hs : l + 1 / 10 ^ 13 < u := hs
      have hr : ∀ r : Rat, |r - roundPlaces r| ≤ 1 / (2 * 10 ^ 13) := by
        intro r
        have := roundPlaces_near r
        unfold rabs at this
        rw [abs_le]
        norm_num at *
        split at this <;> constructor <;> linarith
      have h1 := (abs_le.1 (hr l)).1
      have h2 := (abs_le.1 (hr u)).2
      obtain ⟨h, hb⟩ := C48_float_accepts (n := n) (lo := l) (up := u) (by norm_num at *; linarith) (d := none) (by simp)
      have := C48_float hb
      exact ⟨h, hb, this.1, this.2.1⟩
  | list vs =>
    obtain ⟨h1, h2⟩ := hs
    obtain ⟨h, hb, _⟩ := C48_categorical_accepts (n := n) (d := none) (ws := none) h1 (distinctVals_of_pairwise h2) (by simp)
      (by simp)
    have := C48_categorical hb
    exact ⟨h, by simp [parseEntry, h1, hb], this.1, this.2.1⟩
  | other v =>
    obtain ⟨h, hb, hw, hn, _⟩ := C48_constant n v
    exact ⟨h, hb, hw, hn⟩

/-- **C66.** A space that is built from a mapping consists of the hyperparameters that the items stand for according to the
documentation, and of nothing else: it is the space after the single call of `add` with them. -/
theorem C66_contents_partial {items : List (Name × Entry)} {s : Space} (hb : Space.ofDict items = .ok s)
    (ho : ∀ ne ∈ items, OneType ne.2) :
    ∃ hps, List.Forall₂ (fun (ne : Name × Entry) h => Means ne.1 ne.2 h) items hps ∧ (s.com.map Node.hp).Perm hps ∧
      Reach [⟨hps, [], []⟩] s := by
  unfold Space.ofDict at hb
  split at hb
  · cases hb
  · rename_i hps hm
    have hf := dictParams_forall₂ hm
    have hw : ∀ h ∈ hps, h.wf = true := by
      intro h hh
      obtain ⟨ne, hne, e⟩ := (mapExcept_on hm).1 h hh
      exact (parseEntry_means (ho ne hne) e).2
    split at hb
    · rename_i s' ha
      cases hb
      have hr : Reach ([] ++ [⟨hps, [], []⟩]) s := .snoc .nil ⟨hw, by simp, by simp⟩ ha
      refine ⟨hps, ?_, by simpa [allHps] using hps_perm hr, hr⟩
      clear hm ha hr hw
      induction hf with
      | nil => exact .nil
      | cons hx _ ih =>
        exact .cons (parseEntry_means (ho _ (by simp)) hx).1 (ih (fun ne hne => ho ne (by simp [hne])))
    · cases hb

/-- **C66.** A mapping whose items make sense is accepted, and the keys are the names of the hyperparameters of the space. -/
theorem C66_accepts {items : List (Name × Entry)} (hd : (items.map Prod.fst).Nodup) (hs : ∀ ne ∈ items, Sane ne.1 ne.2) :
    ∃ s, Space.ofDict items = .ok s ∧ s.names.Perm (items.map Prod.fst) := by
  obtain ⟨hps, hm⟩ := mapExcept_total (f := fun ne : Name × Entry => parseEntry ne.1 ne.2) (l := items)
    (fun ne hne => (parseEntry_sane (hs ne hne)).imp fun _ h => h.1)
  have hw : ∀ h ∈ hps, h.wf = true := by
    intro h hh
    obtain ⟨ne, hne, e⟩ := (mapExcept_on hm).1 h hh
    obtain ⟨h', e', hw, _⟩ := parseEntry_sane (hs ne hne)
    simp only [e', Except.ok.injEq] at e
    exact e ▸ hw
  have hn : hps.map HP.name = items.map Prod.fst := by
    have hf := dictParams_forall₂ hm
    clear hm hw hd
    induction hf with
    | nil => rfl
    | @cons ne h l l' hx _ ih =>
      obtain ⟨h', e', _, hn⟩ := parseEntry_sane (hs ne (by simp))
      simp only [e', Except.ok.injEq] at hx
      rw [List.map_cons, List.map_cons, ih (fun z hz => hs z (by simp [hz])), ← hx, hn]
  have ha := C58_fresh_hyperparameters .nil rfl rfl hps hw (by simpa [allHps, hn] using hd)
  cases he : ({} : Space).add hps [] [] with
  | mk s o =>
    rw [he] at ha
    cases ha
    refine ⟨s, by simp [Space.ofDict, hm, he], ?_⟩
    have hr : Reach ([] ++ [⟨hps, [], []⟩]) s := .snoc .nil ⟨hw, by simp, by simp⟩ he
    have hp := (hps_perm hr).map HP.name
    have : s.names = (s.com.map Node.hp).map HP.name := by simp [Space.names, Node.name]
    rw [this, ← hn]
    simpa [allHps] using hp

theorem pairwise_of_distinctVals : ∀ {cs : List Val}, distinctVals cs = true → cs.Pairwise (fun a b => a.pyEq b = false)
  | [], _ => .nil
  | a :: l, h => by
    simp only [distinctVals, Bool.and_eq_true, Bool.not_eq_true'] at h
    refine .cons (fun x hx => ?_) (pairwise_of_distinctVals h.2)
    cases hc : a.pyEq x with
    | false => rfl
    | true =>
      have : a.pyIn l = true := by
        unfold Val.pyIn
        rw [List.any_eq_true]
        exact ⟨x, hx, Val.pyEq_symm hc⟩
      rw [h.1] at this
      cases this

/-- **C66.** An item that makes no sense is rejected with a `ValueError`, and then there is no space: a tuple with more or fewer
than two entries, a pair of integers or floats that are not in order, an empty list and a list with equal choices. -/
theorem C66_rejects {n : Name} {e : Entry} (hs : Senseless e) : parseEntry n e = .error .valueError ∧
    ∀ items, (n, e) ∈ items → ∀ s, Space.ofDict items ≠ .ok s := by
  have hp : parseEntry n e = .error .valueError := by
    cases e with
    | hp h' => exact hs.elim
    | other v => exact hs.elim
    | list vs =>
      simp only [parseEntry]
      split
      · rfl
      · rename_i hne
        rcases hs with rfl | hs
        · exact absurd rfl hne
        · have : distinctVals vs = false := by
            cases hd : distinctVals vs with
            | false => rfl
            | true => exact absurd (pairwise_of_distinctVals hd) hs
          simp [mkCat, this]
    | tuple vs =>
      match vs, hs with
      | [.int l, .int u], hs =>
        have hs : u ≤ l := hs
        simp [parseEntry, boundOf, Val.num?, mkInt, badIntDefault, rint_int, hs]
      | [.flt l, .flt u], hs =>
        have hs : u ≤ l := hs
        simp [parseEntry, boundOf, Val.num?, mkFlt, roundPlaces_mono hs]
      | [], _ => rfl
      | [_], _ => rfl
      | _ :: _ :: _ :: _, _ => rfl
      | [.int _, .flt _], hs => exact absurd rfl hs
      | [.int _, .str _], hs => exact absurd rfl hs
      | [.flt _, .int _], hs => exact absurd rfl hs
      | [.flt _, .str _], hs => exact absurd rfl hs
      | [.str _, .int _], hs => exact absurd rfl hs
      | [.str _, .flt _], hs => exact absurd rfl hs
      | [.str _, .str _], hs => exact absurd rfl hs
  refine ⟨hp, ?_⟩
  intro items hi s h
  unfold Space.ofDict at h
  split at h
  · cases h
  · rename_i hps hm
    have := dictParams_forall₂ hm
    have hex : ∀ {l : List (Name × Entry)} {r : List HP},
        List.Forall₂ (fun ne h => parseEntry ne.1 ne.2 = .ok h) l r → ∀ ne ∈ l, ∃ h, parseEntry ne.1 ne.2 = .ok h := by
      intro l r hf
      induction hf with
      | nil => intro ne hne; cases hne
      | cons h1 _ ih =>
        intro ne hne
        rcases List.mem_cons.1 hne with rfl | hne
        · exact ⟨_, h1⟩
        · exact ih ne hne
    obtain ⟨h', hh⟩ := hex this _ hi
    rw [hp] at hh
    cases hh

example : Senseless (.tuple [.int 1, .int 2, .int 3]) ∧ Senseless (.tuple [.flt 2, .flt 1]) ∧ Senseless (.list [.int 1, .flt 1]) ∧
    Senseless (.tuple [.int 3, .int 3]) :=
  ⟨by simp [Senseless], by norm_num [Senseless], .inr (by decide +kernel), by simp [Senseless]⟩

namespace ExD

/-- An integer, a float, a categorical and a constant, as in the documentation. -/
def doc : List (Name × Entry) :=
  [("i", .tuple [.int 1, .int 10]), ("f", .tuple [.flt 1, .flt 10]), ("c", .list [.str "a", .str "b"]), ("k", .other (.int 7))]

theorem doc_sane : (doc.map Prod.fst).Nodup ∧ (∀ ne ∈ doc, Sane ne.1 ne.2) ∧ ∀ ne ∈ doc, OneType ne.2 := by
  refine ⟨by decide, ?_, ?_⟩
  · intro ne h
    simp only [doc, List.mem_cons, List.not_mem_nil, or_false] at h
    rcases h with rfl | rfl | rfl | rfl
    · show (1 : Int) < 10; decide
    · show (1 : Rat) + 1 / 10 ^ 13 < 10; norm_num
    · exact ⟨by simp, by decide⟩
    · trivial
  · intro ne h
    simp only [doc, List.mem_cons, List.not_mem_nil, or_false] at h
    rcases h with rfl | rfl | rfl | rfl <;> trivial

end ExD

/-- The documented mapping is accepted, and gives four hyperparameters. -/
example : ∃ s hps, Space.ofDict ExD.doc = .ok s ∧ s.names.Perm ["i", "f", "c", "k"] ∧
    List.Forall₂ (fun (ne : Name × Entry) h => Means ne.1 ne.2 h) ExD.doc hps ∧ (s.com.map Node.hp).Perm hps := by
  obtain ⟨s, hb, hn⟩ := C66_accepts ExD.doc_sane.1 ExD.doc_sane.2.1
  obtain ⟨hps, h1, h2, _⟩ := C66_contents_partial hb ExD.doc_sane.2.2
  exact ⟨s, hps, hb, hn, h1, h2⟩

/-- Bounds of different types: with an integer as lower bound, the upper bound is rounded to an integer, so that the value 2
is legal although the mapping says `(0, 1.5)`; and no float is. -/
theorem C66_mixed_bounds : ∃ h, parseEntry "a" (.tuple [.int 0, .flt (3 / 2)]) = .ok h ∧
    h.kind.legalValue (.int 2) = true ∧ h.kind.legalValue (.flt (1 / 2)) = false :=
  ⟨{ name := "a", kind := .int 0 2, default := .int 1 }, by decide +kernel, by decide +kernel, by decide +kernel⟩

/-- The key of an item that is already a hyperparameter is discarded: two different keys may clash, and a key need not name
anything in the space. -/
theorem C66_key_discarded : ∃ h : HP, h.wf = true ∧ (∃ s, Space.ofDict [("x", .hp h)] = .ok s ∧ "x" ∉ s.names) ∧
    ∃ e, Space.ofDict [("x", .hp h), ("y", .hp h)] = .error e := by
  refine ⟨{ name := "a", kind := .const (.int 1), default := .int 1 }, by decide +kernel, ?_, ?_⟩
  · have ha := C58_fresh_hyperparameters .nil rfl rfl [{ name := "a", kind := .const (.int 1), default := .int 1 }]
      (by decide +kernel) (by decide +kernel)
    cases he : ({} : Space).add [{ name := "a", kind := .const (.int 1), default := .int 1 }] [] [] with
    | mk s o =>
      rw [he] at ha
      cases ha
      refine ⟨s, by simp [Space.ofDict, mapExcept, parseEntry, he], ?_⟩
      have hr : Reach ([] ++ [⟨[{ name := "a", kind := .const (.int 1), default := .int 1 }], [], []⟩]) s :=
        .snoc .nil ⟨by decide +kernel, by simp, by simp⟩ he
      have hp := (hps_perm hr).map HP.name
      intro hx
      have h2 : s.names = (s.com.map Node.hp).map HP.name := by simp [Space.names, Node.name]
      rw [h2] at hx
      have := hp.mem_iff.1 hx
      simp [allHps] at this
  · refine ⟨.alreadyExists "a", ?_⟩
    have h1 : (({} : Space).add [{ name := "a", kind := .const (.int 1), default := .int 1 },
        { name := "a", kind := .const (.int 1), default := .int 1 }] [] []).2 = some (.alreadyExists "a") := by decide +kernel
    cases he : ({} : Space).add [{ name := "a", kind := .const (.int 1), default := .int 1 },
        { name := "a", kind := .const (.int 1), default := .int 1 }] [] [] with
    | mk s o =>
      rw [he] at h1
      cases h1
      simp [Space.ofDict, mapExcept, parseEntry, he]

example : Space.ofDict [("a", .tuple [.int 1, .int 2]), ("b", .tuple [.flt 2, .flt 1])] ≠ .ok {} :=
  (C66_rejects (n := "b") (e := .tuple [.flt 2, .flt 1]) (by norm_num [Senseless])).2 _ (by simp) _

end Verif
