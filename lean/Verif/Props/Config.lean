import Verif.Lemmas.Cache
import Verif.Props.Check

/-!
# C20, C21, C22, C24: configurations as mappings
-/

set_option autoImplicit false

namespace Verif
open Verif.Spec

variable {calls : List Call} {s : Space}

/-! ## C20 -/

/-- The values of the default configuration are the defaults. -/
theorem defaultValues_mem : ∀ {xs : List Node} {d d' : Dict}, defaultValues xs d = .ok d' →
    ∀ n w, d'.lookup n = some (some w) → d.lookup n = some (some w) ∨ ∃ x ∈ xs, x.name = n ∧ w = x.hp.default := by
  intro xs
  induction xs with
  | nil => intro d d' h n w hw; simp only [defaultValues, Except.ok.injEq] at h; subst h; exact .inl hw
  | cons x xs ih =>
    intro d d' h n w hw
    have step : ∀ e : Option Val, (e = some x.hp.default ∨ e = none) →
        defaultValues xs (d ++ [(x.name, e)]) = .ok d' →
        d.lookup n = some (some w) ∨ ∃ y ∈ x :: xs, y.name = n ∧ w = y.hp.default := by
      intro e he hd
      rcases ih hd n w hw with h1 | ⟨y, hy, h2⟩
      · cases hdn : d.lookup n with
        | some o => rw [List.lookup_append, hdn] at h1; exact .inl h1
        | none =>
          rw [List.lookup_append, hdn] at h1
          by_cases hxn : n = x.name
          · subst hxn
            simp only [Option.none_or, List.lookup_cons, beq_self_eq_true, Option.some.injEq] at h1
            rcases he with rfl | rfl
            · exact .inr ⟨x, by simp, rfl, (Option.some.inj h1).symm⟩
            · cases h1
          · have : (n == x.name) = false := by simpa using hxn
            simp [List.lookup_cons, this] at h1
      · exact .inr ⟨y, by simp [hy], h2⟩
    unfold defaultValues at h
    cases hc : x.cond with
    | none => simp only [hc] at h; exact step _ (.inl rfl) h
    | some c =>
      simp only [hc] at h
      split at h
      · cases h
      · cases hs : c.satVal d with
        | error e => simp [hs] at h
        | ok b =>
          cases b with
          | true => simp only [hs] at h; exact step _ (.inl rfl) h
          | false => simp only [hs] at h; exact step _ (.inr rfl) h

theorem filled_default (h : Reach calls s) {c : Config} (hc : s.defaultConfig = .ok c) :
    ∃ d, Config.ofValues s d = .ok c ∧ ∀ x ∈ s.com, ∀ w, d.lookup x.name = some (some w) → w = x.hp.default := by
  have hi := sinv_of_reach h
  have hn := reach_ninv h
  unfold Space.defaultConfig at hc
  cases hd : defaultValues s.dag.nodes [] with
  | error e => simp [hd] at hc
  | ok d =>
    simp only [hd] at hc
    refine ⟨d, hc, ?_⟩
    intro x hx w hw
    rcases defaultValues_mem hd _ _ hw with h1 | ⟨y, hy, e, he⟩
    · simp at h1
    · rw [hi.com] at hy
      have h1 := findNode_of_mem hn.nodup hx
      have h2 := findNode_of_mem hn.nodup hy
      rw [e, h1] at h2
      cases h2
      exact he

/-- **C20.** After every history of successful `add` calls the default configuration exists and passes
`check_configuration`; each hyperparameter that has a value in it has its default value, and reading any other
one is a `KeyError`. -/
theorem C20_default_configuration (h : Reach calls s) :
    ∃ c, s.defaultConfig = .ok c ∧ s.check c.vec = none ∧
      ∀ x ∈ allHps calls,
        (c.vec.at (s.idx x.name) = x.kind.toVec x.default ∧ (c.getItem s x.name).1 = .ok x.default) ∨
        (c.vec.at (s.idx x.name) = none ∧ (c.getItem s x.name).1 = .error .keyError) := by
  obtain ⟨c, hc⟩ := (sinv_of_reach h).default
  obtain ⟨d, hd, hdef⟩ := filled_default h hc
  obtain ⟨h1, h2, h3, h4, vals, h5, h6, h7⟩ := ofValues_ok h hd
  refine ⟨c, hc, h1, ?_⟩
  intro x hx
  obtain ⟨y, hy, rfl⟩ := node_of_hp h hx
  rcases h7 y hy with ⟨w, q, k1, k2, k3, k4, k5⟩ | ⟨k1, k2, k3⟩
  · have hw := hdef y hy w k1
    subst hw
    rw [HP.wf_default_round (node_wf h hy)] at k3 k5
    refine .inl ⟨by rw [k3]; exact k4, ?_⟩
    unfold Config.getItem
    rw [h5, Option.getD_some, show y.hp.name = y.name from rfl, k5]
  · refine .inr ⟨k2, ?_⟩
    rw [show y.hp.name = y.name from rfl, getItem_node h hy (by rw [h5]; exact k3)]
    rw [k2]

/-- **C20**, in terms of the meaning of the space (for conditions whose groups have one meaning, see C16). The
default configuration is valid. -/
theorem C20_default_is_valid (h : Reach calls s) (hsep : Separable calls) (hown : OwnClauses calls) :
    ∃ c a, s.defaultConfig = .ok c ∧ Represents s c.vec a ∧ Valid calls a := by
  obtain ⟨c, hc, hchk, hall⟩ := C20_default_configuration h
  obtain ⟨d, hd, _⟩ := filled_default h hc
  have hlen := (ofValues_ok h hd).2.1
  have hv := represents_asg h hlen
  refine ⟨c, _, hc, hv, C16_accepted_legal_roots_partial h hsep hown hv ?_ hchk⟩
  intro x hx _ q hq
  have hw := (reach_wf h).1 x hx
  unfold asg at hq
  rcases hall x hx with ⟨h1, _⟩ | ⟨h1, _⟩
  · rw [h1] at hq
    exact toVec_legal hw (HP.wf_legal hw) hq (HP.wf_default_exact hw)
  · rw [h1] at hq; cases hq

example : ∃ c, Ex.sp2.defaultConfig = .ok c ∧ Ex.sp2.check c.vec = none :=
  let ⟨c, h1, h2, _⟩ := C20_default_configuration Ex.reach2; ⟨c, h1, h2⟩

/-! ## C21 -/

/-- **C21.** If `Configuration(space, values=d)` succeeds, all non-empty keys are names of the space, the vector
passes `check_configuration` with the given flag, and for each hyperparameter of the space: if `d` gives it a value,
that value is legal and reading the key gives it back (floats rounded); if not, reading is a `KeyError`. -/
theorem C21_values_kept (h : Reach calls s) {d : Dict} {al : Bool} {c : Config}
    (hc : Config.ofValues s d al = .ok c) :
    s.check c.vec al = none ∧ (∀ kv ∈ d, kv.1 = "" ∨ Known calls kv.1) ∧
    ∀ x ∈ allHps calls,
      (∃ w, d.lookup x.name = some (some w) ∧ x.kind.legalValue w = true ∧
        c.vec.at (s.idx x.name) = x.kind.toVec (roundVal x.kind w) ∧
        (c.getItem s x.name).1 = .ok (roundVal x.kind w)) ∨
      ((d.lookup x.name = none ∨ d.lookup x.name = some none) ∧
        c.vec.at (s.idx x.name) = none ∧ (c.getItem s x.name).1 = .error .keyError) := by
  obtain ⟨h1, h2, h3, h4, vals, h5, h6, h7⟩ := ofValues_ok h hc
  refine ⟨h1, ?_, ?_⟩
  · intro kv hkv
    rcases h4 kv hkv with hk | hk
    · exact .inr ((reach_isNode h _).1 hk)
    · exact .inl hk
  · intro x hx
    obtain ⟨y, hy, rfl⟩ := node_of_hp h hx
    rcases h7 y hy with ⟨w, q, k1, k2, k3, k4, k5⟩ | ⟨k1, k2, k3⟩
    · refine .inl ⟨w, k1, k2, by rw [k3]; exact k4, ?_⟩
      unfold Config.getItem
      rw [h5, Option.getD_some, show y.hp.name = y.name from rfl, k5]
    · refine .inr ⟨k1, k2, ?_⟩
      rw [show y.hp.name = y.name from rfl, getItem_node h hy (by rw [h5]; exact k3)]
      rw [k2]

/-- **C21**, second part (for conditions whose groups have one meaning, and with exact integers for integer
ranges). The configuration is valid. -/
theorem C21_values_valid_partial (h : Reach calls s) (hsep : Separable calls) (hown : OwnClauses calls)
    {d : Dict} {c : Config} (hc : Config.ofValues s d = .ok c)
    (he : ∀ x ∈ allHps calls, ∀ w, d.lookup x.name = some (some w) → ExactInt x.kind w) :
    ∃ a, Represents s c.vec a ∧ Valid calls a := by
  obtain ⟨hchk, _, hall⟩ := C21_values_kept h hc
  have hlen := (ofValues_ok h hc).2.1
  have hv := represents_asg h hlen
  refine ⟨_, hv, C16_accepted_legal_roots_partial h hsep hown hv ?_ hchk⟩
  intro x hx _ q hq
  have hw := (reach_wf h).1 x hx
  unfold asg at hq
  rcases hall x hx with ⟨w, h1, h2, h3, _⟩ | ⟨_, h1, _⟩
  · rw [h3] at hq
    exact toVec_legal hw (roundVal_legal hw h2) hq (roundVal_exact (he x hx w h1))
  · rw [h1] at hq; cases hq

namespace Ex
/-- `k = 3` and `x = 0.12345678901234567` given; `o` and the rest as in the default. -/
def dictA : Dict := [("alg", some (.str "a")), ("c", some (.int 7)), ("k", some (.flt 3)),
  ("o", some (.str "lo")), ("x", some (.flt (12345678901234567 / 100000000000000000)))]
/-- The resulting configuration. -/
def cfgA : Config := ⟨[some 0, some 1, some (2/9), some 0, some (1234567890123 / 20000000000000)],
  some [("alg", .str "a"), ("c", .int 7), ("k", .flt 3), ("o", .str "lo"),
    ("x", .flt (1234567890123 / 10000000000000))], false⟩
theorem cfgA_eq : Config.ofValues sp1 dictA = .ok cfgA := by
  have h1 : fillValues sp1 dictA sp1.dag.nodes (List.replicate sp1.len none) [] =
      .ok (cfgA.vec, cfgA.vals.getD []) := by decide +kernel
  have h2 : sp1.check cfgA.vec false = none := by decide +kernel
  unfold Config.ofValues
  rw [if_neg (by decide +kernel), h1]
  simp only [h2]
  rfl
end Ex

example : (Ex.cfgA.getItem Ex.sp1 "x").1 = .ok (.flt (1234567890123 / 10000000000000)) := by
  rcases (C21_values_kept Ex.reach1 Ex.cfgA_eq).2.2 Ex.hpX (by simp [allHps, Ex.call1]) with
    ⟨w, h1, _, _, h4⟩ | ⟨h1, _⟩
  · have : w = .flt (12345678901234567 / 100000000000000000) := by
      have h2 : Ex.dictA.lookup Ex.hpX.name = some (some (.flt (12345678901234567 / 100000000000000000))) := by
        decide +kernel
      rw [h1] at h2
      simpa using h2
    rw [this] at h4
    have h5 : roundVal Ex.hpX.kind (.flt (12345678901234567 / 100000000000000000)) =
      .flt (1234567890123 / 10000000000000) := by decide +kernel
    rw [h5] at h4
    exact h4
  · exact absurd h1 (by decide +kernel)

/-- **C21 fails** for the key `""`: `any(unknown_keys)` looks at the truth value of the keys, so an unknown
empty name goes unnoticed. -/
theorem C21_unknown_empty_key_accepted :
    ∃ calls s d c, Reach calls s ∧ ¬ Known calls "" ∧ d.lookup "" = some (some (.int 5)) ∧
      Config.ofValues s d = .ok c := by
  refine ⟨[Ex.call1], Ex.sp1, Ex.dictA ++ [("", some (.int 5))], Ex.cfgA, Ex.reach1, ?_, by decide +kernel, ?_⟩
  · rintro ⟨x, hx, e⟩
    have : ∀ x ∈ allHps [Ex.call1], x.name ≠ "" := by decide +kernel
    exact this x hx e
  · have h1 : fillValues Ex.sp1 (Ex.dictA ++ [("", some (.int 5))]) Ex.sp1.dag.nodes
        (List.replicate Ex.sp1.len none) [] = .ok (Ex.cfgA.vec, Ex.cfgA.vals.getD []) := by decide +kernel
    have h2 : Ex.sp1.check Ex.cfgA.vec false = none := by decide +kernel
    unfold Config.ofValues
    rw [if_neg (by decide +kernel), h1]
    simp only [h2]
    rfl

/-! ## C22 -/

/-- **C22.** For every configuration and every assignment `config[n] = w`: if it raises, the configuration is
unchanged; if it succeeds, `n` is a name of the space, `w` is legal for it, the new vector passes
`check_configuration`, and reading `n` gives `w` (floats rounded, and `w` an exact integer for integer ranges). -/
theorem C22_set_item (h : Reach calls s) {c : Config} (hc : CfgReach s c) (n : Name) (w : Val) :
    (∀ e, (c.setItem s n w).2 = some e → (c.setItem s n w).1 = c) ∧
    ((c.setItem s n w).2 = none → s.check (c.setItem s n w).1.vec = none ∧
      ∃ x ∈ allHps calls, x.name = n ∧ x.kind.legalValue w = true ∧
        (c.setItem s n w).1.vec.at (s.idx n) = x.kind.toVec w ∧
        (ExactInt x.kind w → ∃ u, ((c.setItem s n w).1.getItem s n).1 = .ok u ∧
          u.pyEq (roundVal x.kind w) = true)) := by
  have hi := sinv_of_reach h
  have hk := cacheOk h hc
  constructor
  · intro e he
    exact setItem_err (e := e) (Prod.ext rfl he)
  · intro he
    obtain ⟨x, q, h1, h2, h3, h4, h5, h6⟩ := setItem_ok (Prod.ext rfl he : c.setItem s n w = (_, none))
    rw [hi.com] at h1
    obtain ⟨hx, hxn⟩ := findNode_name h1
    subst hxn
    have hat : (c.setItem s x.name w).1.vec.at (s.idx x.name) = some q := by
      rw [h4]; exact changeHp_at h hk.len (mem_names hx)
    refine ⟨h6, x.hp, node_hp h hx, rfl, h2, by rw [hat, h3], ?_⟩
    intro hex
    obtain ⟨u, k1, k2⟩ := toVal_toVec (node_wf h hx) h2 h3 hex
    refine ⟨roundVal x.hp.kind u, ?_, ?_⟩
    · rw [getItem_node h hx (by rw [h5]; rfl), hat]
      simp only [k1]
    · unfold roundVal
      split
      · rw [Val.pyEq_iff] at k2
        rcases k2 with ⟨t, rfl, rfl⟩ | ⟨p, k3, k4⟩
        · simp [Val.num?, Val.pyEq_refl]
        · simp [k3, k4, Val.pyEq_refl]
      · exact k2

/-- Setting `k` to 1 deactivates `x`; setting it to 42 raises. -/
example : (Ex.cfgA.setItem Ex.sp1 "k" (.int 1)).2 = none ∧
    (Ex.cfgA.setItem Ex.sp1 "k" (.int 1)).1.vec = [some 0, some 1, some 0, some 0, none] ∧
    (Ex.cfgA.setItem Ex.sp1 "k" (.int 42)).2 = some (.illegalValue "k") ∧ CfgReach Ex.sp1 Ex.cfgA :=
  ⟨by decide +kernel, by decide +kernel, by decide +kernel, .values Ex.cfgA_eq⟩

/-- The restriction to exact integers is needed: `3.00001` is legal for `k`, and `3` is read back. -/
theorem C22_near_integer_reads_back_rounded :
    ∃ s c w, Built s ∧ CfgReach s c ∧ (c.setItem s "k" w).2 = none ∧
      ((c.setItem s "k" w).1.getItem s "k").1 = .ok (.int 3) ∧ w.pyEq (.int 3) = false :=
  ⟨Ex.sp1, Ex.cfgA, .flt (300001 / 100000), ⟨_, Ex.reach1⟩, .values Ex.cfgA_eq, by decide +kernel,
    by decide +kernel, by decide +kernel⟩

/-! ## C24 -/

theorem keys_mem {c : Config} {n : Name} : n ∈ c.keys s ↔ n ∈ s.names ∧ ∃ q, c.vec.at (s.idx n) = some q := by
  unfold Config.keys
  rw [List.mem_filter]
  cases c.vec.at (s.idx n) <;> simp [isSet]

/-- **C24** (partial: not `len`, see the counterexample).  Iterating over a configuration yields distinct names, in
the order of the space; a name is among them exactly if reading it does not raise `KeyError`.  If the entries
decode (which they do unless the user passed a vector that does not), reading succeeds for exactly these names, and
`in` says so. -/
theorem C24_mapping_partial (h : Reach calls s) {c : Config} (hc : CfgReach s c) :
    (c.keys s).Nodup ∧ (c.keys s).Sublist s.names ∧
    (∀ n, n ∈ c.keys s ↔ (c.getItem s n).1 ≠ .error .keyError) ∧
    ((∀ x ∈ allHps calls, ∀ q, c.vec.at (s.idx x.name) = some q → ∃ w, x.kind.toVal q = some w) →
      ∀ n, (n ∈ c.keys s ↔ ∃ w, (c.getItem s n).1 = .ok w) ∧
        c.contains s n = .ok (decide (n ∈ c.keys s))) := by
  have hk := cacheOk h hc
  have hkey : ∀ n, n ∈ c.keys s ↔ (c.getItem s n).1 ≠ .error .keyError := by
    intro n
    rw [keys_mem]
    by_cases hn : n ∈ s.names
    · obtain ⟨x, hx, rfl⟩ := List.mem_map.1 hn
      rcases getItem_cases h hk hx with ⟨h1, h2⟩ | ⟨q, hq, ⟨w, h1, _⟩ | ⟨_, h1⟩⟩
      · simp [h1, h2]
      · simp [hq, h1, hn]
      · simp [hq, h1, hn]
    · simp [hn, getItem_unknown h hk hn]
  refine ⟨?_, List.filter_sublist, hkey, ?_⟩
  · exact List.Nodup.sublist List.filter_sublist (reach_ninv h).nodup
  · intro hdec n
    have hok : n ∈ c.keys s ↔ ∃ w, (c.getItem s n).1 = .ok w := by
      constructor
      · intro hn
        obtain ⟨hn, q, hq⟩ := keys_mem.1 hn
        obtain ⟨x, hx, rfl⟩ := List.mem_map.1 hn
        rcases getItem_cases h hk hx with ⟨h1, h2⟩ | ⟨q', hq', ⟨w, h1, _⟩ | ⟨h0, h1⟩⟩
        · rw [h1] at hq; cases hq
        · exact ⟨w, h1⟩
        · obtain ⟨w, hw⟩ := hdec x.hp (node_hp h hx) q' hq'
          rw [hw] at h0; cases h0
      · rintro ⟨w, hw⟩
        rw [hkey, hw]; simp
    refine ⟨hok, ?_⟩
    unfold Config.contains
    by_cases hn : n ∈ c.keys s
    · obtain ⟨w, hw⟩ := hok.1 hn
      simp [hw, hn]
    · have : (c.getItem s n).1 = .error .keyError := by
        by_contra hne
        exact hn ((hkey n).2 hne)
      simp [this, hn]

/-- Entries that come from legal values or from defaults decode, so the second half of `C24_mapping_partial`
applies to every configuration that was not built from a vector. -/
theorem C24_entries_decode (h : Reach calls s) {d : Dict} {al : Bool} {c : Config}
    (hc : Config.ofValues s d al = .ok c) :
    ∀ x ∈ allHps calls, ∀ q, c.vec.at (s.idx x.name) = some q → ∃ w, x.kind.toVal q = some w := by
  intro x hx q hq
  rcases (C21_values_kept h hc).2.2 x hx with ⟨w, _, _, h3, _⟩ | ⟨_, h3, _⟩
  · rw [h3] at hq
    exact toVec_decodes hq
  · rw [h3] at hq; cases hq

example : (Ex.cfgA.setItem Ex.sp1 "k" (.int 1)).1.keys Ex.sp1 = ["alg", "c", "k", "o"] ∧
    ((Ex.cfgA.setItem Ex.sp1 "k" (.int 1)).1.contains Ex.sp1 "x").toOption = some false :=
  ⟨by decide +kernel, by decide +kernel⟩

/-- **C24 fails for `len`:** it is the length of the space, not the number of keys. -/
theorem C24_len_counts_inactive :
    ∃ s c, Built s ∧ CfgReach s c ∧ s.check c.vec = none ∧ c.length s = 5 ∧ (c.keys s).length = 4 :=
  ⟨Ex.sp1, (Ex.cfgA.setItem Ex.sp1 "k" (.int 1)).1, ⟨_, Ex.reach1⟩, .set (.values Ex.cfgA_eq), by decide +kernel,
    by decide +kernel, by decide +kernel⟩

/-- C20, C21, C22 and C24 apply to the two-call space and to the configuration with `k = 3.0`. -/
example : ∃ c a, Ex.sp2.defaultConfig = .ok c ∧ Represents Ex.sp2 c.vec a ∧ Valid [Ex.call1, Ex.call2] a :=
  C20_default_is_valid Ex.reach2 Ex.sep2 Ex.own2

example : (Ex.cfgA.setItem Ex.sp1 "k" (.int 42)).1 = Ex.cfgA :=
  (C22_set_item Ex.reach1 (.values Ex.cfgA_eq) "k" (.int 42)).1 (.illegalValue "k") (by decide +kernel)

example : Ex.cfgA.contains Ex.sp1 "o" = .ok true := by
  have h := (((C24_mapping_partial Ex.reach1 (.values Ex.cfgA_eq)).2.2.2 (C24_entries_decode Ex.reach1 Ex.cfgA_eq)) "o").2
  rw [h, decide_eq_true (by decide +kernel)]

/-- `{"alg": "a", "c": 7, "k": 3.0, "o": "lo", "x": 0.12...}` is valid in the two-call space. -/
example : ∃ a, Represents Ex.sp2 Ex.cfgA.vec a ∧ Valid [Ex.call1, Ex.call2] a := by
  refine C21_values_valid_partial Ex.reach2 Ex.sep2 Ex.own2 (d := Ex.dictA) (c := Ex.cfgA)
    (Ex.ofValues_stages _ _ (by decide +kernel) (by decide +kernel) (by decide +kernel)) ?_
  intro x hx w hw l u hk
  have hh : allHps [Ex.call1, Ex.call2] = [Ex.hpX, Ex.hpK, Ex.hpO, Ex.hpAlg, Ex.hpC] := by
    simp [allHps, Ex.call1, Ex.call2]
  rw [hh] at hx
  simp only [List.mem_cons, List.not_mem_nil, or_false] at hx
  rcases hx with rfl | rfl | rfl | rfl | rfl <;> cases hk
  have : Ex.dictA.lookup Ex.hpK.name = some (some (.flt 3)) := by decide +kernel
  rw [this] at hw
  cases hw
  exact ⟨3, by decide +kernel⟩

end Verif
