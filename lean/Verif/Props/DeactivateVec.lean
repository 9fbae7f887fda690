import Verif.Lemmas.DeactivateVec
import Verif.Model.DeactivateArgs
import Verif.Props.Deactivate

/-!
# C40 for vectors: deactivation of inactive hyperparameters in a vector
-/

set_option autoImplicit false

namespace Verif
open Verif.Spec

variable {calls : List Call} {s : Space}

/-- **C40, false of the code: both arguments.** The documentation says that the vector is ignored if both arguments are given; the
function raises ValueError, for every space, dictionary and vector, and also if none is given. -/
theorem C40_both_given_raises (s : Space) (k : Nat) (d : Dict) (v : Vec) :
    deactivateArgs s k (some d) (some v) = some (.error .valueError)
    ∧ deactivateArgs s k none none = some (.error .valueError) := ⟨rfl, rfl⟩

/-- **C40, vectors** (the function ends). -/
theorem C40_vector_ends (h : Reach calls s) (v : Vec) : ∃ N r, ∀ k, N ≤ k → deactivateArgs s k none (some v) = some r := by
  unfold deactivateArgs
  show ∃ N r, ∀ k, N ≤ k → (match Config.ofVector s v true with
    | .error e => some (.error e)
    | .ok c => deactivateFrom s k c) = some r
  cases Config.ofVector s v true with
  | error e => exact ⟨0, _, fun _ _ => rfl⟩
  | ok c0 =>
    obtain ⟨N, r, hr⟩ := deLoop_ends h c0
    refine ⟨N, ?_⟩
    unfold deactivateFrom
    cases r with
    | error e => exact ⟨.error e, fun k hk => by simp only [hr k hk]⟩
    | ok st =>
      cases hfin : deFinal s st.inactive s.dag.nodes st.cfg with
      | error e => exact ⟨.error e, fun k hk => by simp only [hr k hk, hfin]⟩
      | ok c' =>
        cases hd : c'.toDict s with
        | error e => exact ⟨.error e, fun k hk => by simp only [hr k hk, hfin, hd]⟩
        | ok d => exact ⟨Config.ofValues s d, fun k hk => by simp only [hr k hk, hfin, hd]⟩

/-- **C40, vectors** (soundness, for every space and vector). What the function returns is accepted by the validator, and its
dictionary is that of the configuration with the given vector without some entries, which are entries of conditional
hyperparameters. -/
theorem C40_vector_restricts (h : Reach calls s) {v : Vec} {k : Nat} {c' : Config}
    (hr : deactivateArgs s k none (some v) = some (.ok c')) :
    ∃ c1 d d', Config.ofVector s v = .ok c1 ∧ c1.toDict s = .ok d ∧ c'.toDict s = .ok d' ∧ s.check c'.vec = none ∧
      d'.Sublist d ∧ ∀ kv ∈ d, kv ∈ d' ∨ Conditional calls kv.1 := by
  have hr : (match Config.ofVector s v true with
    | .error e => some (.error e)
    | .ok c => deactivateFrom s k c) = some (.ok c') := hr
  cases hc1 : Config.ofVector s v true with
  | error e => rw [hc1] at hr; cases hr
  | ok c1 =>
    rw [hc1] at hr
    have hlen : v.length = s.len := by
      unfold Config.ofVector at hc1
      split at hc1
      · cases hc1
      · rename_i hn; exact Classical.not_not.1 hn
    have hc1' : c1 = { vec := v, allow := true } := by
      unfold Config.ofVector at hc1
      rw [if_neg (by simpa using hlen)] at hc1
      cases hc1; rfl
    have hc0 : Config.ofVector s v = .ok { vec := v, allow := false } := by
      unfold Config.ofVector
      rw [if_neg (by simpa using hlen)]
    have hitems : ∀ ns, Config.items s { vec := v, allow := false } ns = c1.items s ns := by
      subst hc1'
      intro ns
      induction ns with
      | nil => rfl
      | cons n ns ih =>
        unfold Config.items
        rw [ih]
        have : (Config.getItem s { vec := v, allow := false } n).1 = (Config.getItem s { vec := v, allow := true } n).1 := by
          unfold Config.getItem
          simp only [Option.getD_none, List.lookup_nil]
          cases findNode s.dag.nodes n with
          | none => rfl
          | some x =>
            simp only
            cases v.at (s.idx n) with
            | none => rfl
            | some q =>
              simp only
              cases x.hp.kind.toVal q <;> rfl
        rw [this]
    have hsame : Config.toDict s { vec := v, allow := false } = c1.toDict s := by
      subst hc1'
      exact hitems _
    simp only at hr
    unfold deactivateFrom at hr
    cases hl : deLoop s k { cfg := c1, queue := s.dag.roots.filter (fun n => !(s.childrenOf n).isEmpty) } with
    | none => rw [hl] at hr; cases hr
    | some r =>
      rw [hl] at hr
      cases r with
      | error e => cases hr
      | ok st =>
        simp only at hr
        have h1 := left_deLoop h hc1 k _ st ⟨.inl rfl, by simp⟩ hl
        cases hf : deFinal s st.inactive s.dag.nodes st.cfg with
        | error e => rw [hf] at hr; cases hr
        | ok c2 =>
          rw [hf] at hr
          simp only at hr
          have h2 := left_deFinal h hc1 h1.ina _ _ c2 h1.cfg hf
          cases hd : c2.toDict s with
          | error e => rw [hd] at hr; cases hr
          | ok d2 =>
            rw [hd] at hr
            simp only [Option.some.injEq] at hr
            have hck := (ofValues_ok h hr).1
            rcases h2 with rfl | ⟨d, d', k1, k2, k3, k4, k5⟩
            · exact ⟨_, d2, d2, hc0, by rw [hsame]; exact hd, toDict_ofValues h (canon_vector h hc1 hd) hr, hck,
                List.Sublist.refl _, fun _ hk => .inl hk⟩
            · rw [hd] at k2
              cases k2
              exact ⟨_, d, d2, hc0, by rw [hsame]; exact k1, toDict_ofValues h k3 hr, hck, k4, k5⟩

/-- **C40, vectors** (agreement with dictionaries). If the values that a configuration with the given vector shows make a configuration
whose conditions hold alike (always so if the entries are what these values are encoded as), then the function does exactly what it
does for the dictionary of these values. -/
theorem C40_vector_like_values_partial (h : Reach calls s) {v : Vec} {c1 c0 : Config} {d : Dict}
    (hv : Config.ofVector s v true = .ok c1) (hd : c1.toDict s = .ok d) (hc : Config.ofValues s d true = .ok c0) {a a0 : Assign}
    (ha : Represents s v a) (ha0 : Represents s c0.vec a0) (hcond : ∀ c ∈ allConds calls, Holds a c ↔ Holds a0 c) (k : Nat) :
    deactivateArgs s k none (some v) = deactivateArgs s k (some d) none := by
  have hcv : c1.vec = v := by
    unfold Config.ofVector at hv
    split at hv
    · cases hv
    · cases hv; rfl
  have hal : DeAlike s c1 c0 := by
    refine ⟨by rw [hd, toDict_ofValues h (canon_vector h hv hd) hc], ?_⟩
    intro n c hcn
    have hm : c ∈ allConds calls := by
      unfold Space.parentConds at hcn
      cases hf : findNode s.com n with
      | none => rw [hf] at hcn; cases hcn
      | some x =>
        rw [hf] at hcn
        have hx : x ∈ s.com := (findNode_some hf).1
        have hxc : x.cond = some c := by
          cases hxc : x.cond with
          | none => simp [hxc] at hcn
          | some c' => simp [hxc] at hcn; rw [hcn]
        exact (node_cond h hx hxc).1
    rw [Bool.eq_iff_iff, hcv, holds_represents h ha hm, holds_represents h ha0 hm]
    exact hcond c hm
  have e1 : deactivateArgs s k none (some v) = deactivateFrom s k c1 := by
    unfold deactivateArgs
    rw [show Config.make s none (some v) true = Config.ofVector s v true from rfl, hv]
  have e2 : deactivateArgs s k (some d) none = deactivateFrom s k c0 := by
    unfold deactivateArgs
    rw [show Config.make s (some d) none true = Config.ofValues s d true from rfl, hc]
  rw [e1, e2]
  exact deactivateFrom_alike hal k

/-- The entry is decoded to the value `w`, rounded if it is a float, which is encoded to the entry again. -/
def Spec.Stored (k : Kind) (q : Rat) (w : Val) : Prop :=
  (∃ u, k.toVal q = some u ∧ w = roundVal k u) ∧ k.legalValue w = true ∧ k.toVec w = some q

theorem items_total {c : Config} : ∀ {ns : List Name}, (∀ n ∈ ns, ∃ w, (c.getItem s n).1 = .ok w) → ∃ d, c.items s ns = .ok d := by
  intro ns
  induction ns with
  | nil => intro _; exact ⟨[], rfl⟩
  | cons n ns ih =>
    intro h
    obtain ⟨w, hw⟩ := h n List.mem_cons_self
    obtain ⟨d, hd⟩ := ih (fun m hm => h m (List.mem_cons_of_mem _ hm))
    exact ⟨_, by unfold Config.items; rw [hw, hd]⟩

/-- **C40, complete vectors.** If every entry of the vector is set and stands for a legal value (floats with at most 13 places), the
values together are not forbidden, and `!=` is used on unconditional hyperparameters only, then the function returns a
configuration that the validator accepts and that has exactly the hyperparameters whose conditions hold, with the values of the
vector. -/
theorem C40_complete_vectors_partial (h : Reach calls s) (hsep : Separable calls) (hown : OwnClauses calls)
    (hmono : NoNeqOnConditional calls) {v : Vec} {a : Assign} (ha : Represents s v a) (hu : ∀ n, ¬ Known calls n → a n = none)
    (hall : ∀ x ∈ allHps calls, ∃ q w, a x.name = some q ∧ Stored x.kind q w) (hnf : NotForbidden calls a) :
    ∃ N c' b, (∀ k, N ≤ k → deactivateArgs s k none (some v) = some (.ok c')) ∧ Represents s c'.vec b ∧ s.check c'.vec = none ∧
      Prunes calls b a ∧ ActivityOk calls b ∧
      (∀ b', Prunes calls b' a → ActivityOk calls b' → Restricts b' b) ∧
      ∀ x ∈ allHps calls, ∀ q w, a x.name = some q → Stored x.kind q w → b x.name ≠ none →
        (c'.getItem s x.name).1 = .ok w := by
  have hn := reach_ninv h
  have hae := asg_eq_of_represents h ha hu
  have hv : Config.ofVector s v true = .ok { vec := v, allow := true } := by
    unfold Config.ofVector
    rw [if_neg (by simpa using ha.1)]
  have hent : ∀ x ∈ s.com, v.at (s.idx x.name) = a x.name := by
    intro x hx
    rw [← hae]; rfl
  have hget : ∀ x ∈ s.com, ∀ q w, a x.name = some q → Stored x.hp.kind q w →
      (Config.getItem s { vec := v, allow := true } x.name).1 = .ok w := by
    intro x hx q w hq ⟨⟨u, hu, hw⟩, _⟩
    rw [getItem_node h hx rfl]
    simp only
    rw [hent x hx, hq]
    simp only
    rw [hu, hw]
  obtain ⟨d, hd⟩ : ∃ d, Config.toDict s { vec := v, allow := true } = .ok d := by
    refine items_total ?_
    intro n hnk
    obtain ⟨x, hx, rfl⟩ := List.mem_map.1 (mem_keys.1 hnk).1
    obtain ⟨q, w, hq, hw⟩ := hall x.hp (node_hp h hx)
    exact ⟨w, hget x hx q w hq hw⟩
  have hcan := canon_vector h hv hd
  obtain ⟨hd1, hd2⟩ := items_spec hd
  have hkd : (d.map Prod.fst).Nodup := hcan.keys.nodup hn.nodup
  have hlook : ∀ x ∈ s.com, ∀ q w, a x.name = some q → Stored x.hp.kind q w → d.lookup x.name = some (some w) := by
    intro x hx q w hq hw
    have hm : x.name ∈ d.map Prod.fst := by
      rw [hd1]
      refine mem_keys.2 ⟨mem_names hx, ?_⟩
      show isSet (v.at _) = true
      rw [hent x hx, hq]; rfl
    obtain ⟨⟨m, o⟩, hm, e⟩ := List.mem_map.1 hm
    simp only at e
    subst e
    obtain ⟨w', rfl, hw'⟩ := hd2 _ _ hm
    rw [hget x hx q w hq hw] at hw'
    cases hw'
    exact dict_lookup_mem hkd hm
  have hround : ∀ k q w, Stored k q w → roundVal k w = w := by
    rintro k q w ⟨⟨u, _, rfl⟩, _⟩
    exact roundVal_idem _ _
  obtain ⟨N, c', b, k1, k2, k3, k4, k5, k6, k7⟩ := C40_complete_partial h hsep hown hmono (d := d) (a := a)
    (by
      intro kv hkv
      exact (reach_isNode h _).1 (hcan.keys.subset (List.mem_map.2 ⟨_, hkv, rfl⟩)))
    (by
      intro x hx
      obtain ⟨y, hy, rfl⟩ := node_of_hp h hx
      obtain ⟨q, w, hq, hw⟩ := hall y.hp hx
      refine ⟨w, hlook y hy q w hq hw, hw.2.1, ?_⟩
      intro l u hk
      obtain ⟨⟨z, hz, rfl⟩, _⟩ := hw
      rw [hk] at hz ⊢
      cases hz
      exact ⟨_, rfl⟩) hu
    (by
      intro x hx w hw
      obtain ⟨y, hy, rfl⟩ := node_of_hp h hx
      obtain ⟨q, w', hq, hw'⟩ := hall y.hp hx
      rw [show y.hp.name = y.name from rfl, hlook y hy q w' hq hw'] at hw
      cases hw
      rw [hround _ _ _ hw', hw'.2.2]
      exact hq) hnf
  have hdn := k1 N (Nat.le_refl _)
  obtain ⟨c0, hc0⟩ : ∃ c0, Config.ofValues s d true = .ok c0 := by
    unfold deactivate at hdn
    cases hc : Config.ofValues s d true with
    | error e => rw [hc] at hdn; cases hdn
    | ok c0 => exact ⟨c0, rfl⟩
  have hrep0 : Represents s c0.vec a := by
    obtain ⟨_, h2, _, _, vals, h5, h6, h7⟩ := ofValues_ok h hc0
    have hr := represents_asg h h2
    refine ⟨hr.1, ?_⟩
    intro i n hin
    rw [hr.2 i n hin]
    have hnm : n ∈ s.names := List.mem_of_getElem? hin
    obtain ⟨x, hx, rfl⟩ := List.mem_map.1 hnm
    obtain ⟨q, w, hq, hw⟩ := hall x.hp (node_hp h hx)
    rcases h7 x hx with ⟨w', q', j1, _, j3, j4, _⟩ | ⟨j1, _⟩
    · rw [hlook x hx q w hq hw] at j1
      cases j1
      rw [hround _ _ _ hw, hw.2.2] at j3
      cases j3
      show c0.vec.at _ = _
      rw [j4]
      exact hq.symm
    · rw [hlook x hx q w hq hw] at j1
      rcases j1 with j1 | j1 <;> cases j1
  refine ⟨N, c', b, fun k hk => ?_, k2, k3, k4, k5, k6, ?_⟩
  · rw [C40_vector_like_values_partial h hv hd hc0 ha hrep0 (fun _ _ => Iff.rfl)]
    exact k1 k hk
  · intro x hx q w hq hw hb
    obtain ⟨y, hy, rfl⟩ := node_of_hp h hx
    rw [k7 y.hp hx w (hlook y hy q w hq hw) hb, hround _ _ _ hw]

/-- **C40, false of the code: vectors are checked less.** The values `p = "b"`, `x = "a"` without a value for `y`, which is active if
`x` is "a", are refused as a dictionary; as a vector the function returns `{"p": "b"}`. -/
theorem C40_vector_more_lenient : ∃ calls s d v c c', Reach calls s ∧ Separable calls ∧ allForbs calls = [] ∧
    Config.ofVector s v = .ok c ∧ c.toDict s = .ok d ∧ deactivateArgs s 10 (some d) none = some (.error (.activeNotSet "y")) ∧
    deactivateArgs s 10 none (some v) = some (.ok c') ∧ c'.toDict s = .ok [("p", some (.str "b"))] := by
  refine ⟨[Ex.callL], Ex.spL, [("p", some (.str "b")), ("x", some (.str "a"))], [some 1, some 0, none],
    ⟨[some 1, some 0, none], none, false⟩, ⟨[some 1, none, none], some [("p", .str "b")], false⟩, Ex.reachL, Ex.sepL, rfl,
    ?_, ?_, ?_, ?_, ?_⟩
  all_goals with_unfolding_all rfl

/-- A case of `C40_complete_vectors_partial`: all entries of the chain are set, and `p` is "b". -/
example : ∃ N c' b, (∀ k, N ≤ k → deactivateArgs Ex.spL k none (some [some 1, some 0, some 1]) = some (.ok c')) ∧
    Represents Ex.spL c'.vec b ∧ ActivityOk [Ex.callL] b := by
  have hl : ([some 1, some 0, some 1] : Vec).length = Ex.spL.len := by decide +kernel
  have hst : ∀ q : Rat, q = 0 ∨ q = 1 → ∃ w, Stored (.cat [.str "a", .str "b"]) q w := by
    rintro q (rfl | rfl)
    · exact ⟨.str "a", ⟨.str "a", by decide +kernel, by decide +kernel⟩, by decide +kernel, by decide +kernel⟩
    · exact ⟨.str "b", ⟨.str "b", by decide +kernel, by decide +kernel⟩, by decide +kernel, by decide +kernel⟩
  obtain ⟨N, c', b, h1, h2, _, _, h3, _⟩ := C40_complete_vectors_partial Ex.reachL Ex.sepL
    (by intro f hf; simp [allForbs, Ex.callL] at hf)
    (by
      intro c hc l hl' hne
      simp only [allConds, Ex.callL, List.flatMap_cons, List.flatMap_nil, List.append_nil, List.mem_cons, List.not_mem_nil, or_false] at hc
      rcases hc with rfl | rfl <;> simp [Cond.dlcs] at hl' <;> subst hl' <;> simp [IsNotEquals, Ex.isA] at hne)
    (represents_asg Ex.reachL hl) (fun n hn => asg_unknown Ex.reachL hl hn)
    (by
      intro x hx
      simp only [show allHps [Ex.callL] = [Ex.ab "p", Ex.ab "x", Ex.ab "y"] from rfl, List.mem_cons, List.not_mem_nil,
        or_false] at hx
      rcases hx with rfl | rfl | rfl
      · obtain ⟨w, hw⟩ := hst 1 (.inr rfl); exact ⟨1, w, by decide +kernel, hw⟩
      · obtain ⟨w, hw⟩ := hst 0 (.inl rfl); exact ⟨0, w, by decide +kernel, hw⟩
      · obtain ⟨w, hw⟩ := hst 1 (.inr rfl); exact ⟨1, w, by decide +kernel, hw⟩)
    (by intro f hf; simp [allForbs, Ex.callL] at hf)
  exact ⟨N, c', b, h1, h2, h3⟩

/-- The theorems applied to the chain. -/
example := C40_vector_ends Ex.reachL [some 1, some 0, some 1]

end Verif
