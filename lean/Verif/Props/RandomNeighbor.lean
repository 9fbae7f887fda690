import Verif.Lemmas.GridCheck
import Verif.Lemmas.RandomNeighbor
import Verif.Props.Deactivate
import Verif.Spec.Exchange

/-!
# Properties of `get_random_neighbor`

C64 a returned configuration is accepted and differs from the given one in the value of one active hyperparameter; the exact
conditions under which the function raises, returns, or runs forever.
-/

set_option autoImplicit false

namespace Verif
open Verif.Spec

variable {calls : List Call} {s : Space} {c c' : Config} {rand : Nat → Nat} {nb : Nat → Name → List Rat} {fuel : Nat}

theorem randomNeighbor_found (h : Reach calls s) (hr : randomNeighbor s c rand nb fuel = some (.found c')) :
    ∃ d, c.toDict s = .ok d ∧ ∃ x ∈ s.com, isSet (c.vec.at (s.idx x.name)) = true ∧ x.hp.kind.tiny = false ∧
      ∃ k q w, (nb k x.name).head? = some q ∧ x.hp.kind.toVal q = some w ∧
        Config.ofValues s (dictSet d x.name (some w)) = .ok c' := by
  unfold randomNeighbor at hr
  cases hd : c.toDict s with
  | error e => rw [hd] at hr; cases hr
  | ok d =>
    rw [hd] at hr
    simp only at hr
    refine ⟨d, rfl, ?_⟩
    split at hr
    · split at hr
      · cases hr
      · exact randomLoop_found h hr
    · exact randomLoop_found h hr

theorem cachedFor_round {k : Kind} {q : Rat} {w : Val} (h : CachedFor k q w) : roundVal k w = w := by
  rcases h with ⟨u, _, rfl⟩ | ⟨_, _, h3⟩
  · exact roundVal_idem _ _
  · exact h3

/-- **C64.** Whatever the random generator does, a returned configuration is accepted by the check, has the same active
hyperparameters as the given one, and differs from it in at most one value: one active hyperparameter with more than one
possible value has the (rounded) value of the first proposed neighbour. -/
theorem C64_one_value_changed (h : Reach calls s) (hc : CfgReach s c)
    (hr : randomNeighbor s c rand nb fuel = some (.found c')) :
    s.check c'.vec = none ∧ c'.keys s = c.keys s ∧
    ∃ y ∈ allHps calls, y.name ∈ c.keys s ∧ (∀ n, y.kind.size = some n → 2 ≤ n) ∧
      (∃ k q w, (nb k y.name).head? = some q ∧ y.kind.toVal q = some w ∧ y.kind.legalValue w = true ∧
        (c'.getItem s y.name).1 = .ok (roundVal y.kind w)) ∧
      ∀ m, m ≠ y.name → (c'.getItem s m).1 = (c.getItem s m).1 := by
  obtain ⟨d, hd, x, hx, hset, ht, k, q, w, hq, hw, ho⟩ := randomNeighbor_found h hr
  have hcc := cacheOk h hc
  have hcc' := cacheOk h (CfgReach.values ho)
  obtain ⟨i1, i2, i3⟩ := items_ok hd
  obtain ⟨v1, _, v3⟩ := C21_values_kept h ho
  have hxk : x.name ∈ c.keys s := mem_keys.2 ⟨mem_names hx, hset⟩
  have hlk : ∀ n, (dictSet d x.name (some w)).lookup n = if n = x.name then some (some w) else d.lookup n :=
    fun n => dictSet_lookup _ _ _ _
  have hkeys : ∀ y ∈ s.com, isSet (c'.vec.at (s.idx y.name)) = isSet (c.vec.at (s.idx y.name)) := by
    intro y hy
    have hyn : y.hp ∈ allHps calls := node_hp h hy
    by_cases hk : y.name ∈ c.keys s
    · have hs := (mem_keys.1 hk).2
      rw [hs]
      rcases v3 y.hp hyn with ⟨w', k1, k2, k3, _⟩ | ⟨k1, _, _⟩
      · obtain ⟨u, hu⟩ := legal_toVec (roundVal_legal (node_wf h hy) k2)
        rw [show y.name = y.hp.name from rfl, k3, hu]; rfl
      · rw [show y.hp.name = y.name from rfl, hlk] at k1
        split at k1
        · simp at k1
        · obtain ⟨w', _, e⟩ := i1 _ hk
          rw [e] at k1
          simp at k1
    · have hs : isSet (c.vec.at (s.idx y.name)) = false := by
        cases hs : isSet (c.vec.at (s.idx y.name)) with
        | false => rfl
        | true => exact absurd (mem_keys.2 ⟨mem_names hy, hs⟩) hk
      rw [hs]
      have hne : y.name ≠ x.name := fun e => hk (e ▸ hxk)
      rcases v3 y.hp hyn with ⟨w', k1, _⟩ | ⟨_, k2, _⟩
      · rw [show y.hp.name = y.name from rfl, hlk, if_neg hne, i2 _ hk] at k1
        cases k1
      · rw [show y.name = y.hp.name from rfl, k2]; rfl
  have hkk : c'.keys s = c.keys s := by
    unfold Config.keys
    apply List.filter_congr
    intro n hn
    obtain ⟨y, hy, rfl⟩ := List.mem_map.1 hn
    exact hkeys y hy
  refine ⟨v1, hkk, x.hp, node_hp h hx, hxk, ?_, ⟨k, q, w, hq, hw, ?_⟩, ?_⟩
  · intro n hn
    unfold Kind.tiny at ht
    rw [hn] at ht
    simp only [decide_eq_false_iff_not] at ht
    omega
  · rcases v3 x.hp (node_hp h hx) with ⟨w', k1, k2, _, k4⟩ | ⟨k1, _, _⟩
    · rw [show x.hp.name = x.name from rfl, hlk, if_pos rfl] at k1
      simp only [Option.some.injEq] at k1
      subst k1
      exact ⟨k2, k4⟩
    · rw [show x.hp.name = x.name from rfl, hlk, if_pos rfl] at k1
      simp at k1
  · intro m hm
    replace hm : m ≠ x.name := hm
    by_cases hmn : m ∈ s.names
    · obtain ⟨y, hy, rfl⟩ := List.mem_map.1 hmn
      have hyn : y.hp ∈ allHps calls := node_hp h hy
      by_cases hk : y.name ∈ c.keys s
      · obtain ⟨w', g1, g2⟩ := i1 _ hk
        rcases v3 y.hp hyn with ⟨w'', k1, _, _, k4⟩ | ⟨k1, _, _⟩
        · rw [show y.hp.name = y.name from rfl, hlk, if_neg hm, g2] at k1
          simp only [Option.some.injEq] at k1
          subst k1
          rw [show y.name = y.hp.name from rfl, k4, show y.hp.name = y.name from rfl, g1]
          rcases getItem_cases h hcc hy with ⟨_, e⟩ | ⟨q', _, ⟨w3, e, hcf⟩ | ⟨_, e⟩⟩
          · rw [g1] at e; cases e
          · rw [g1] at e
            simp only [Except.ok.injEq] at e
            subst e
            rw [cachedFor_round hcf]
          · rw [g1] at e; cases e
        · rw [show y.hp.name = y.name from rfl, hlk, if_neg hm, g2] at k1
          simp at k1
      · rcases v3 y.hp hyn with ⟨w', k1, _⟩ | ⟨_, _, k3⟩
        · rw [show y.hp.name = y.name from rfl, hlk, if_neg hm, i2 _ hk] at k1
          cases k1
        · rw [show y.name = y.hp.name from rfl, k3]
          rcases getItem_cases h hcc hy with ⟨_, e⟩ | ⟨q', e, _⟩
          · rw [show y.hp.name = y.name from rfl, e]
          · exact absurd (mem_keys.2 ⟨mem_names hy, by rw [e]; rfl⟩) hk
    · rw [getItem_unknown h hcc hmn, getItem_unknown h hcc' hmn]

/-- **C64**, validity (for conditions whose groups have one meaning, and with exact integers for integer ranges). The
returned configuration is valid, even if the given one was not. -/
theorem C64_valid_partial (h : Reach calls s) (hsep : Separable calls) (hown : OwnClauses calls)
    (he : ∀ x ∈ allHps calls, ∀ w, (c.getItem s x.name).1 = .ok w → ExactInt x.kind w)
    (hr : randomNeighbor s c rand nb fuel = some (.found c')) : ∃ a, Represents s c'.vec a ∧ Valid calls a := by
  obtain ⟨d, hd, x, hx, hset, ht, k, q, w, hq, hw, ho⟩ := randomNeighbor_found h hr
  obtain ⟨i1, i2, i3⟩ := items_ok hd
  refine C21_values_valid_partial h hsep hown ho ?_
  intro y hy w' hl
  rw [dictSet_lookup] at hl
  split at hl
  · rename_i e
    have : y = x.hp := by
      obtain ⟨z, hz, rfl⟩ := node_of_hp h hy
      rw [node_eq h hz hx e]
    subst this
    simp only [Option.some.injEq] at hl
    subst hl
    intro l u hk
    rw [hk] at hw
    simp only [Kind.toVal, Option.some.injEq] at hw
    subst hw
    exact ⟨_, rfl⟩
  · by_cases hk : y.name ∈ c.keys s
    · obtain ⟨w2, g1, g2⟩ := i1 _ hk
      rw [g2] at hl
      simp only [Option.some.injEq] at hl
      subst hl
      exact he y hy _ g1
    · rw [i2 _ hk] at hl; cases hl

/-- **C64**, for a configuration built from values. The vectors differ in one entry at most; if the proposals for a
hyperparameter that is not a float encode other legal values than the current one, the returned configuration differs. -/
theorem C64_vector_changed (h : Reach calls s) {d : Dict} {al : Bool} (hc : Config.ofValues s d al = .ok c)
    (hr : randomNeighbor s c rand nb fuel = some (.found c')) :
    ∃ y ∈ allHps calls, y.name ∈ c.keys s ∧ (∀ m ∈ s.names, m ≠ y.name → c'.vec.at (s.idx m) = c.vec.at (s.idx m)) ∧
      (y.kind.isFloat = false →
        (∀ k, ∀ q ∈ nb k y.name, c.vec.at (s.idx y.name) ≠ some q ∧
          ∃ w, y.kind.legalValue w = true ∧ ExactInt y.kind w ∧ y.kind.toVec w = some q) → c'.vec ≠ c.vec) := by
  obtain ⟨d', hd, x, hx, hset, ht, k, q, w, hq, hw, ho⟩ := randomNeighbor_found h hr
  have hf := full_of_values h hc
  have hf' := full_of_values h ho
  obtain ⟨i1, i2, i3⟩ := items_ok hd
  have v3 := (C21_values_kept h ho).2.2
  have hxk : x.name ∈ c.keys s := mem_keys.2 ⟨mem_names hx, hset⟩
  refine ⟨x.hp, node_hp h hx, hxk, ?_, ?_⟩
  · intro m hmn hm
    replace hm : m ≠ x.name := hm
    obtain ⟨y, hy, rfl⟩ := List.mem_map.1 hmn
    have hl : (dictSet d' x.name (some w)).lookup y.name = d'.lookup y.name := by rw [dictSet_lookup, if_neg hm]
    by_cases hk : y.name ∈ c.keys s
    · obtain ⟨w1, g1, g2⟩ := i1 _ hk
      rw [getItem_full h hf hy] at g1
      rcases v3 y.hp (node_hp h hy) with ⟨w2, k1, _, k3, _⟩ | ⟨k1, _⟩
      · rw [show y.hp.name = y.name from rfl, hl, g2] at k1
        simp only [Option.some.injEq] at k1
        subst k1
        rcases hf.ent y hy with ⟨w3, q3, f1, f2, f3, f4, f5⟩ | ⟨f1, f2⟩
        · rw [f1] at g1
          simp only [Except.ok.injEq] at g1
          subst g1
          rw [show y.name = y.hp.name from rfl, k3, f3, f4, show y.hp.name = y.name from rfl, f5]
        · rw [f1] at g1; cases g1
      · rw [show y.hp.name = y.name from rfl, hl, g2] at k1
        simp at k1
    · rcases v3 y.hp (node_hp h hy) with ⟨w2, k1, _⟩ | ⟨_, k2, _⟩
      · rw [show y.hp.name = y.name from rfl, hl, i2 _ hk] at k1
        cases k1
      · rw [show y.name = y.hp.name from rfl, k2]
        cases e : c.vec.at (s.idx y.hp.name) with
        | none => rfl
        | some q' => exact absurd (mem_keys.2 ⟨mem_names hy, by rw [show y.name = y.hp.name from rfl, e]; rfl⟩) hk
  · intro hfl hnb e
    obtain ⟨h1, u, h2, h3, h4⟩ := hnb k q (List.mem_of_head? hq)
    obtain ⟨w', hw', hpy⟩ := toVal_toVec (node_wf h hx) h2 h4 h3
    rw [hw] at hw'
    simp only [Option.some.injEq] at hw'
    subst hw'
    have hv : x.hp.kind.toVec (roundVal x.hp.kind w) = some q := by
      have : roundVal x.hp.kind w = w := by unfold roundVal; rw [hfl]; rfl
      rw [this, toVec_of_pyEq hpy, h4]
    rcases v3 x.hp (node_hp h hx) with ⟨w2, k1, _, k3, _⟩ | ⟨k1, _⟩
    · rw [show x.hp.name = x.name from rfl, dictSet_lookup, if_pos rfl] at k1
      simp only [Option.some.injEq] at k1
      subst k1
      rw [hv, e] at k3
      exact h1 k3
    · rw [show x.hp.name = x.name from rfl, dictSet_lookup, if_pos rfl] at k1
      simp at k1

/-- **C64**, errors. A space with at most one configuration by the estimate has no neighbours; a configuration without an
active hyperparameter of two or more values makes the function give up with a `ValueError`. -/
theorem C64_gives_up (h : Reach calls s) {d : Dict} {al : Bool} (hc : Config.ofValues s d al = .ok c) (hf : fuel ≠ 0)
    (hno : ∀ y ∈ allHps calls, y.name ∈ c.keys s → ∃ n, y.kind.size = some n ∧ n ≤ 1) :
    randomNeighbor s c rand nb fuel = some (match s.estimateSize with
      | some 0 => .noNeighbors
      | some 1 => .noNeighbors
      | _ => .stuck) := by
  have hd := toDict_full h (full_of_values h hc)
  have hp : ∀ t k, randomLoop s c.vec ((c.keys s).map (fun n => (n, (c.vals.getD []).lookup n))) rand nb fuel t k =
      some .stuck := by
    intro t k
    obtain ⟨f, rfl⟩ := Nat.exists_eq_succ_of_ne_zero hf
    simp only [randomLoop]
    rw [pickActive_none]
    intro i x hx hset
    have hxm : x ∈ s.com := List.mem_of_getElem? hx
    obtain ⟨n, h1, h2⟩ := hno x.hp (node_hp h hxm) (mem_keys.2 ⟨mem_names hxm, by
      rw [show x.hp.name = x.name from rfl, idx_of_get h hx]; exact hset⟩)
    unfold Kind.tiny
    rw [h1]
    simpa using h2
  unfold randomNeighbor
  rw [hd]
  simp only
  cases he : s.estimateSize with
  | none => exact hp 0 0
  | some n =>
    match n with
    | 0 => rfl
    | 1 => rfl
    | n + 2 => simp only; rw [if_neg (by omega)]; exact hp 0 0

theorem C64_single_configuration {d : Dict} (hd : c.toDict s = .ok d) :
    randomNeighbor s c rand nb fuel = some .noNeighbors ↔ ∃ n, s.estimateSize = some n ∧ n ≤ 1 := by
  have hl : ∀ f t k, randomLoop s c.vec d rand nb f t k ≠ some .noNeighbors := by
    intro f
    induction f with
    | zero => intro t k e; cases e
    | succ f ih =>
      intro t k e
      simp only [randomLoop] at e
      repeat' split at e
      all_goals first | cases e | exact ih _ _ e
  unfold randomNeighbor
  rw [hd]
  simp only
  cases he : s.estimateSize with
  | none => simp only; exact ⟨fun e => absurd e (hl _ _ _), fun ⟨n, e, _⟩ => by cases e⟩
  | some n =>
    simp only
    split
    · rename_i hn; exact ⟨fun _ => ⟨n, rfl, hn⟩, fun _ => rfl⟩
    · rename_i hn
      refine ⟨fun e => absurd e (hl _ _ _), ?_⟩
      rintro ⟨m, e, hm⟩
      simp only [Option.some.injEq] at e
      omega

/-- **C64**, termination. If among the first 10000 draws the index of an active hyperparameter with two or more values
comes up, all of whose proposals are accepted when put into the configuration, then the function returns a
configuration. -/
theorem C64_returns (h : Reach calls s) {d : Dict} (hd : c.toDict s = .ok d)
    (hsize : ∀ n, s.estimateSize = some n → 2 ≤ n)
    (hnb : ∀ k, ∀ y ∈ allHps calls, ∃ q w, (nb k y.name).head? = some q ∧ y.kind.toVal q = some w)
    {y : HP} (hy : y ∈ allHps calls) (hk : y.name ∈ c.keys s) (hn : ∀ n, y.kind.size = some n → 2 ≤ n)
    (hacc : ∀ k q w, (nb k y.name).head? = some q → y.kind.toVal q = some w →
      ∃ c1, Config.ofValues s (dictSet d y.name (some w)) = .ok c1)
    {T : Nat} (hT : T < 10000) (hdraw : rand T % s.len = s.idx y.name) (hfuel : T < fuel) :
    ∃ c', randomNeighbor s c rand nb fuel = some (.found c') := by
  obtain ⟨x, hx, rfl⟩ := node_of_hp h hy
  have hxn : x.name ∈ s.names := mem_names hx
  have hlt := idx_lt h hxn
  have hdr : drawn s rand T = s.idx x.name := by
    unfold drawn
    split
    · exact hdraw
    · omega
  have hget : s.com[drawn s rand T]? = some x := by
    rw [hdr]
    obtain ⟨i, hi, e⟩ := List.getElem_of_mem hx
    have he : s.com[i]? = some x := by rw [List.getElem?_eq_getElem hi, e]
    rw [idx_of_get h he, he]
  have hset : isSet (c.vec.at (drawn s rand T)) = true := by rw [hdr]; exact (mem_keys.1 hk).2
  have ht : x.hp.kind.tiny = false := by
    unfold Kind.tiny
    split
    · rename_i n e; have := hn n e; simp; omega
    · rfl
  have key := randomLoop_finds h hget hset ht hT (fun k z hz => hnb k z.hp (node_hp h hz)) hacc (nb := nb) (rand := rand)
    (fuel := fuel) (t := 0) (k := 0) (by omega) (by omega)
  unfold randomNeighbor
  rw [hd]
  simp only
  split
  · rename_i n e
    have := hsize n e
    rw [if_neg (by omega)]
    exact key
  · exact key

/-! ## Counterexamples and examples -/

namespace ExR
open Ex

/-- `p` with choices `"a"`, `"b"`; `p == "b"` is forbidden. -/
def callF : Call := ⟨[ab "p"], [], [.eq (ab "p") (.str "b") 1]⟩
def spF : Space := committed {} callF
theorem reachF : Reach [callF] spF := Reach.snoc (calls := []) .nil (by decide +kernel)
  (add_of_stages [("p", some (.str "a"))] [some 0] [("p", .str "a")]
    (by decide +kernel) (by decide +kernel) (by decide +kernel) (by decide +kernel) (by decide +kernel)
    (by decide +kernel))
def cfgF : Config := ⟨[some 0], some [("p", .str "a")], false⟩
theorem cfgF_eq : Config.ofValues spF [("p", some (.str "a"))] = .ok cfgF :=
  ofValues_stages _ _ (by decide +kernel) (by decide +kernel) (by decide +kernel)

/-- A float `x` in `[0, 1]`. -/
def callX : Call := ⟨[⟨"x", .flt 0 1, .flt (1 / 2)⟩], [], []⟩
def spX : Space := committed {} callX
theorem reachX : Reach [callX] spX := Reach.snoc (calls := []) .nil (by decide +kernel)
  (add_of_stages [("x", some (.flt (1 / 2)))] [some (1 / 2)] [("x", .flt (1 / 2))]
    (by decide +kernel) (by decide +kernel) (by decide +kernel) (by decide +kernel) (by decide +kernel)
    (by decide +kernel))
def cfgX : Config := ⟨[some (1 / 2)], some [("x", .flt (1 / 2))], false⟩
theorem cfgX_eq : Config.ofValues spX [("x", some (.flt (1 / 2)))] = .ok cfgX :=
  ofValues_stages _ _ (by decide +kernel) (by decide +kernel) (by decide +kernel)

/-- `p` with the only choice `"a"`; `x | p != "a"`. -/
def one : HP := ⟨"p", .cat [.str "a"], .str "a"⟩
def callO : Call := ⟨[one, ab "x"], [.lit ⟨ab "x", one, .bin .ne (.str "a") 0⟩], []⟩
def spO : Space := committed {} callO
theorem reachO : Reach [callO] spO := Reach.snoc (calls := []) .nil (by decide +kernel)
  (add_of_stages [("p", some (.str "a")), ("x", none)] [some 0, none] [("p", .str "a")]
    (by decide +kernel) (by decide +kernel) (by decide +kernel) (by decide +kernel) (by decide +kernel)
    (by decide +kernel))
def cfgO : Config := ⟨[some 0, none], some [("p", .str "a")], false⟩
theorem cfgO_eq : Config.ofValues spO [("p", some (.str "a"))] = .ok cfgO :=
  ofValues_stages _ _ (by decide +kernel) (by decide +kernel) (by decide +kernel)

/-- The default configuration of the chain example, the proposals (always `"b"`), and the draws. -/
def cfgL : Config := ⟨[some 0, some 0, some 0], some [("p", .str "a"), ("x", .str "a"), ("y", .str "a")], false⟩
def dictL : Dict := [("p", some (.str "a")), ("x", some (.str "a")), ("y", some (.str "a"))]
theorem cfgL_eq : Config.ofValues spL dictL = .ok cfgL :=
  ofValues_stages _ _ (by decide +kernel) (by decide +kernel) (by decide +kernel)
theorem accL : Config.ofValues spL (dictSet dictL "y" (some (.str "b"))) =
    .ok ⟨[some 0, some 0, some 1], some [("p", .str "a"), ("x", .str "a"), ("y", .str "b")], false⟩ :=
  ofValues_stages _ _ (by decide +kernel) (by decide +kernel) (by decide +kernel)
def nbL : Nat → Name → List Rat := fun _ _ => [1]
def randL : Nat → Nat := fun t => if t < 3 then t % 2 else 2
theorem dictL_eq : cfgL.toDict spL = .ok dictL := by
  have h0 : (cfgL.toDict spL).toOption = some dictL := by decide +kernel
  cases e : cfgL.toDict spL with
  | error _ => rw [e] at h0; cases h0
  | ok _ => rw [e] at h0; simpa [Except.toOption] using h0

/-- A proposal that rounds to the current value. -/
def nbX : Nat → Name → List Rat := fun _ n => if n = "x" then [500000000000001 / 1000000000000000] else []

end ExR

/-- The function may run forever: if every neighbour is rejected it never stops (the limit of 10000 rejections of the
documentation does not exist).  Here the configuration is valid, the estimated size is two, and for *every* behaviour of the
random generator that proposes the only other choice the loop is still running after any number of passes. -/
theorem C64_may_run_forever : ∃ calls s d c, Reach calls s ∧ Config.ofValues s d = .ok c ∧ s.estimateSize = some 2 ∧
    ∀ rand nb, (∀ k, nb k "p" = [1]) → ∀ fuel, randomNeighbor s c rand nb fuel = none := by
  refine ⟨[ExR.callF], ExR.spF, _, ExR.cfgF, ExR.reachF, ExR.cfgF_eq, by decide +kernel, ?_⟩
  intro rand nb hnb fuel
  have hd : ExR.cfgF.toDict ExR.spF = .ok [("p", some (.str "a"))] := by
    have h0 : (ExR.cfgF.toDict ExR.spF).toOption = some [("p", some (.str "a"))] := by decide +kernel
    cases e : ExR.cfgF.toDict ExR.spF with
    | error _ => rw [e] at h0; cases h0
    | ok _ => rw [e] at h0; simpa [Except.toOption] using h0
  obtain ⟨x, hx⟩ : ∃ x, ExR.spF.com[0]? = some x := ⟨_, rfl⟩
  have hxn : x.name = "p" ∧ x.hp.kind.tiny = false ∧ x.hp.kind.toVal 1 = some (.str "b") := by
    have h0 : (ExR.spF.com[0]?).map (fun x => (x.name, x.hp.kind.tiny, x.hp.kind.toVal 1)) =
      some ("p", false, some (.str "b")) := by decide +kernel
    rw [hx] at h0
    simpa using h0
  have hpick : ∀ t, pickActive ExR.spF ExR.cfgF.vec rand 10000 t = some (x, t + 1) := by
    intro t
    rw [pickActive_succ, show drawn ExR.spF rand t = 0 from by
      unfold drawn; rw [if_neg (by decide +kernel)], hx]
    simp only [hxn.2.1]
    rw [if_pos (by decide +kernel)]
  have hrej : Config.ofValues ExR.spF (dictSet [("p", some (.str "a"))] "p" (some (.str "b"))) = .error .forbidden := by
    have h0 : (match Config.ofValues ExR.spF (dictSet [("p", some (.str "a"))] "p" (some (.str "b"))) with
      | .error e => some e
      | .ok _ => none) = some .forbidden := by decide +kernel
    split at h0
    · rename_i e he; rw [he]; cases h0; rfl
    · cases h0
  have hloop : ∀ f t k, randomLoop ExR.spF ExR.cfgF.vec [("p", some (.str "a"))] rand nb f t k = none := by
    intro f
    induction f with
    | zero => intro t k; rfl
    | succ f ih =>
      intro t k
      simp only [randomLoop, hpick, hxn.1, hnb, hxn.2.2, hrej]
      rw [if_pos (by decide)]
      exact ih _ _
  unfold randomNeighbor
  rw [hd, show ExR.spF.estimateSize = some 2 by decide +kernel]
  simp only
  rw [if_neg (by decide)]
  exact hloop _ _ _

/-- A proposal for a float that differs from the current entry may round to the current value: the returned configuration
is then equal to the given one. -/
theorem C64_float_may_be_unchanged : ∃ calls s d c c' rand nb, Reach calls s ∧ Config.ofValues s d = .ok c ∧
    LegalProposals calls nb ∧ (∀ k n, ∀ q ∈ nb k n, c.vec.at (s.idx n) ≠ some q) ∧
    randomNeighbor s c rand nb 1 = some (.found c') ∧ c'.vec = c.vec := by
  refine ⟨[ExR.callX], ExR.spX, _, ExR.cfgX, ExR.cfgX, fun _ => 0, ExR.nbX,
    ExR.reachX, ExR.cfgX_eq, ?_, ?_, ?_, rfl⟩
  · intro k y hy q hq
    have : ∀ y ∈ allHps [ExR.callX], ∀ q ∈ (if y.name = "x" then [500000000000001 / 1000000000000000] else [] : List Rat),
      y.kind.legalVec q = true := by decide +kernel
    exact this y hy q hq
  · intro k n q hq
    unfold ExR.nbX at hq
    split at hq
    · rename_i e
      subst e
      simp only [List.mem_singleton] at hq
      subst hq
      decide +kernel
    · cases hq
  · have h1 : ExR.cfgX.toDict ExR.spX = .ok [("x", some (.flt (1 / 2)))] := by
      have h0 : (ExR.cfgX.toDict ExR.spX).toOption = some [("x", some (.flt (1 / 2)))] := by decide +kernel
      cases e : ExR.cfgX.toDict ExR.spX with
      | error _ => rw [e] at h0; cases h0
      | ok _ => rw [e] at h0; simpa [Except.toOption] using h0
    obtain ⟨x, hx⟩ : ∃ x, ExR.spX.com[0]? = some x := ⟨_, rfl⟩
    have hxn : x.name = "x" ∧ x.hp.kind.tiny = false ∧
        x.hp.kind.toVal (500000000000001 / 1000000000000000) = some (.flt (500000000000001 / 1000000000000000)) := by
      have h0 : (ExR.spX.com[0]?).map (fun x => (x.name, x.hp.kind.tiny, x.hp.kind.toVal (500000000000001 / 1000000000000000))) =
        some ("x", false, some (.flt (500000000000001 / 1000000000000000))) := by decide +kernel
      rw [hx] at h0
      simpa using h0
    have hp : pickActive ExR.spX ExR.cfgX.vec (fun _ => 0) 10000 0 = some (x, 1) := by
      rw [pickActive_succ, show drawn ExR.spX (fun _ => 0) 0 = 0 from by
        unfold drawn; rw [if_neg (by decide +kernel)], hx]
      simp only [hxn.2.1]
      rw [if_pos (by decide +kernel)]
    have ho : Config.ofValues ExR.spX (dictSet [("x", some (.flt (1 / 2)))] "x" (some (.flt (500000000000001 / 1000000000000000)))) =
        .ok ExR.cfgX := Ex.ofValues_stages _ _ (by decide +kernel) (by decide +kernel) (by decide +kernel)
    have hn : ExR.nbX 0 "x" = [500000000000001 / 1000000000000000] := rfl
    unfold randomNeighbor
    rw [h1, show ExR.spX.estimateSize = none by decide +kernel]
    simp only [randomLoop, hp, hxn.1, hn, hxn.2.2, ho]

/-- A configuration none of whose active hyperparameters has two values makes the function raise the `ValueError`. -/
example (rand : Nat → Nat) (nb : Nat → Name → List Rat) : randomNeighbor ExR.spO ExR.cfgO rand nb 1 = some .stuck := by
  have := C64_gives_up ExR.reachO ExR.cfgO_eq (rand := rand) (nb := nb) (fuel := 1) (by decide) (by
    intro y hy hk
    have : ∀ y ∈ allHps [ExR.callO], y.name ∈ ExR.cfgO.keys ExR.spO → y.kind.size = some 1 := by decide +kernel
    exact ⟨1, this y hy hk, le_refl _⟩)
  have h2 : ExR.spO.estimateSize = some 2 := by decide +kernel
  rw [h2] at this
  exact this

/-- The chain example meets the hypotheses of C64: `y` is drawn at the fourth draw, after rejected proposals for the
others. -/
example : ∃ c', randomNeighbor Ex.spL ExR.cfgL ExR.randL ExR.nbL 5 = some (.found c') ∧ Ex.spL.check c'.vec = none ∧
    c'.keys Ex.spL = ["p", "x", "y"] := by
  obtain ⟨c', hc'⟩ := C64_returns Ex.reachL (c := ExR.cfgL) (rand := ExR.randL) (nb := ExR.nbL) (fuel := 5) (T := 3)
    (y := Ex.ab "y") ExR.dictL_eq (by
      intro n hn; rw [show Ex.spL.estimateSize = some 8 by decide +kernel] at hn; simp only [Option.some.injEq] at hn; omega)
    (by
      intro k y hy
      have : ∀ y ∈ allHps [Ex.callL], y.kind = .cat [.str "a", .str "b"] := by decide +kernel
      rw [this y hy]
      unfold ExR.nbL
      exact ⟨1, .str "b", rfl, by decide +kernel⟩)
    (by decide +kernel) (by decide +kernel) (by intro n hn; cases hn; decide)
    (by
      intro k q w hq hw
      have e : q = 1 := by simpa [ExR.nbL] using hq.symm
      subst e
      have e2 : w = .str "b" := by
        rw [show (Ex.ab "y").kind.toVal 1 = some (.str "b") by decide +kernel] at hw
        simpa using hw.symm
      subst e2
      exact ⟨_, ExR.accL⟩)
    (by decide) (by decide +kernel) (by decide)
  obtain ⟨h1, h2, _⟩ := C64_one_value_changed Ex.reachL (.values ExR.cfgL_eq) hc'
  exact ⟨c', hc', h1, h2.trans (by decide +kernel)⟩

/-- The neighbour that is found in the chain example is valid, and its vector differs from the given one. -/
example {c' : Config} (hr : randomNeighbor Ex.spL ExR.cfgL ExR.randL ExR.nbL 5 = some (.found c')) :
    (∃ a, Represents Ex.spL c'.vec a ∧ Valid [Ex.callL] a) ∧ c'.vec ≠ ExR.cfgL.vec := by
  have hk : ∀ y ∈ allHps [Ex.callL], y.kind = .cat [.str "a", .str "b"] := by decide +kernel
  refine ⟨C64_valid_partial Ex.reachL Ex.sepL (fun f hf => by simp [allForbs, Ex.callL] at hf) (fun x hx w _ l u e => ?_) hr, ?_⟩
  · rw [hk x hx] at e; cases e
  · obtain ⟨y, hy, _, _, h4⟩ := C64_vector_changed Ex.reachL ExR.cfgL_eq hr
    refine h4 (by rw [hk y hy]; rfl) (fun k q hq => ?_)
    have e : q = 1 := by simpa [ExR.nbL] using hq
    subst e
    refine ⟨?_, .str "b", by rw [hk y hy]; decide +kernel, fun l u e => (by rw [hk y hy] at e; cases e), by rw [hk y hy]; decide +kernel⟩
    have : ∀ y ∈ allHps [Ex.callL], ExR.cfgL.vec.at (Ex.spL.idx y.name) ≠ some 1 := by decide +kernel
    exact this y hy

/-- Eight configurations are estimated, so that the function does not say that there are no neighbours. -/
example (rand : Nat → Nat) (nb : Nat → Name → List Rat) (fuel : Nat) : randomNeighbor Ex.spL ExR.cfgL rand nb fuel ≠ some .noNeighbors := by
  intro h
  obtain ⟨n, hn, hle⟩ := (C64_single_configuration ExR.dictL_eq).1 h
  rw [show Ex.spL.estimateSize = some 8 by decide +kernel] at hn
  simp only [Option.some.injEq] at hn
  omega

end Verif
