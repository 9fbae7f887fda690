import Verif.Lemmas.Dtype
import Verif.Lemmas.Check
import Verif.Examples
import Mathlib.Algebra.Order.Floor.Ring
import Mathlib.Data.Rat.Floor

/-!
# C121: assignments and the type of the array a configuration was made from
-/

set_option autoImplicit false

namespace Verif.Dtype
open Verif Verif.Spec

variable {calls : List Call} {s : Space}

/-- **C121**, arrays of floats: assigning is what C22 is about. -/
theorem C121_float64 (c : Config) (n : Name) (w : Val) : setItem float64 s c n w = c.setItem s n w := rfl

/-- **C121** (partial: for values whose entry the type of the array keeps). For a configuration made from an array of
any type of numbers, read and assigned to any number of times, and every assignment `config[n] = w`: if it raises, the
configuration is unchanged; if it succeeds, `n` is a name of the space, `w` is legal for it, the new vector passes
`check_configuration`, and if the type of the array keeps the entry of `w`, reading `n` gives `w` (floats rounded, and
`w` an exact integer for integer ranges). -/
theorem C121_set_item_partial (h : Reach calls s) {t : Elem} {c : Config} (hc : Made t s c) (n : Name) (w : Val) :
    (∀ e, (setItem t s c n w).2 = some e → (setItem t s c n w).1 = c) ∧
    ((setItem t s c n w).2 = none → s.check (setItem t s c n w).1.vec = none ∧
      ∃ x ∈ allHps calls, x.name = n ∧ x.kind.legalValue w = true ∧ ∃ q, x.kind.toVec w = some q ∧
        (t.num q = q → ExactInt x.kind w → ∃ u, ((setItem t s c n w).1.getItem s n).1 = .ok u ∧
          u.pyEq (roundVal x.kind w) = true)) := by
  have hi := sinv_of_reach h
  have hk := made_cacheOk h hc
  constructor
  · intro e he
    exact setItem_err (e := e) (Prod.ext rfl he)
  · intro he
    obtain ⟨x, q, h1, h2, h3, h4, h5, h6⟩ := setItem_ok (Prod.ext rfl he : setItem t s c n w = (_, none))
    rw [hi.com] at h1
    obtain ⟨hx, hxn⟩ := findNode_name h1
    subst hxn
    have hat : (setItem t s c x.name w).1.vec.at (s.idx x.name) = some (t.num q) := by
      rw [h4]; exact changeHp_at h hk.len (mem_names hx)
    refine ⟨h6, x.hp, node_hp h hx, rfl, h2, q, h3, ?_⟩
    intro hq hex
    rw [hq] at hat
    obtain ⟨u, k1, k2⟩ := toVal_toVec (node_wf h hx) h2 h3 hex
    refine ⟨roundVal x.hp.kind u, ?_, ?_⟩
    · rw [getItem_node h hx (by rw [h5]; rfl), hat]
      simp only [k1]
    · unfold roundVal
      split
      · rw [Val.pyEq_iff] at k2
        rcases k2 with ⟨r, rfl, rfl⟩ | ⟨p, k3, k4⟩
        · simp [Val.num?, Val.pyEq_refl]
        · simp [k3, k4, Val.pyEq_refl]
      · exact k2

/-- The entries of choices, of the values of ordinal hyperparameters, of constants and of the two bounds of a range are
whole numbers, which an array of whole numbers keeps. -/
theorem C121_whole_keeps {x : HP} (hw : x.wf = true) {w : Val} (hl : x.kind.legalValue w = true) (m : Int)
    (hb : ∀ l u : Rat, (x.kind = .flt l u ∨ ∃ a b : Int, x.kind = .int a b ∧ l = a ∧ u = b) →
      w.num? = some l ∨ w.num? = some u) :
    ∃ q, x.kind.toVec w = some q ∧ (whole m).num q = q := by
  have hz : ∀ z : Int, (whole m).num z = z := by
    intro z
    simp only [whole, towardsZero]
    split <;> simp [Rat.floor_intCast, Rat.ceil_intCast]
  have hnat : ∀ z : Nat, (whole m).num z = z := by
    intro z
    have := hz z
    exact_mod_cast this
  have hnorm : ∀ {l u : Rat}, l < u → (w.num? = some l ∨ w.num? = some u) →
      ∃ q, w.num?.map (fun q => normalizeQ q l u) = some q ∧ (whole m).num q = q := by
    intro l u hlu hv
    rcases hv with hv | hv
    · refine ⟨0, ?_, by have := hnat 0; simpa using this⟩
      rw [hv]
      simp only [Option.map_some, Option.some.injEq]
      unfold normalizeQ
      split
      · rename_i hh; exact hh.1
      · simp
    · refine ⟨1, ?_, by have := hnat 1; simpa using this⟩
      rw [hv]
      simp only [Option.map_some, Option.some.injEq]
      unfold normalizeQ
      split
      · rename_i hh; exact hh.2
      · exact div_self (by linarith)
  have hidx : ∀ cs : List Val, w.pyIn cs = true → ∃ i, seqIndex cs w = some i := by
    intro cs hc
    unfold seqIndex
    cases hf : cs.findIdx? (fun x => x.pyEq w) with
    | some i => exact ⟨i, rfl⟩
    | none =>
      rw [List.findIdx?_eq_none_iff] at hf
      unfold Val.pyIn at hc
      obtain ⟨y, hy, he⟩ := List.any_eq_true.1 hc
      have := hf y hy
      rw [Val.pyEq_comm] at this
      first
        | (rw [this] at he; cases he)
        | (rw [Val.pyEq_comm, this] at he; cases he)
  cases hk : x.kind with
  | cat cs =>
    rw [hk] at hl
    obtain ⟨i, hi⟩ := hidx cs hl
    exact ⟨i, by simp [Kind.toVec, hi], hnat i⟩
  | ord cs =>
    rw [hk] at hl
    obtain ⟨i, hi⟩ := hidx cs hl
    exact ⟨i, by simp [Kind.toVec, hi], hnat i⟩
  | const v =>
    rw [hk] at hl
    refine ⟨1, by simp only [Kind.toVec]; rw [if_pos (show w.pyEq v = true from hl)], by have := hnat 1; simpa using this⟩
  | int l u =>
    have hlu : (l : Rat) < u := by
      have := hw
      simp [HP.wf, hk] at this
      exact_mod_cast (by omega : l < u)
    exact hnorm hlu (hb l u (.inr ⟨l, u, hk, rfl, rfl⟩))
  | flt l u =>
    have hlu : l < u := by
      have := hw
      simp [HP.wf, hk] at this
      tauto
    exact hnorm hlu (hb l u (.inl hk))

/-- **C121, false of the code**: "after `config[n] = w`, `config[n]` is `w`". If the configuration was made from an
array of whole numbers, an assignment of any value between the bounds of a float or of an integer range, if it
succeeds, leaves the *lower bound*: the entry of the value, a number between 0 and 1, is written to an array of whole
numbers. -/
theorem C121_whole_lower_bound (h : Reach calls s) {m : Int} {c : Config} (hc : Made (whole m) s c) {x : HP}
    (hx : x ∈ allHps calls) {w : Val} {r : Rat} (hr : w.num? = some r)
    (hok : (setItem (whole m) s c x.name w).2 = none) :
    (∀ l u, x.kind = .flt l u → l < r → r < u →
      ((setItem (whole m) s c x.name w).1.getItem s x.name).1 = .ok (roundVal x.kind (.flt l))) ∧
    (∀ l u, x.kind = .int l u → l < r → r < u →
      ((setItem (whole m) s c x.name w).1.getItem s x.name).1 = .ok (.int l)) := by
  have hi := sinv_of_reach h
  have hn := reach_ninv h
  have hk := made_cacheOk h hc
  obtain ⟨y, hy, rfl⟩ := node_of_hp h hx
  obtain ⟨z, q, h1, h2, h3, h4, h5, h6⟩ := setItem_ok (Prod.ext rfl hok : setItem (whole m) s c y.hp.name w = (_, none))
  rw [hi.com] at h1
  have hyz : z = y := by
    have := findNode_of_mem hn.nodup hy
    rw [show y.hp.name = y.name from rfl, this] at h1
    exact (Option.some.inj h1).symm
  subst hyz
  have hat : (setItem (whole m) s c z.name w).1.vec.at (s.idx z.name) = some ((whole m).num q) := by
    rw [show z.name = z.hp.name from rfl, h4]; exact changeHp_at h hk.len (mem_names hy)
  have hq : ∀ {l u : Rat}, z.hp.kind.toVec w = w.num?.map (fun q => normalizeQ q l u) → l < r → r < u →
      (whole m).num q = 0 := by
    intro l u ht hl hu
    rw [ht, hr] at h3
    simp only [Option.map_some, Option.some.injEq] at h3
    have h01 : 0 ≤ q ∧ q < 1 := by
      rw [← h3]
      unfold normalizeQ
      split
      · rename_i hh
        rw [hh.1] at hl
        rw [hh.2] at hu
        exact ⟨hl.le, hu⟩
      · have : (0 : Rat) < u - l := by linarith
        constructor
        · exact div_nonneg (by linarith) this.le
        · rw [div_lt_iff₀ this]; linarith
    simp only [whole, towardsZero]
    rw [if_pos h01.1]
    have : q.floor = 0 := by
      have := Int.floor_eq_zero_iff.2 (show q ∈ Set.Ico (0 : ℚ) 1 from ⟨h01.1, h01.2⟩)
      exact this
    rw [this]; rfl
  constructor
  · intro l u hkd hl hu
    have h0 := hq (l := l) (u := u) (by rw [hkd]; rfl) hl hu
    rw [show z.hp.name = z.name from rfl, getItem_node h hy (by rw [show z.name = z.hp.name from rfl, h5]; rfl), hat, h0, hkd]
    simp only [Kind.toVal, scaleQ, zero_mul, zero_add]
    have : clipQ l l u = l := by
      unfold clipQ
      rw [if_neg (lt_irrefl _), if_neg (not_lt.2 (hl.trans hu).le)]
    rw [this]
  · intro l u hkd hl hu
    have h0 := hq (l := l) (u := u) (by rw [hkd]; rfl) hl hu
    rw [show z.hp.name = z.name from rfl, getItem_node h hy (by rw [show z.name = z.hp.name from rfl, h5]; rfl), hat, h0, hkd]
    simp [Kind.toVal, scaleQ, roundVal, Kind.isFloat, rint_int]

/-- **C121, false of the code**: "an assignment that switches hyperparameters off succeeds". There is no NaN in an
array of whole numbers: after an assignment that succeeded, all conditions of the space hold. So every assignment after
which some condition would not hold raises. -/
theorem C121_whole_all_active (h : Reach calls s) (hsep : Separable calls) (hown : OwnClauses calls) {m : Int}
    {c : Config} (hc : Made (whole m) s c) {n : Name} {w : Val} (hok : (setItem (whole m) s c n w).2 = none)
    {a : Assign} (ha : Represents s (setItem (whole m) s c n w).1.vec a) :
    ∀ cond ∈ allConds calls, Holds a cond := by
  have hset : Made (whole m) s (setItem (whole m) s c n w).1 := .set hc
  obtain ⟨_, _, _, _, _, _, _, hchk⟩ := setItem_ok (Prod.ext rfl hok : setItem (whole m) s c n w = (_, none))
  obtain ⟨h1, h2, h3, h4⟩ := (check_iff h hsep hown ha).1 hchk
  have hall := made_all (P := fun e => ∃ q, e = some q) (by intro e; cases e <;> exact ⟨_, rfl⟩) hset
  intro cond hcond
  obtain ⟨hp, hhp⟩ := wf_child ((reach_wf h).2.1 cond hcond)
  have hch : childName cond = some hp.name := by simp [childName, hhp]
  refine (h2 cond hcond hp.name hch).1 ?_
  obtain ⟨y, hy, hyn, _⟩ := node_of_child h hcond hch
  have hidx := idx_lt h (mem_names hy)
  rw [← hyn, ← at_idx ha (mem_names hy)]
  have hlen : s.idx y.name < (setItem (whole m) s c n w).1.vec.length := by rw [ha.1]; exact hidx
  obtain ⟨q, hq⟩ := hall _ (List.getElem_mem hlen)
  exact ⟨q, by unfold Vec.at; rw [List.getD_eq_getElem?_getD, List.getElem?_eq_getElem hlen, hq]; rfl⟩

namespace ExDt
def hpA : HP := ⟨"a", .cat [.str "u", .str "w"], .str "u"⟩
def hpB : HP := ⟨"b", .flt 0 1, .flt 1⟩
def hpI : HP := ⟨"i", .int 1 9, .int 1⟩
def hpZ : HP := ⟨"z", .flt 0 4, .flt 1⟩
/-- `b` is active if `a` is `"u"`; `i` and `z` are always active. -/
def callD : Call := ⟨[hpA, hpB, hpI, hpZ], [.lit ⟨hpB, hpA, .bin .eq (.str "u") 0⟩], []⟩
def spD : Space := Ex.committed {} callD

theorem reachD : Reach [callD] spD :=
  Reach.snoc (calls := []) .nil (by decide +kernel)
    (Ex.add_of_stages [("a", some (.str "u")), ("i", some (.int 1)), ("z", some (.flt 1)), ("b", some (.flt 1))]
      [some 0, some 0, some (1 / 4), some 1] [("a", .str "u"), ("i", .int 1), ("z", .flt 1), ("b", .flt 1)]
      (by decide +kernel) (by decide +kernel) (by decide +kernel)
      (by decide +kernel) (by decide +kernel) (by decide +kernel))

/-- `Configuration(space, vector=np.array([0, 0, 1, 1]))`. -/
def cfgD : Config := ⟨[some 0, some 0, some 1, some 1], none, false⟩

/-- What is left of NaN on most machines. -/
def least : Int := -2 ^ 63

theorem madeD : Made (whole least) spD cfgD :=
  .vector (v := [some 0, some 0, some 1, some 1]) (al := false) (by decide +kernel) (by
    unfold Config.ofVector
    rw [if_neg (by decide +kernel)]
    rfl)

theorem ownD : OwnClauses [callD] := by intro f hf; simp [allForbs, callD] at hf

theorem sepD : Separable [callD] := by
  intro c hc d hd _ a
  simp only [allConds, callD, List.flatMap_cons, List.flatMap_nil, List.append_nil, List.mem_singleton] at hc hd
  rw [hc, hd]

/-- `config["z"] = 2.0`, `config["i"] = 8` and `config["a"] = "u"` succeed, `config["a"] = "w"` raises. -/
theorem answers : (setItem (whole least) spD cfgD "z" (.flt 2)).2 = none ∧
    (setItem (whole least) spD cfgD "i" (.int 8)).2 = none ∧
    (setItem (whole least) spD cfgD "a" (.str "u")).2 = none ∧
    (setItem (whole least) spD cfgD "z" (.flt 4)).2 = none ∧
    (setItem (whole least) spD cfgD "a" (.str "w")).2 ≠ none := by decide +kernel
end ExDt

open ExDt

/-- The guard of `C121_set_item_partial` is met by choices, and by bounds. -/
example : (∃ u, ((setItem (whole least) spD cfgD "z" (.flt 4)).1.getItem spD "z").1 = .ok u ∧ u.pyEq (.flt 4) = true) := by
  obtain ⟨_, x, hx, hxn, hl, q, hq, hread⟩ := (C121_set_item_partial reachD madeD "z" (.flt 4)).2 answers.2.2.2.1
  have hxz : x = hpZ := by
    simp only [allHps, callD, List.flatMap_cons, List.flatMap_nil, List.append_nil, List.mem_cons, List.not_mem_nil, or_false] at hx
    rcases hx with rfl | rfl | rfl | rfl
    · exact absurd hxn (by decide)
    · exact absurd hxn (by decide)
    · exact absurd hxn (by decide)
    · rfl
  subst hxz
  obtain ⟨q', h1, h2⟩ := C121_whole_keeps (x := hpZ) (by decide +kernel) hl least (by
    rintro l u (hk | ⟨a, b, hk, _⟩)
    · cases hk; exact .inr rfl
    · cases hk)
  rw [hq] at h1
  cases h1
  have := hread h2 (by intro l u hk; cases hk)
  have hr : roundVal hpZ.kind (.flt 4) = .flt 4 := by decide +kernel
  rwa [hr] at this

/-- After `config["z"] = 2.0` the code answers `0.0`, after `config["i"] = 8` it answers `1`. -/
example : ((setItem (whole least) spD cfgD "z" (.flt 2)).1.getItem spD "z").1 = .ok (.flt 0) ∧
    ((setItem (whole least) spD cfgD "i" (.int 8)).1.getItem spD "i").1 = .ok (.int 1) := by
  constructor
  · have := (C121_whole_lower_bound reachD madeD (x := hpZ) (by simp [allHps, callD]) (r := 2) rfl answers.1).1 0 4 rfl
      (by norm_num) (by norm_num)
    rw [show hpZ.name = "z" from rfl] at this
    rw [this]
    exact congrArg Except.ok (by decide +kernel)
  · exact (C121_whole_lower_bound reachD madeD (x := hpI) (by simp [allHps, callD]) (r := 8) rfl answers.2.1).2 1 9 rfl
      (by norm_num) (by norm_num)

/-- After `config["a"] = "u"` the condition of `b` holds; `config["a"] = "w"` raises, though the space has
configurations with this value. -/
example : Holds (asg spD.idx (setItem (whole least) spD cfgD "a" (.str "u")).1.vec) (.lit ⟨hpB, hpA, .bin .eq (.str "u") 0⟩) ∧
    (setItem (whole least) spD cfgD "a" (.str "w")).2 ≠ none ∧ (cfgD.setItem spD "a" (.str "w")).2 = none := by
  refine ⟨?_, answers.2.2.2.2, by decide +kernel⟩
  exact C121_whole_all_active reachD sepD ownD madeD answers.2.2.1
    (represents_asg reachD (made_cacheOk reachD (.set madeD)).len) _ (by simp [allConds, callD])

end Verif.Dtype
