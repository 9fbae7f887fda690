import Verif.Lemmas.Order
import Verif.Props.Config

/-!
# C23: changing one value

The theorems are partial: the precomputed order (`change_hp_lookup`) is only right if the conditions are
layered.  The counterexamples below show that both claims fail without it.
-/

set_option autoImplicit false

namespace Verif
open Verif.Spec

variable {calls : List Call} {s : Space}

theorem lookup_closed (h : Reach calls s) (hw : WeaklyLayered calls) (n : Name) :
    Closed s.minConds ((s.lookup.lookup n).getD []) := by
  rw [(sinv_of_reach h).lookup]
  exact changeLookup_closed (topo_of_weakly h hw) (gkey_mono h) n

theorem lookup_iff (h : Reach calls s) (hw : WeaklyLayered calls) {n : Name} {j : Nat} :
    j ∈ (s.lookup.lookup n).getD [] ↔ ∃ i, ParOf s.minConds i n ∧ (j = i ∨ Path (GEdge s.minConds) i j) := by
  rw [(sinv_of_reach h).lookup]
  exact changeLookup_mem (topo_of_weakly h hw) (gkey_mono h)

theorem lookup_noBack (h : Reach calls s) (hl : Layered calls) (n : Name) :
    NoBack s.minConds ((s.lookup.lookup n).getD []) := by
  rw [(sinv_of_reach h).lookup]
  exact noBack_of_sorted (key := gkey s) (fun i j e => gedge_lt h hl e)
    (changeLookup_sorted (topo_of_weakly h hl.weakly) (gkey_mono h) n)

/-- A node that the lookup does not list is not affected at all. -/
theorem change_unlisted (h : Reach calls s) (hw : WeaklyLayered calls) {v : Vec} (hv : v.length = s.len)
    {n : Name} (hn : n ∈ s.names) {x : Rat} {i : Nat} {c : CNode} (hc : s.minConds[i]? = some c)
    (hi : i ∉ (s.lookup.lookup n).getD []) :
    c.cond.satVec s.idx (s.changeHp v n x (s.idx n)) = c.cond.satVec s.idx v ∧
    ∀ m ∈ c.kids, m ≠ n → (s.changeHp v n x (s.idx n)).at (s.idx m) = v.at (s.idx m) := by
  have hmem := List.mem_of_getElem? hc
  have hv' : (v.set (s.idx n) (some x)).length = s.len := by simp [hv]
  constructor
  · rw [changeHp_eq, changeLoop_sat h hv' hc]
    · refine satVec_congr ?_
      intro p hp
      refine at_set_ne ?_
      intro e
      have := idx_inj h hn (parents_known h hmem p hp) e
      subst this
      exact hi ((lookup_iff h hw).2 ⟨i, ⟨c, hc, hp⟩, .inl rfl⟩)
    · intro j hj e
      exact hi ((lookup_closed h hw n).mem hj e)
  · intro m hm hne
    have hmn := kids_known h hmem m hm
    rw [changeHp_eq, changeLoop_other h hmn _ _ hv', at_set_ne (fun e => hne (idx_inj h hmn hn e.symm))]
    intro j hj hk
    exact hi (kid_unique h hk ⟨c, hc, hm⟩ ▸ hj)

theorem changeHp_length {v : Vec} {n : Name} {x : Rat} {i : Nat} : (s.changeHp v n x i).length = v.length := by
  rw [changeHp_eq, changeLoop_length, List.length_set]

theorem changeHp_activity (h : Reach calls s) (hsep : Separable calls) (hw : WeaklyLayered calls) {v : Vec}
    {a : Assign} (hv : Represents s v a) (ha : ActivityOk calls a) {n : Name} (hn : n ∈ s.names)
    (hset : ∃ q, a n = some q) (x : Rat) :
    ActivityOk calls (asg s.idx (s.changeHp v n x (s.idx n))) := by
  have hlen : (s.changeHp v n x (s.idx n)).length = s.len := by rw [changeHp_length]; exact hv.1
  rw [activity_iff h hsep (represents_asg h hlen)]
  rw [activity_iff h hsep hv] at ha
  intro i c hc m hm
  by_cases hi : i ∈ (s.lookup.lookup n).getD []
  · rw [changeHp_eq]
    exact changeLoop_closed h _ _ (by simp [hv.1]) (lookup_closed h hw n) i hi c hc m hm
  · obtain ⟨h1, h2⟩ := change_unlisted h hw hv.1 hn (x := x) hc hi
    rw [h1, ← ha i c hc m hm]
    by_cases e : m = n
    · subst e
      rw [changeHp_at h hv.1 hn, at_idx hv hn]
      obtain ⟨q, hq⟩ := hset
      rw [hq]; rfl
    · rw [h2 m hm e]

theorem toVec_default {x : HP} (hw : x.wf = true) : x.kind.toVec x.default = some x.defVec := by
  obtain ⟨q, hq⟩ := legal_toVec (HP.wf_legal hw)
  simp [HP.defVec, hq]

theorem defVec_legal {x : HP} (hw : x.wf = true) : x.kind.legalVec x.defVec = true :=
  toVec_legal hw (HP.wf_legal hw) (toVec_default hw) (HP.wf_default_exact hw)

/-- **C23** (partial: the conditions must be weakly layered).  Changing a hyperparameter that is set, in an
assignment in which exactly the active hyperparameters are set, gives such an assignment again. The changed
hyperparameter has the new value; what does not depend on it is as before; every other hyperparameter
is unset, keeps its value, or has its default. -/
theorem C23_change_reestablishes_activity_partial (h : Reach calls s) (hsep : Separable calls)
    (hw : WeaklyLayered calls) {v : Vec} {a : Assign} (hv : Represents s v a) (ha : ActivityOk calls a)
    {n : Name} (hn : Known calls n) (hset : ∃ q, a n = some q) (x : Rat) :
    ∃ b, Represents s (s.changeHp v n x (s.idx n)) b ∧ b n = some x ∧ ActivityOk calls b ∧
      (RootsSet calls a → RootsSet calls b) ∧
      (∀ m, Known calls m → m ≠ n → ¬ Path (ParentOf calls) n m → b m = a m) ∧
      (∀ y ∈ allHps calls, y.name ≠ n → ∀ q, b y.name = some q → a y.name = some q ∨ q = y.defVec) := by
  have hnn := (reach_isNode h n).2 hn
  have hlen : (s.changeHp v n x (s.idx n)).length = s.len := by rw [changeHp_length]; exact hv.1
  have hother : ∀ m, Known calls m → m ≠ n → ¬ Path (ParentOf calls) n m →
      asg s.idx (s.changeHp v n x (s.idx n)) m = a m := by
    intro m hm hne hp
    have hmn := (reach_isNode h m).2 hm
    rw [← at_idx hv hmn]
    exact changeHp_other h hv.1 hnn hmn hne hp
  refine ⟨_, represents_asg h hlen, changeHp_at h hv.1 hnn, changeHp_activity h hsep hw hv ha hnn hset x, ?_,
    hother, ?_⟩
  · intro hr m hm hc
    by_cases e : m = n
    · subst e; exact ⟨x, changeHp_at h hv.1 hnn⟩
    · rw [hother m hm e]
      · exact hr m hm hc
      · intro hp
        obtain ⟨p, _, d, hd, hdn, _⟩ := Path.last hp
        exact hc ⟨d, hd, hdn⟩
  · intro y hy hne q hq
    have hyn := (reach_isNode h y.name).2 ⟨y, hy, rfl⟩
    have := changeLoop_values h hyn ((s.lookup.lookup n).getD []) (v.set (s.idx n) (some x)) (by simp [hv.1])
    rw [← changeHp_eq, at_set_ne (fun e => hne (idx_inj h hyn hnn e.symm)), at_idx hv hyn, defAt_eq h hy] at this
    have hq' : (s.changeHp v n x (s.idx n)).at (s.idx y.name) = some q := hq
    rw [hq'] at this
    rcases this with k | k | k
    · cases k
    · exact .inl k.symm
    · exact .inr (Option.some.inj k)

/-- **C23, values** (partial: the conditions must be layered).  What is active before and after the change keeps
its value; what becomes active gets its default. -/
theorem C23_active_values_kept_partial (h : Reach calls s) (hl : Layered calls)
    {v : Vec} {a b : Assign} (hv : Represents s v a) {n : Name} (hn : Known calls n) {x : Rat} (hb : Represents s (s.changeHp v n x (s.idx n)) b) :
    ∀ y ∈ allHps calls, y.name ≠ n → ∀ q, b y.name = some q →
      (∀ p, a y.name = some p → q = p) ∧ (a y.name = none → q = y.defVec) := by
  intro y hy hne q hq
  have hnn := (reach_isNode h n).2 hn
  have hyn := (reach_isNode h y.name).2 ⟨y, hy, rfl⟩
  rw [← at_idx hb hyn] at hq
  rw [← at_idx hv hyn]
  have hv' : (v.set (s.idx n) (some x)).length = s.len := by simp [hv.1]
  by_cases hk : ∃ i ∈ (s.lookup.lookup n).getD [], KidOf s.minConds i y.name
  · obtain ⟨i, hi, c, hc, hm⟩ := hk
    have := changeLoop_noBack h _ _ hv' (lookup_noBack h hl n) i hi c hc y.name hm
    rw [← changeHp_eq, hq, at_set_ne (fun e => hne (idx_inj h hyn hnn e.symm)), defAt_eq h hy] at this
    split at this
    · split at this
      · exact ⟨fun p hp => by rw [hp] at this; exact Option.some.inj this,
          fun e => by rw [e] at this; cases this⟩
      · rename_i hs
        refine ⟨fun p hp => ?_, fun _ => Option.some.inj this⟩
        rw [hp] at hs; exact absurd rfl hs
    · cases this
  · have := changeLoop_other h hyn ((s.lookup.lookup n).getD []) _ hv' (fun j hj hkj => hk ⟨j, hj, hkj⟩)
    rw [← changeHp_eq, hq, at_set_ne (fun e => hne (idx_inj h hyn hnn e.symm))] at this
    exact ⟨fun p hp => by rw [hp] at this; exact Option.some.inj this, fun e => by rw [e] at this; cases this⟩

/-- **C23 and the check** (partial: weakly layered conditions).  After changing an active hyperparameter of an
accepted vector to a legal entry, only a forbidden clause can make the check fail. -/
theorem C23_change_fails_only_if_forbidden_partial (h : Reach calls s) (hsep : Separable calls)
    (hown : OwnClauses calls) (hw : WeaklyLayered calls) {v : Vec} {a b : Assign} (hv : Represents s v a)
    (hchk : s.check v = none) {y : HP} (hy : y ∈ allHps calls) (hset : ∃ q, a y.name = some q) {x : Rat}
    (hx : y.kind.legalVec x = true) (hb : Represents s (s.changeHp v y.name x (s.idx y.name)) b) :
    s.check (s.changeHp v y.name x (s.idx y.name)) = none ↔ NotForbidden calls b := by
  obtain ⟨h1, h2, h3, _⟩ := (check_iff h hsep hown hv).1 hchk
  obtain ⟨b', k1, k2, k3, k4, k5, k6⟩ :=
    C23_change_reestablishes_activity_partial h hsep hw hv h2 ⟨y, hy, rfl⟩ hset x
  have hbb : ∀ m, Known calls m → b m = b' m := by
    intro m hm
    have hmn := (reach_isNode h m).2 hm
    rw [← at_idx hb hmn, at_idx k1 hmn]
  rw [check_iff h hsep hown hb]
  have hroots : RootsSet calls b := by
    intro m hm hc
    rw [hbb m hm]
    exact k4 h1 m hm hc
  have hact : ActivityOk calls b := by
    have := k3
    rw [activity_iff h hsep k1] at this
    exact (activity_iff h hsep hb).2 this
  have hleg : LegalConditional calls b := by
    intro z hz hc q hq
    rw [hbb _ ⟨z, hz, rfl⟩] at hq
    by_cases e : z.name = y.name
    · rw [e, k2] at hq
      cases hq
      rw [reach_hp_inj h z hz y hy e]
      exact hx
    · rcases k6 z hz e q hq with k | rfl
      · exact h3 z hz hc q k
      · exact defVec_legal ((reach_wf h).1 z hz)
  exact ⟨fun k => k.2.2.2, fun k => ⟨hroots, hact, hleg, k⟩⟩

/-! ## When conditions are layered -/

/-- The guard as a check on the depths of the space. -/
def layeredBy (R : Nat → Nat → Bool) (ns : Nodes) (cs : List Cond) : Bool :=
  cs.all fun c => cs.all fun d => cs.all fun d' =>
    !(d'.equivOnParent d || decide (d'.parents = d.parents)) || !(c.parents.any (fun y => childName d == some y)) ||
      c.parents.all (fun p => d'.parents.any (fun q => R (depthOf ns q) (depthOf ns p)))

theorem layeredBy_spec (h : Reach calls s) {R : Nat → Nat → Bool} (hb : layeredBy R s.com (allConds calls) = true)
    {c d d' : Cond} (hc : c ∈ allConds calls) (hd : d ∈ allConds calls) (hd' : d' ∈ allConds calls)
    (he : d' = d ∨ d'.equivOnParent d = true) {y : Name} (hy : childName d = some y) (hm : Mentions c y)
    {p : Name} {k : Nat} (hp : Mentions c p) (hk : Level calls p k) :
    ∃ q j, Mentions d' q ∧ Level calls q j ∧ R j k = true := by
  have hp' := mentions_iff.1 hp
  rw [level_iff h (cond_parents_known h hc hp')] at hk
  subst hk
  unfold layeredBy at hb
  have h1 := List.all_eq_true.1 (List.all_eq_true.1 (List.all_eq_true.1 hb c hc) d hd) d' hd'
  have h2 : (d'.equivOnParent d || decide (d'.parents = d.parents)) = true := by
    rcases he with rfl | he
    · simp
    · simp [he]
  have h3 : (c.parents.any (fun y => childName d == some y)) = true := by
    rw [List.any_eq_true]
    exact ⟨y, mentions_iff.1 hm, by simp [hy]⟩
  rw [h2, h3] at h1
  simp only [Bool.not_true, Bool.false_or, List.all_eq_true] at h1
  obtain ⟨q, hq, hr⟩ := List.any_eq_true.1 (h1 p hp')
  exact ⟨q, _, mentions_iff.2 hq, level_depth h (cond_parents_known h hd' hq), hr⟩

theorem layered_of_check (h : Reach calls s)
    (hb : layeredBy (fun j k => decide (j < k)) s.com (allConds calls) = true) : Layered calls := by
  intro c hc d hd d' hd' he y hy hm p k hp hk
  obtain ⟨q, j, h1, h2, h3⟩ := layeredBy_spec h hb hc hd hd' he hy hm hp hk
  exact ⟨q, j, h1, h2, by simpa using h3⟩

theorem weaklyLayered_of_check (h : Reach calls s)
    (hb : layeredBy (fun j k => decide (j ≤ k)) s.com (allConds calls) = true) : WeaklyLayered calls := by
  intro c hc d hd d' hd' he y hy hm p k hp hk
  obtain ⟨q, j, h1, h2, h3⟩ := layeredBy_spec h hb hc hd hd' he hy hm hp hk
  exact ⟨q, j, h1, h2, by simpa using h3⟩

/-- Spaces in which every condition tests a single parent are layered. -/
theorem C23_single_parents_layered (h : Reach calls s) (hs : SingleParent calls) : Layered calls := by
  intro c hc d hd d' hd' he y hy hm p k hp hk
  have e := hs c hc p y hp hm
  subst e
  have hsub : ∀ q, Mentions d' q → Mentions d q := by
    rcases he with rfl | he
    · exact fun q hq => hq
    · exact fun q hq => mentions_iff.2 (equiv_parents _ _ he q (mentions_iff.1 hq))
  obtain ⟨q, hq⟩ : ∃ q, Mentions d' q := by
    obtain ⟨ch, hch⟩ := wf_child ((reach_wf h).2.1 d' hd')
    unfold Cond.child? at hch
    cases hl : d'.dlcs with
    | nil => simp [hl] at hch
    | cons l ls => exact ⟨l.parent.name, l, by rw [hl]; simp, rfl⟩
  have hqn := cond_parents_known h hd' (mentions_iff.1 hq)
  refine ⟨q, _, hq, level_depth h hqn, ?_⟩
  have hedge : Edge s.com q p := (reach_edge h q p).2 ⟨d, hd, hy, hsub q hq⟩
  have hpn := ((reach_ninv h).edges _ _ hedge).2
  rw [(level_iff h hpn).1 hk]
  exact (reach_ninv h).good _ _ hedge

/-! ## Examples -/

namespace Ex

/-- Categorical with choices `"a"`, `"b"` and default `"a"`. -/
def ab (n : Name) : HP := ⟨n, .cat [.str "a", .str "b"], .str "a"⟩
/-- `child | parent == "a"` -/
def isA (child parent : Name) : Lit := ⟨ab child, ab parent, .bin .eq (.str "a") 0⟩
/-- `child | parent == "b"` -/
def isB (child parent : Name) : Lit := ⟨ab child, ab parent, .bin .eq (.str "b") 1⟩

/-- A chain: `x | p == "a"`, `y | x == "a"`. -/
def callL : Call := ⟨[ab "p", ab "x", ab "y"], [.lit (isA "x" "p"), .lit (isA "y" "x")], []⟩
def spL : Space := committed {} callL
theorem reachL : Reach [callL] spL := Reach.snoc (calls := []) .nil (by decide +kernel)
  (add_of_stages [("p", some (.str "a")), ("x", some (.str "a")), ("y", some (.str "a"))]
    [some 0, some 0, some 0] [("p", .str "a"), ("x", .str "a"), ("y", .str "a")]
    (by decide +kernel) (by decide +kernel) (by decide +kernel) (by decide +kernel) (by decide +kernel)
    (by decide +kernel))

theorem layeredL : Layered [callL] := layered_of_check reachL (by decide +kernel)

theorem weakly2 : WeaklyLayered [call1, call2] := weaklyLayered_of_check reach2 (by decide +kernel)

/-- `x | p == "a"`, `y | x == "a"`, `z | y == "a" && r == "a"`: the condition of `z` has the shallow parent `r`. -/
def callI : Call := ⟨[ab "p", ab "r", ab "x", ab "y", ab "z"],
  [.lit (isA "x" "p"), .lit (isA "y" "x"), .and [.lit (isA "z" "y"), .lit (isA "z" "r")]], []⟩
def spI : Space := committed {} callI
theorem reachI : Reach [callI] spI := Reach.snoc (calls := []) .nil (by decide +kernel)
  (add_of_stages [("p", some (.str "a")), ("r", some (.str "a")), ("x", some (.str "a")), ("y", some (.str "a")),
      ("z", some (.str "a"))]
    [some 0, some 0, some 0, some 0, some 0]
    [("p", .str "a"), ("r", .str "a"), ("x", .str "a"), ("y", .str "a"), ("z", .str "a")]
    (by decide +kernel) (by decide +kernel) (by decide +kernel) (by decide +kernel) (by decide +kernel)
    (by decide +kernel))

/-- `y | p == "a"`, `z | p == "b"`, `b | (p == "a" && y == "a") || (p == "b" && z == "a")`. -/
def callV : Call := ⟨[ab "p", ab "y", ab "z", ab "b"],
  [.lit (isA "y" "p"), .lit (isB "z" "p"),
    .or [.and [.lit (isA "b" "p"), .lit (isA "b" "y")], .and [.lit (isB "b" "p"), .lit (isA "b" "z")]]], []⟩
def spV : Space := committed {} callV
theorem reachV : Reach [callV] spV := Reach.snoc (calls := []) .nil (by decide +kernel)
  (add_of_stages [("p", some (.str "a")), ("y", some (.str "a")), ("z", none), ("b", some (.str "a"))]
    [some 0, some 0, none, some 0]
    [("p", .str "a"), ("y", .str "a"), ("b", .str "a")]
    (by decide +kernel) (by decide +kernel) (by decide +kernel) (by decide +kernel) (by decide +kernel)
    (by decide +kernel))

end Ex

/-- In the chain, setting `p` to `"b"` unsets `x` and `y`; setting it back gives both their defaults. -/
example : Ex.spL.changeHp [some 0, some 0, some 1] "p" 1 0 = [some 1, none, none] ∧
    Ex.spL.changeHp [some 1, none, none] "p" 0 0 = [some 0, some 0, some 0] ∧
    Layered [Ex.callL] ∧ SingleParent [Ex.callL] := by
  refine ⟨by decide +kernel, by decide +kernel, Ex.layeredL, ?_⟩
  intro c hc p q hp hq
  simp only [allConds, Ex.callL, List.flatMap_cons, List.flatMap_nil, List.append_nil, List.mem_cons,
    List.not_mem_nil, or_false] at hc
  obtain ⟨l, hl, rfl⟩ := hp
  obtain ⟨m, hm, rfl⟩ := hq
  rcases hc with rfl | rfl <;> simp only [Cond.dlcs, List.mem_singleton] at hl hm <;> rw [hl, hm]

/-- The space with a two-parent condition meets the hypotheses of C23: `x | k > 2 && alg == "a"`. -/
example : ∃ b, Represents Ex.sp2 (Ex.sp2.changeHp Ex.vv1 "k" 0 (Ex.sp2.idx "k")) b ∧ b "k" = some 0 ∧
    ActivityOk [Ex.call1, Ex.call2] b ∧ b "x" = none := by
  have hv := represents_asg Ex.reach2 (v := Ex.vv1) (by decide +kernel)
  obtain ⟨_, h2, _⟩ := (check_iff Ex.reach2 Ex.sep2 Ex.own2 hv).1 (by decide +kernel)
  obtain ⟨b, k1, k2, k3, _⟩ := C23_change_reestablishes_activity_partial Ex.reach2 Ex.sep2 Ex.weakly2 hv h2
    (n := "k") ⟨Ex.hpK, by simp [allHps, Ex.call1], rfl⟩ ⟨2/9, by decide +kernel⟩ 0
  refine ⟨b, k1, k2, k3, ?_⟩
  rw [← at_idx k1 (by decide +kernel : "x" ∈ Ex.sp2.names)]
  decide +kernel

/-- **C23 fails without the guard:** `z` depends on `p` through `y` and `x`, but the lookup of `p` misses it: after
setting `p` to `"b"`, `x` and `y` are unset and `z` still has its value.  So the assignment raises. -/
theorem C23_dependant_missed :
    ∃ s c, Built s ∧ CfgReach s c ∧ s.check c.vec = none ∧
      s.names = ["p", "r", "x", "y", "z"] ∧
      s.changeHp c.vec "p" 1 (s.idx "p") = [some 1, some 0, none, none, some 0] ∧
      (c.setItem s "p" (.str "b")).2 = some (.inactiveSet "z") :=
  ⟨Ex.spI, ⟨[some 0, some 0, some 0, some 0, some 0], none, false⟩, ⟨_, Ex.reachI⟩,
    .vector (v := [some 0, some 0, some 0, some 0, some 0]) (al := false) (by
      unfold Config.ofVector
      rw [if_neg (by decide +kernel)]),
    by decide +kernel, by decide +kernel, by decide +kernel, by decide +kernel⟩

/-- **C23 fails without the guard:** `b` is active for `p = "a"` and for `p = "b"`, but on the way from the
one to the other it is unset and set to its default; its value `"b"` is lost. -/
theorem C23_active_value_reset :
    ∃ s v, Built s ∧ s.check v = none ∧ s.names = ["p", "y", "z", "b"] ∧
      v = [some 0, some 0, none, some 1] ∧
      s.changeHp v "p" 1 (s.idx "p") = [some 1, none, some 0, some 0] ∧
      s.check [some 1, none, some 0, some 1] = none :=
  ⟨Ex.spV, _, ⟨_, Ex.reachV⟩, by decide +kernel, by decide +kernel, rfl, by decide +kernel, by decide +kernel⟩

/-- The chain meets the hypotheses of `C23_single_parents_layered`. -/
example : Layered [Ex.callL] := C23_single_parents_layered Ex.reachL (by
  intro c hc p q hp hq
  simp only [allConds, Ex.callL, List.flatMap_cons, List.flatMap_nil, List.append_nil, List.mem_cons,
    List.not_mem_nil, or_false] at hc
  obtain ⟨l, hl, rfl⟩ := hp
  obtain ⟨m, hm, rfl⟩ := hq
  rcases hc with rfl | rfl <;> simp only [Cond.dlcs, List.mem_singleton] at hl hm <;> rw [hl, hm])

/-- In the chain with `y = "b"`, setting `p` to `"a"` again changes neither `x` nor `y`. -/
example : ∀ q, asg Ex.spL.idx (Ex.spL.changeHp [some 0, some 0, some 1] "p" 0 0) "y" = some q → q = 1 := by
  intro q hq
  have hv := represents_asg Ex.reachL (v := [some 0, some 0, some 1]) (by decide +kernel)
  have hb := represents_asg Ex.reachL (v := Ex.spL.changeHp [some 0, some 0, some 1] "p" 0 (Ex.spL.idx "p")) (by decide +kernel)
  exact (C23_active_values_kept_partial Ex.reachL Ex.layeredL hv ⟨Ex.ab "p", by simp [allHps, Ex.callL], rfl⟩ hb (Ex.ab "y")
    (by simp [allHps, Ex.callL]) (by decide) q hq).1 1 (by decide +kernel)

/-- In the two-call space, setting `alg` to `"b"` is refused because `alg == "b" and c == 7` is forbidden. -/
example : ¬ NotForbidden [Ex.call1, Ex.call2] (asg Ex.sp2.idx (Ex.sp2.changeHp Ex.vv1 "alg" 1 0)) := by
  have hv := represents_asg Ex.reach2 (v := Ex.vv1) (by decide +kernel)
  have hb := represents_asg Ex.reach2 (v := Ex.sp2.changeHp Ex.vv1 Ex.hpAlg.name 1 (Ex.sp2.idx Ex.hpAlg.name)) (by decide +kernel)
  have := C23_change_fails_only_if_forbidden_partial Ex.reach2 Ex.sep2 Ex.own2 Ex.weakly2 hv (by decide +kernel) (y := Ex.hpAlg)
    (by simp [allHps, Ex.call1]) ⟨0, by decide +kernel⟩ (x := 1) (by decide +kernel) hb
  intro hn
  exact absurd (this.2 hn) (by decide +kernel)

end Verif
