import Verif.Props.Commute
import Verif.Model.Loop
import Verif.Props.Config
import Verif.Props.AnyNumInst
import Verif.Props.Change
import Verif.Lemmas.Order

/-!
# C129 for configurations: the order of independent assignments, and repeated assignments

The theorems of `Props/Commute` for `Configuration.__setitem__` in exact numbers, with the cache of values.
-/

set_option autoImplicit false

namespace Verif.Commute

open Spec

variable {calls : List Call} {s : Space}

theorem vec_ext_names (h : Reach calls s) {v w : Vec} (hv : v.length = s.len) (hw : w.length = s.len)
    (he : ∀ m ∈ s.names, v.at (s.idx m) = w.at (s.idx m)) : v = w := by
  obtain ⟨-, -, -, hl, -, hu⟩ := C02_names_index_bijection h
  refine List.ext_getElem (by rw [hv, hw]) ?_
  intro i h1 h2
  have hi : i < s.names.length := by
    rw [hv, hl] at h1
    exact h1
  have := he _ (List.getElem_mem hi)
  rw [hu i _ (List.getElem?_eq_getElem hi)] at this
  simpa [Vec.at, h1, h2] using this

/-- Vectors that agree outside a set of names still agree there after the loop, if no node of the loop has a parent or a child in the set. -/
theorem changeLoop_agreeOff (h : Reach calls s) (D : Name → Prop) : ∀ (l : List Nat) (v w : Vec), v.length = s.len → w.length = s.len →
    (∀ j ∈ l, ∀ c, s.minConds[j]? = some c → ∀ p ∈ c.cond.parents, c.kids ≠ [] → ¬ D p) →
    (∀ m ∈ s.names, ¬ D m → v.at (s.idx m) = w.at (s.idx m)) →
    ∀ m ∈ s.names, ¬ D m → (changeLoop s l v).at (s.idx m) = (changeLoop s l w).at (s.idx m) := by
  intro l
  induction l with
  | nil => intro v w _ _ _ he; exact he
  | cons j l ih =>
    intro v w hv hw hl he
    have hstep : ∀ u : Vec, changeLoop s (j :: l) u = changeLoop s l (match s.minConds[j]? with
      | some c => applyCNode s u c
      | none => u) := fun _ => rfl
    rw [hstep, hstep]
    cases hc : s.minConds[j]? with
    | none => exact ih v w hv hw (fun i hi => hl i (by simp [hi])) he
    | some c =>
      refine ih _ _ (by rw [applyCNode_length, hv]) (by rw [applyCNode_length, hw]) (fun i hi => hl i (by simp [hi])) ?_
      intro m hm hD
      have hcm := List.mem_of_getElem? hc
      rw [applyCNode_at h hv (kids_known h hcm) hm, applyCNode_at h hw (kids_known h hcm) hm, he m hm hD]
      by_cases hk : m ∈ c.kids
      · rw [if_pos hk, if_pos hk]
        have : c.cond.satVec s.idx v = c.cond.satVec s.idx w := by
          refine satVec_congr ?_
          intro p hp
          exact he p (parents_known h hcm p hp) (hl j (by simp) c hc p hp (List.ne_nil_of_mem hk))
        rw [this]
      · rw [if_neg hk, if_neg hk]

theorem within_trans {a p k : Name} (h1 : Within calls a p) (h2 : ParentOf calls p k) : Within calls a k := by
  rcases h1 with rfl | h1
  · exact .inr (.edge h2)
  · exact .inr (h1.trans (.edge h2))

theorem changeHp_agreeOff (h : Reach calls s) {a b : Name} (ha : a ∈ s.names) (hab : Apart calls a b) {x : Rat} {v w : Vec}
    (hv : v.length = s.len) (hw : w.length = s.len)
    (he : ∀ m ∈ s.names, ¬ Within calls b m → v.at (s.idx m) = w.at (s.idx m)) :
    ∀ m ∈ s.names, ¬ Within calls b m →
      (s.changeHp v a x (s.idx a)).at (s.idx m) = (s.changeHp w a x (s.idx a)).at (s.idx m) := by
  rw [changeHp_eq, changeHp_eq]
  refine changeLoop_agreeOff h (Within calls b) _ _ _ (by simp [hv]) (by simp [hw]) ?_ ?_
  · intro j hj c hc p hp hne hD
    obtain ⟨k, hk⟩ := List.exists_mem_of_ne_nil _ hne
    have h1 : Path (ParentOf calls) a k := (lookup_path h hj ⟨c, hc, hk⟩).mono (fun a b e => (reach_edge h a b).1 e)
    have h2 : ParentOf calls p k := (reach_edge h p k).1 (group_edge h ⟨c, hc, hp⟩ ⟨c, hc, hk⟩)
    exact hab k ⟨.inr h1, within_trans hD h2⟩
  · intro m hm hD
    by_cases e : m = a
    · subst e
      rw [at_set_eq (by rw [hv]; exact idx_lt h ha), at_set_eq (by rw [hw]; exact idx_lt h ha)]
    · have : s.idx a ≠ s.idx m := fun k => e (idx_inj h hm ha k.symm)
      rw [at_set_ne this, at_set_ne this, he m hm hD]

theorem changeHp_within (h : Reach calls s) {b : Name} (hb : b ∈ s.names) {y : Rat} {v : Vec} (hv : v.length = s.len) :
    ∀ m ∈ s.names, ¬ Within calls b m → (s.changeHp v b y (s.idx b)).at (s.idx m) = v.at (s.idx m) :=
  fun _ hm hD => changeHp_other h hv hb hm (fun e => hD (.inl e)) (fun hp => hD (.inr hp))

theorem changeHp_comm (h : Reach calls s) {a b : Name} (ha : a ∈ s.names) (hb : b ∈ s.names) (hab : Apart calls a b) {x y : Rat} {v : Vec}
    (hv : v.length = s.len) :
    s.changeHp (s.changeHp v a x (s.idx a)) b y (s.idx b) = s.changeHp (s.changeHp v b y (s.idx b)) a x (s.idx a) := by
  have hba : Apart calls b a := fun m hm => hab m ⟨hm.2, hm.1⟩
  have la : ∀ u : Vec, u.length = s.len → (s.changeHp u a x (s.idx a)).length = s.len := fun u hu => by rw [changeHp_length, hu]
  have lb : ∀ u : Vec, u.length = s.len → (s.changeHp u b y (s.idx b)).length = s.len := fun u hu => by rw [changeHp_length, hu]
  refine vec_ext_names h (lb _ (la _ hv)) (la _ (lb _ hv)) ?_
  intro m hm
  by_cases hD : Within calls b m
  · have hD' : ¬ Within calls a m := fun k => hab m ⟨k, hD⟩
    rw [changeHp_within h ha (lb _ hv) m hm hD']
    exact changeHp_agreeOff h hb hba (la _ hv) hv (fun k hk hk' => changeHp_within h ha hv k hk hk') m hm hD'
  · rw [changeHp_within h hb (la _ hv) m hm hD]
    exact (changeHp_agreeOff h ha hab (lb _ hv) hv (fun k hk hk' => changeHp_within h hb hv k hk hk') m hm hD).symm

theorem findNode_known (h : Reach calls s) {n : Name} {x : Node} (hf : findNode s.dag.nodes n = some x) : n ∈ s.names := by
  obtain ⟨hx, rfl⟩ := findNode_name hf
  have hi := sinv_of_reach h
  rw [hi.com] at hx
  exact List.mem_map.2 ⟨x, hx, rfl⟩

/-- A vector that passes the check is left alone by every condition node. -/
theorem applyCNode_fixed (h : Reach calls s) {v : Vec} (hv : v.length = s.len) (hk : s.check v = none) {c : CNode} (hc : c ∈ s.minConds) :
    applyCNode s v c = v := by
  have hs : stepOk s v c := by
    refine checkConds_none.1 ?_ c hc
    unfold Space.check at hk
    split at hk
    · cases hk
    · split at hk
      · cases hk
      · assumption
  refine vec_ext_names h (by rw [applyCNode_length, hv]) hv ?_
  intro m hm
  rw [applyCNode_at h hv (kids_known h hc) hm]
  split
  · rename_i hmk
    split
    · rename_i hsat
      obtain ⟨q, hq⟩ := legalAt_set (hs.1 hsat m hmk)
      rw [hq]; rfl
    · rename_i hsat
      exact (hs.2 (by simpa using hsat) m hmk).symm
  · rfl

theorem changeLoop_fixed (h : Reach calls s) {v : Vec} (hv : v.length = s.len) (hk : s.check v = none) : ∀ l : List Nat,
    changeLoop s l v = v
  | [] => rfl
  | j :: l => by
    have hstep : changeLoop s (j :: l) v = changeLoop s l (match s.minConds[j]? with
      | some c => applyCNode s v c
      | none => v) := rfl
    rw [hstep]
    cases hc : s.minConds[j]? with
    | none => exact changeLoop_fixed h hv hk l
    | some c =>
      simp only
      rw [applyCNode_fixed h hv hk (List.mem_of_getElem? hc)]
      exact changeLoop_fixed h hv hk l

theorem changeHp_fixed (h : Reach calls s) {v : Vec} (hv : v.length = s.len) (hk : s.check v = none) {n : Name} (hn : n ∈ s.names) {x : Rat}
    (he : v.at (s.idx n) = some x) : s.changeHp v n x (s.idx n) = v := by
  have : v.set (s.idx n) (some x) = v := by
    refine vec_ext_names h (by simp [hv]) hv ?_
    intro m hm
    by_cases e : m = n
    · subst e
      rw [at_set_eq (by rw [hv]; exact idx_lt h hn), he]
    · rw [at_set_ne (fun k => e (idx_inj h hm hn k.symm))]
  rw [changeHp_eq, this, changeLoop_fixed h hv hk]

theorem setItem_of {c : Config} {n : Name} {x : Node} {w : Val} {q : Rat} (hf : findNode s.dag.nodes n = some x)
    (hl : x.hp.kind.legalValue w = true) (hq : x.hp.kind.toVec w = some q) (hk : s.check (s.changeHp c.vec n q (s.idx n)) = none) :
    c.setItem s n w = ({ c with vec := s.changeHp c.vec n q (s.idx n), vals := none }, none) := by
  unfold Config.setItem
  simp only [hf, hl, Bool.not_true, Bool.false_eq_true, if_false, hq, hk]

theorem setItem_is {c c' : Config} {n : Name} {w : Val} (hs : c.setItem s n w = (c', none)) :
    ∃ x q, findNode s.dag.nodes n = some x ∧ x.hp.kind.legalValue w = true ∧ x.hp.kind.toVec w = some q ∧
      s.check (s.changeHp c.vec n q (s.idx n)) = none ∧ c' = { c with vec := s.changeHp c.vec n q (s.idx n), vals := none } := by
  obtain ⟨x, q, hf, hl, hq, hv, -, hk⟩ := setItem_ok hs
  rw [hv] at hk
  refine ⟨x, q, hf, hl, hq, hk, ?_⟩
  rw [setItem_of hf hl hq hk] at hs
  exact (Prod.mk.inj hs).1.symm

/-- **C129.** Two assignments to hyperparameters on which nothing depends in common, of which neither depends on the other, may be made in
either order: if the first order goes through and the second one gets past its first assignment, then it goes through as well, and the two
configurations are the same. -/
theorem C129_configuration_order_partial (h : Reach calls s) {a b : Name} (hab : Apart calls a b) {c c1 c2 d1 : Config} {x y : Val}
    (hc : CfgReach s c) (h1 : c.setItem s a x = (c1, none)) (h2 : c1.setItem s b y = (c2, none)) (h3 : c.setItem s b y = (d1, none)) :
    d1.setItem s a x = (c2, none) := by
  obtain ⟨p, r, hp, hpl, hpr, -, rfl⟩ := setItem_is h1
  obtain ⟨q, t, hq, hql, hqt, hk, rfl⟩ := setItem_is h2
  obtain ⟨q', t', hq', -, hqt', -, rfl⟩ := setItem_is h3
  obtain rfl : q' = q := by rw [hq] at hq'; exact (Option.some.inj hq').symm
  obtain rfl : t' = t := by rw [hqt] at hqt'; exact (Option.some.inj hqt').symm
  simp only at hk ⊢
  rw [changeHp_comm h (findNode_known h hp) (findNode_known h hq) hab (cacheOk h hc).len] at hk ⊢
  rw [setItem_of hp hpl hpr hk]

theorem setItem_fixed (h : Reach calls s) {c : Config} (hc : CfgReach s c) (hk : s.check c.vec = none) {n : Name} {x : Node}
    (hf : findNode s.dag.nodes n = some x) {w : Val} (hl : x.hp.kind.legalValue w = true) {q : Rat} (hq : x.hp.kind.toVec w = some q)
    (he : c.vec.at (s.idx n) = some q) : c.setItem s n w = ({ c with vals := none }, none) := by
  have hfix := changeHp_fixed h (cacheOk h hc).len hk (findNode_known h hf) he
  rw [setItem_of hf hl hq (by rw [hfix]; exact hk), hfix]

/-- **C129.** Assigning the value that is there already, to a configuration that passes `check_configuration`, is accepted and changes
nothing but the cache, whatever depends on it. -/
theorem C129_configuration_same_value (h : Reach calls s) {c : Config} (hc : CfgReach s c) (hk : s.check c.vec = none) {x : HP}
    (hx : x ∈ allHps calls) {w : Val} (hl : x.kind.legalValue w = true) (he : c.vec.at (s.idx x.name) = x.kind.toVec w) :
    c.setItem s x.name w = ({ c with vals := none }, none) := by
  have hi := sinv_of_reach h
  have hp := (hp_of h).2 ⟨hx, rfl⟩
  unfold Space.hp? at hp
  rw [← hi.com] at hp
  cases hf : findNode s.dag.nodes x.name with
  | none => simp [hf] at hp
  | some y =>
    obtain rfl : y.hp = x := by simpa [hf] using hp
    obtain ⟨q, hq⟩ := legal_toVec hl
    exact setItem_fixed h hc hk hf hl hq (by rw [he, hq])

/-- **C129.** Making an assignment that was accepted a second time is accepted and changes nothing. -/
theorem C129_configuration_repeated (h : Reach calls s) {c c' : Config} (hc : CfgReach s c) {n : Name} {w : Val}
    (hs : c.setItem s n w = (c', none)) : c'.setItem s n w = (c', none) := by
  have hc' : CfgReach s c' := by
    have := CfgReach.set (n := n) (w := w) hc
    rwa [hs] at this
  obtain ⟨x, q, hf, hl, hq, hk, rfl⟩ := setItem_is hs
  have := setItem_fixed h hc' hk hf hl hq (changeHp_at h (cacheOk h hc).len (findNode_known h hf))
  exact this

/-- An assignment as a function of vectors of the right length. -/
def step (s : Space) (v : Vec) (p : Name × Val) : Vec :=
  if v.length = s.len then
    match findNode s.dag.nodes p.1 with
    | some x => match x.hp.kind.toVec p.2 with
      | some q => s.changeHp v p.1 q (s.idx p.1)
      | none => v
    | none => v
  else v

theorem step_length {v : Vec} {p : Name × Val} : (step s v p).length = v.length := by
  unfold step
  repeat' split
  all_goals first | rfl | exact changeHp_length

theorem step_comm (h : Reach calls s) {p q : Name × Val} (hpq : Apart calls p.1 q.1) (v : Vec) : step s (step s v p) q = step s (step s v q) p := by
  by_cases hv : v.length = s.len
  · have hp : ∀ u : Vec, u.length = s.len → (step s u p).length = s.len := fun u hu => by rw [step_length, hu]
    have hq : ∀ u : Vec, u.length = s.len → (step s u q).length = s.len := fun u hu => by rw [step_length, hu]
    cases hfp : findNode s.dag.nodes p.1 with
    | none =>
      have : ∀ u, step s u p = u := fun u => by unfold step; simp [hfp]
      rw [this, this]
    | some x =>
      cases hxp : x.hp.kind.toVec p.2 with
      | none =>
        have : ∀ u, step s u p = u := fun u => by unfold step; simp [hfp, hxp]
        rw [this, this]
      | some a =>
        have e1 : ∀ u : Vec, u.length = s.len → step s u p = s.changeHp u p.1 a (s.idx p.1) := fun u hu => by
          unfold step; simp [hfp, hxp, hu]
        cases hfq : findNode s.dag.nodes q.1 with
        | none =>
          have : ∀ u, step s u q = u := fun u => by unfold step; simp [hfq]
          rw [this, this]
        | some y =>
          cases hyq : y.hp.kind.toVec q.2 with
          | none =>
            have : ∀ u, step s u q = u := fun u => by unfold step; simp [hfq, hyq]
            rw [this, this]
          | some b =>
            have e2 : ∀ u : Vec, u.length = s.len → step s u q = s.changeHp u q.1 b (s.idx q.1) := fun u hu => by
              unfold step; simp [hfq, hyq, hu]
            rw [e2 _ (hp v hv), e1 _ hv, e1 _ (hq v hv), e2 _ hv]
            exact changeHp_comm h (findNode_known h hfp) (findNode_known h hfq) hpq hv
  · have e1 : ∀ {r}, step s v r = v := by intro r; unfold step; rw [if_neg hv]
    simp only [e1]

theorem assignAll_eq (h : Reach calls s) : ∀ {l : List (Name × Val)} {c c' : Config}, CfgReach s c → Loop.assignAll s c l = (c', none) →
    c'.vec = l.foldl (step s) c.vec ∧ (l ≠ [] → c'.vals = none) ∧ c'.allow = c.allow
  | [], c, c', _, hl => by
    simp only [Loop.assignAll, Prod.mk.injEq, and_true] at hl
    subst hl
    exact ⟨rfl, fun h => absurd rfl h, rfl⟩
  | (n, w) :: l, c, c', hc, hl => by
    simp only [Loop.assignAll] at hl
    split at hl
    · simp at hl
    · rename_i c1 hs
      have hc1 : CfgReach s c1 := by
        have := CfgReach.set (n := n) (w := w) hc
        rwa [hs] at this
      obtain ⟨k1, k2, k3⟩ := assignAll_eq h hc1 hl
      obtain ⟨x, q, hf, -, hq, -, rfl⟩ := setItem_is hs
      refine ⟨?_, fun _ => ?_, k3⟩
      · rw [k1, List.foldl_cons]
        congr 1
        unfold step
        simp [(cacheOk h hc).len, hf, hq]
      · cases l with
        | nil =>
          simp only [Loop.assignAll, Prod.mk.injEq, and_true] at hl
          rw [← hl]
        | cons a l => exact k2 (by simp)

/-- **C129.** Assigning the values of a dictionary one after the other: if nothing depends on two of its keys in common and no key depends on
another one, the order of the dictionary does not matter: two orders in which all assignments are accepted end in the same configuration. -/
theorem C129_dictionary_order_partial (h : Reach calls s) {l l' : List (Name × Val)} (hp : l.Perm l')
    (hab : ∀ p ∈ l, ∀ q ∈ l, p ≠ q → Apart calls p.1 q.1) {c c1 c2 : Config} (hc : CfgReach s c)
    (h1 : Loop.assignAll s c l = (c1, none)) (h2 : Loop.assignAll s c l' = (c2, none)) : c1 = c2 := by
  obtain ⟨a1, a2, a3⟩ := assignAll_eq h hc h1
  obtain ⟨b1, b2, b3⟩ := assignAll_eq h hc h2
  by_cases hl : l = []
  · subst hl
    obtain rfl := List.nil_perm.1 hp
    rw [h1] at h2
    exact (Prod.mk.inj h2).1
  · have hl' : l' ≠ [] := fun e => hl (by subst e; exact List.perm_nil.1 hp)
    have hv : c1.vec = c2.vec := by
      rw [a1, b1]
      refine List.Perm.foldl_eq' hp ?_ _
      intro p hpm q hqm v
      by_cases e : p = q
      · rw [e]
      · exact step_comm h (hab p hpm q hqm e) v
    have e1 := a2 hl
    have e2 := b2 hl'
    obtain ⟨v1, w1, o1⟩ := c1
    obtain ⟨v2, w2, o2⟩ := c2
    simp only at hv e1 e2 a3 b3
    subst hv e1 e2 a3
    rw [b3]

namespace ExCm
open Ex

def hpP : HP := ⟨"p", .cat [.str "a", .str "b"], .str "a"⟩
def hpQ : HP := ⟨"q", .cat [.str "a", .str "b"], .str "b"⟩
def hpX : HP := ⟨"x", .cat [.str "u", .str "w"], .str "u"⟩
def hpY : HP := ⟨"y", .cat [.str "u", .str "w"], .str "u"⟩

/-! `x` depends on `p`, `y` on `q`. -/
def callS : Call := ⟨[hpP, hpQ, hpX, hpY], [.lit ⟨hpX, hpP, .bin .eq (.str "a") 0⟩, .lit ⟨hpY, hpQ, .bin .eq (.str "b") 1⟩], []⟩
def spS : Space := committed {} callS
theorem reachS : Reach [callS] spS :=
  Reach.snoc (calls := []) .nil (by decide +kernel)
    (add_of_stages [("p", some (.str "a")), ("q", some (.str "b")), ("x", some (.str "u")), ("y", some (.str "u"))]
      [some 0, some 1, some 0, some 0] [("p", .str "a"), ("q", .str "b"), ("x", .str "u"), ("y", .str "u")]
      (by decide +kernel) (by decide +kernel) (by decide +kernel)
      (by decide +kernel) (by decide +kernel) (by decide +kernel))

/-! `x` if `p == "a"` or `q == "a"`. -/
def callB : Call :=
  ⟨[hpP, hpQ, hpX], [.or [.lit ⟨hpX, hpP, .bin .eq (.str "a") 0⟩, .lit ⟨hpX, hpQ, .bin .eq (.str "a") 0⟩]], []⟩
def spB : Space := committed {} callB
theorem reachB : Reach [callB] spB :=
  Reach.snoc (calls := []) .nil (by decide +kernel)
    (add_of_stages [("p", some (.str "a")), ("q", some (.str "b")), ("x", some (.str "u"))]
      [some 0, some 1, some 0] [("p", .str "a"), ("q", .str "b"), ("x", .str "u")]
      (by decide +kernel) (by decide +kernel) (by decide +kernel)
      (by decide +kernel) (by decide +kernel) (by decide +kernel))

def startB : Config := ⟨[some 0, some 1, some 1], none, false⟩
theorem startB_reach : CfgReach spB startB := .vector (v := [some 0, some 1, some 1]) (al := false) (by rfl)
theorem edgeS {a b : Name} (h : ParentOf [callS] a b) : (a = "p" ∧ b = "x") ∨ (a = "q" ∧ b = "y") := by
  obtain ⟨c, hc, hb, l, hl, rfl⟩ := h
  simp only [allConds, callS, List.flatMap_cons, List.flatMap_nil, List.append_nil, List.mem_cons, List.not_mem_nil, or_false] at hc
  rcases hc with rfl | rfl
  · simp only [Cond.dlcs, List.mem_singleton] at hl
    subst hl
    exact .inl ⟨rfl, (Option.some.inj hb).symm⟩
  · simp only [Cond.dlcs, List.mem_singleton] at hl
    subst hl
    exact .inr ⟨rfl, (Option.some.inj hb).symm⟩
theorem pathS {a b : Name} (h : Path (ParentOf [callS]) a b) : (a = "p" ∧ b = "x") ∨ (a = "q" ∧ b = "y") := by
  induction h with
  | edge e => exact edgeS e
  | cons e _ ih =>
    rcases edgeS e with ⟨-, rfl⟩ | ⟨-, rfl⟩ <;> rcases ih with ⟨h, -⟩ | ⟨h, -⟩ <;> exact absurd h (by decide)
theorem apartS : Apart [callS] "p" "q" := by
  rintro m ⟨h1, h2⟩
  rcases h1 with rfl | h1
  · rcases h2 with h2 | h2
    · exact absurd h2 (by decide)
    · rcases pathS h2 with ⟨h, -⟩ | ⟨-, h⟩ <;> exact absurd h (by decide)
  · rcases pathS h1 with ⟨-, rfl⟩ | ⟨h, -⟩
    · rcases h2 with h2 | h2
      · exact absurd h2 (by decide)
      · rcases pathS h2 with ⟨h, -⟩ | ⟨-, h⟩ <;> exact absurd h (by decide)
    · exact absurd h (by decide)

def startS : Config := ⟨[some 0, some 1, some 1, some 1], none, false⟩
theorem startS_reach : CfgReach spS startS := .vector (v := [some 0, some 1, some 1, some 1]) (al := false) (by rfl)

theorem fstOk {r : Config × Option Err} (h : r.2 = none) : r = (r.1, none) := by rw [← h]

-- Both assignments switch something off.
example : (((startS.setItem spS "q" (.str "a")).1).setItem spS "p" (.str "b")) =
    (((startS.setItem spS "p" (.str "b")).1.setItem spS "q" (.str "a")).1, none) :=
  C129_configuration_order_partial reachS apartS startS_reach (fstOk (by decide +kernel)) (fstOk (by decide +kernel)) (fstOk (by decide +kernel))
example : ((startS.setItem spS "p" (.str "b")).1.setItem spS "q" (.str "a")).1.vec = [some 1, some 0, none, none] := by decide +kernel
def twoS : List (Name × Val) := [("p", .str "b"), ("q", .str "a")]
example : (Loop.assignAll spS startS twoS).1 = (Loop.assignAll spS startS twoS.reverse).1 :=
  C129_dictionary_order_partial reachS (List.reverse_perm _).symm (by
    intro p hp q hq hne
    simp only [twoS, List.mem_cons, List.not_mem_nil, or_false] at hp hq
    rcases hp with rfl | rfl <;> rcases hq with rfl | rfl
    · exact absurd rfl hne
    · exact apartS
    · exact fun m hm => apartS m ⟨hm.2, hm.1⟩
    · exact absurd rfl hne) startS_reach (fstOk (by decide +kernel)) (fstOk (by decide +kernel))
example : startS.setItem spS "p" (.str "a") = (startS, none) :=
  C129_configuration_same_value reachS startS_reach (by decide +kernel) (x := hpP) (by simp [allHps, callS]) (by decide +kernel) (by decide +kernel)
example : (startS.setItem spS "p" (.str "b")).1.setItem spS "p" (.str "b") = ((startS.setItem spS "p" (.str "b")).1, none) :=
  C129_configuration_repeated reachS startS_reach (fstOk (by decide +kernel))
-- In any arithmetic, here the exact one.
example : AnyNum.setItem AnyNum.exact spS startS.vec "p" (.str "a") = (startS.vec, none) :=
  AnyNum.C129_same_value reachS rfl (by decide +kernel) (x := hpP) (by simp [allHps, callS]) (by decide +kernel) (by decide +kernel)
end ExCm

/-- **C129, false of the code** for two hyperparameters on which a third one depends: neither depends on the other, all four assignments are
accepted, and the two orders end in different configurations.  (In one order `x` is switched off in between and comes back with its default
value; in the other order it keeps its value.) -/
theorem C129_order_matters : ∃ calls s c a b x y, Reach calls s ∧ CfgReach s c ∧ s.check c.vec = none ∧ a ≠ b ∧
    ¬ Path (ParentOf calls) a b ∧ ¬ Path (ParentOf calls) b a ∧
    (c.setItem s a x).2 = none ∧ ((c.setItem s a x).1.setItem s b y).2 = none ∧
    (c.setItem s b y).2 = none ∧ ((c.setItem s b y).1.setItem s a x).2 = none ∧
    ((c.setItem s a x).1.setItem s b y).1.vec ≠ ((c.setItem s b y).1.setItem s a x).1.vec := by
  have edge : ∀ {a b : Name}, ParentOf [ExCm.callB] a b → b = "x" := by
    rintro a b ⟨c, hc, hb, -⟩
    simp only [allConds, ExCm.callB, List.flatMap_cons, List.flatMap_nil, List.append_nil, List.mem_singleton] at hc
    subst hc
    exact (Option.some.inj hb).symm
  have path : ∀ {a b : Name}, Path (ParentOf [ExCm.callB]) a b → b = "x" := by
    intro a b h
    induction h with
    | edge e => exact edge e
    | cons _ _ ih => exact ih
  exact ⟨_, _, _, "p", "q", .str "b", .str "a", ExCm.reachB, ExCm.startB_reach, by decide +kernel, by decide,
    fun h => absurd (path h) (by decide), fun h => absurd (path h) (by decide), by decide +kernel, by decide +kernel, by decide +kernel,
    by decide +kernel, by decide +kernel⟩

end Verif.Commute
