import Verif.Lemmas.AnyNumChange
import Verif.Props.Graph

/-!
# C129: the order of independent assignments, and repeated assignments

In any arithmetic of the vectors (so in exact numbers and in doubles, on linear and logarithmic scales).
-/

set_option autoImplicit false

namespace Verif.Spec

/-- `m` is `n`, or depends on it through conditions. -/
def Within (calls : List Call) (n m : Name) : Prop := m = n ∨ Path (ParentOf calls) n m

/-- Nothing depends on both, and neither depends on the other. -/
def Apart (calls : List Call) (a b : Name) : Prop := ∀ m, ¬ (Within calls a m ∧ Within calls b m)

end Verif.Spec

namespace Verif.AnyNum

open Spec

variable {α β : Type} [DecidableEq α] {A : Arith α β} {calls : List Call} {s : Space}

theorem vec_ext_names (h : Reach calls s) {v w : AVec α} (hv : v.length = s.len) (hw : w.length = s.len)
    (he : ∀ m ∈ s.names, v.at (s.idx m) = w.at (s.idx m)) : v = w := by
  obtain ⟨-, -, -, hl, -, hu⟩ := C02_names_index_bijection h
  refine List.ext_getElem (by rw [hv, hw]) ?_
  intro i h1 h2
  have hi : i < s.names.length := by
    rw [hv, hl] at h1
    exact h1
  have := he _ (List.getElem_mem hi)
  rw [hu i _ (List.getElem?_eq_getElem hi)] at this
  simpa [AVec.at, h1, h2] using this

/-- Vectors that agree outside a set of names still agree there after the loop, if no node of the loop has a parent or a child in the set. -/
theorem changeLoop_agreeOff (h : Reach calls s) (D : Name → Prop) : ∀ (l : List Nat) (v w : AVec α), v.length = s.len → w.length = s.len →
    (∀ j ∈ l, ∀ c, s.minConds[j]? = some c → ∀ p ∈ c.cond.parents, c.kids ≠ [] → ¬ D p) →
    (∀ m ∈ s.names, ¬ D m → v.at (s.idx m) = w.at (s.idx m)) →
    ∀ m ∈ s.names, ¬ D m → (changeLoop A s l v).at (s.idx m) = (changeLoop A s l w).at (s.idx m) := by
  intro l
  induction l with
  | nil => intro v w _ _ _ he; exact he
  | cons j l ih =>
    intro v w hv hw hl he
    have hstep : ∀ u : AVec α, changeLoop A s (j :: l) u = changeLoop A s l (match s.minConds[j]? with
      | some c => applyCNode A s u c
      | none => u) := fun _ => rfl
    rw [hstep, hstep]
    cases hc : s.minConds[j]? with
    | none => exact ih v w hv hw (fun i hi => hl i (by simp [hi])) he
    | some c =>
      refine ih _ _ (by rw [applyCNode_length, hv]) (by rw [applyCNode_length, hw]) (fun i hi => hl i (by simp [hi])) ?_
      intro m hm hD
      have hcm := List.mem_of_getElem? hc
      rw [applyCNode_at h hv (kids_known h hcm) hm, applyCNode_at h hw (kids_known h hcm) hm, he m hm hD]
      by_cases hk : m ∈ c.kids
      · rw [if_pos hk, if_pos hk]
        have : satVec A s.idx v c.cond = satVec A s.idx w c.cond := by
          refine satVec_congr ?_
          intro p hp
          exact he p (parents_known h hcm p hp) (hl j (by simp) c hc p hp (List.ne_nil_of_mem hk))
        rw [this]
      · rw [if_neg hk, if_neg hk]

theorem within_trans {a p k : Name} (h1 : Within calls a p) (h2 : ParentOf calls p k) : Within calls a k := by
  rcases h1 with rfl | h1
  · exact .inr (.edge h2)
  · exact .inr (h1.trans (.edge h2))

theorem changeHp_agreeOff (h : Reach calls s) {a b : Name} (ha : a ∈ s.names) (hab : Apart calls a b) {x : α} {v w : AVec α}
    (hv : v.length = s.len) (hw : w.length = s.len)
    (he : ∀ m ∈ s.names, ¬ Within calls b m → v.at (s.idx m) = w.at (s.idx m)) :
    ∀ m ∈ s.names, ¬ Within calls b m →
      (changeHp A s v a x (s.idx a)).at (s.idx m) = (changeHp A s w a x (s.idx a)).at (s.idx m) := by
  rw [changeHp_eq, changeHp_eq]
  refine changeLoop_agreeOff h (Within calls b) _ _ _ (by simp [hv]) (by simp [hw]) ?_ ?_
  · intro j hj c hc p hp hne hD
    obtain ⟨k, hk⟩ := List.exists_mem_of_ne_nil _ hne
    have h1 : Path (ParentOf calls) a k := (lookup_path h hj ⟨c, hc, hk⟩).mono (fun a b e => (reach_edge h a b).1 e)
    have h2 : ParentOf calls p k := (reach_edge h p k).1 (group_edge h ⟨c, hc, hp⟩ ⟨c, hc, hk⟩)
    exact hab k ⟨.inr h1, within_trans hD h2⟩
  · intro m hm hD
    by_cases e : m = a
    · subst e
      rw [at_set_eq (by rw [hv]; exact idx_lt h ha), at_set_eq (by rw [hw]; exact idx_lt h ha)]
    · have : s.idx a ≠ s.idx m := fun k => e (idx_inj h hm ha k.symm)
      rw [at_set_ne this, at_set_ne this, he m hm hD]

theorem changeHp_within (h : Reach calls s) {b : Name} (hb : b ∈ s.names) {y : α} {v : AVec α} (hv : v.length = s.len) :
    ∀ m ∈ s.names, ¬ Within calls b m → (changeHp A s v b y (s.idx b)).at (s.idx m) = v.at (s.idx m) :=
  fun _ hm hD => changeHp_other h hv hb hm (fun e => hD (.inl e)) (fun hp => hD (.inr hp))

theorem changeHp_comm (h : Reach calls s) {a b : Name} (ha : a ∈ s.names) (hb : b ∈ s.names) (hab : Apart calls a b) {x y : α} {v : AVec α}
    (hv : v.length = s.len) :
    changeHp A s (changeHp A s v a x (s.idx a)) b y (s.idx b) = changeHp A s (changeHp A s v b y (s.idx b)) a x (s.idx a) := by
  have hba : Apart calls b a := fun m hm => hab m ⟨hm.2, hm.1⟩
  have la : ∀ u : AVec α, u.length = s.len → (changeHp A s u a x (s.idx a)).length = s.len := fun u hu => by rw [changeHp_length, hu]
  have lb : ∀ u : AVec α, u.length = s.len → (changeHp A s u b y (s.idx b)).length = s.len := fun u hu => by rw [changeHp_length, hu]
  refine vec_ext_names h (lb _ (la _ hv)) (la _ (lb _ hv)) ?_
  intro m hm
  by_cases hD : Within calls b m
  · have hD' : ¬ Within calls a m := fun k => hab m ⟨k, hD⟩
    rw [changeHp_within h ha (lb _ hv) m hm hD']
    exact changeHp_agreeOff h hb hba (la _ hv) hv (fun k hk hk' => changeHp_within h ha hv k hk hk') m hm hD'
  · rw [changeHp_within h hb (la _ hv) m hm hD]
    exact (changeHp_agreeOff h ha hab (lb _ hv) hv (fun k hk hk' => changeHp_within h hb hv k hk hk') m hm hD).symm

theorem setItem_vec {v v' : AVec α} {n : Name} {w : Val} (hs : setItem A s v n w = (v', none)) :
    ∃ x, findNode s.dag.nodes n = some x ∧ A.legalValue x.hp w = true ∧ v' = changeHp A s v n (A.toVec x.hp w) (s.idx n) ∧
      check A s v' = none := by
  unfold setItem at hs
  cases hf : findNode s.dag.nodes n with
  | none => simp [hf] at hs
  | some x =>
    simp only [hf] at hs
    by_cases hl : A.legalValue x.hp w = true
    · simp only [hl, Bool.not_true, Bool.false_eq_true, if_false] at hs
      cases hk : check A s (changeHp A s v n (A.toVec x.hp w) (s.idx n)) false with
      | some e => simp [hk] at hs
      | none =>
        simp only [hk, Prod.mk.injEq, and_true] at hs
        subst hs
        exact ⟨x, rfl, hl, rfl, hk⟩
    · simp [hl] at hs

theorem findNode_known (h : Reach calls s) {n : Name} {x : Node} (hf : findNode s.dag.nodes n = some x) : n ∈ s.names := by
  obtain ⟨hx, rfl⟩ := findNode_name hf
  have hi := sinv_of_reach h
  rw [hi.com] at hx
  exact List.mem_map.2 ⟨x, hx, rfl⟩

/-- **C129.** Two assignments to hyperparameters on which nothing depends in common, of which neither depends on the other, may be made in
either order: if the first order goes through and the second one gets past its first assignment, then it goes through as well, and the two
configurations are the same. -/
theorem C129_order_partial (h : Reach calls s) {a b : Name} (hab : Apart calls a b) {v v1 v2 w1 : AVec α} {x y : Val} (hv : v.length = s.len)
    (h1 : setItem A s v a x = (v1, none)) (h2 : setItem A s v1 b y = (v2, none)) (h3 : setItem A s v b y = (w1, none)) :
    setItem A s w1 a x = (v2, none) := by
  obtain ⟨p, hp, hpl, rfl, -⟩ := setItem_vec h1
  obtain ⟨q, hq, hql, rfl, hk⟩ := setItem_vec h2
  obtain ⟨q', hq', -, rfl, -⟩ := setItem_vec h3
  obtain rfl : q' = q := by rw [hq] at hq'; exact (Option.some.inj hq').symm
  rw [changeHp_comm h (findNode_known h hp) (findNode_known h hq) hab hv] at hk ⊢
  unfold setItem
  simp only [hp, hpl, Bool.not_true, Bool.false_eq_true, if_false, hk]

/-- A vector that passes the check is left alone by every condition node. -/
theorem applyCNode_fixed (h : Reach calls s) {v : AVec α} (hv : v.length = s.len) (hk : check A s v = none) {c : CNode} (hc : c ∈ s.minConds) :
    applyCNode A s v c = v := by
  have hs : stepOk A s v c := by
    refine checkConds_none.1 ?_ c hc
    unfold check at hk
    split at hk
    · cases hk
    · split at hk
      · cases hk
      · assumption
  refine vec_ext_names h (by rw [applyCNode_length, hv]) hv ?_
  intro m hm
  rw [applyCNode_at h hv (kids_known h hc) hm]
  split
  · rename_i hmk
    split
    · rename_i hsat
      obtain ⟨q, hq⟩ := legalAt_set (hs.1 hsat m hmk)
      rw [hq]; rfl
    · rename_i hsat
      exact (hs.2 (by simpa using hsat) m hmk).symm
  · rfl

theorem changeLoop_fixed (h : Reach calls s) {v : AVec α} (hv : v.length = s.len) (hk : check A s v = none) : ∀ l : List Nat,
    changeLoop A s l v = v
  | [] => rfl
  | j :: l => by
    have hstep : changeLoop A s (j :: l) v = changeLoop A s l (match s.minConds[j]? with
      | some c => applyCNode A s v c
      | none => v) := rfl
    rw [hstep]
    cases hc : s.minConds[j]? with
    | none => exact changeLoop_fixed h hv hk l
    | some c =>
      simp only
      rw [applyCNode_fixed h hv hk (List.mem_of_getElem? hc)]
      exact changeLoop_fixed h hv hk l

theorem changeHp_fixed (h : Reach calls s) {v : AVec α} (hv : v.length = s.len) (hk : check A s v = none) {n : Name} (hn : n ∈ s.names) {x : α}
    (he : v.at (s.idx n) = some x) : changeHp A s v n x (s.idx n) = v := by
  have : v.set (s.idx n) (some x) = v := by
    refine vec_ext_names h (by simp [hv]) hv ?_
    intro m hm
    by_cases e : m = n
    · subst e
      rw [at_set_eq (by rw [hv]; exact idx_lt h hn), he]
    · rw [at_set_ne (fun k => e (idx_inj h hm hn k.symm))]
  rw [changeHp_eq, this, changeLoop_fixed h hv hk]

theorem setItem_fixed (h : Reach calls s) {v : AVec α} (hv : v.length = s.len) (hk : check A s v = none) {n : Name} {x : Node}
    (hf : findNode s.dag.nodes n = some x) {w : Val} (hl : A.legalValue x.hp w = true) (he : v.at (s.idx n) = some (A.toVec x.hp w)) :
    setItem A s v n w = (v, none) := by
  unfold setItem
  simp only [hf, hl, Bool.not_true, Bool.false_eq_true, if_false, changeHp_fixed h hv hk (findNode_known h hf) he, hk]

/-- **C129.** Assigning the value that is there already, to a configuration that passes `check_configuration`, is accepted and changes
nothing, whatever depends on it. -/
theorem C129_same_value (h : Reach calls s) {v : AVec α} (hv : v.length = s.len) (hk : check A s v = none) {x : HP} (hx : x ∈ allHps calls)
    {w : Val} (hl : A.legalValue x w = true) (he : v.at (s.idx x.name) = some (A.toVec x w)) : setItem A s v x.name w = (v, none) := by
  have hi := sinv_of_reach h
  have hp := (hp_of h).2 ⟨hx, rfl⟩
  unfold Space.hp? at hp
  rw [← hi.com] at hp
  cases hf : findNode s.dag.nodes x.name with
  | none => simp [hf] at hp
  | some y =>
    obtain rfl : y.hp = x := by simpa [hf] using hp
    exact setItem_fixed h hv hk hf hl he

/-- **C129.** Making an assignment that was accepted a second time is accepted and changes nothing. -/
theorem C129_repeated (h : Reach calls s) {v v' : AVec α} (hv : v.length = s.len) {n : Name} {w : Val}
    (hs : setItem A s v n w = (v', none)) : setItem A s v' n w = (v', none) := by
  obtain ⟨x, hf, hl, rfl, hk⟩ := setItem_vec hs
  have hn := findNode_known h hf
  exact setItem_fixed h (by rw [changeHp_length, hv]) hk hf hl (changeHp_at h hv hn)

end Verif.AnyNum
