import Verif.Lemmas.AnyNumSample

/-!
# Any arithmetic: assignment
-/

set_option autoImplicit false
set_option linter.unusedSectionVars false

namespace Verif.AnyNum
open Verif Verif.Spec.Any
open Verif.Spec (Known Conditional childName At clauseHps clauseHpsL OwnClauses Tight WeaklyLayered Layered ParentOf Path)

variable {α β : Type} [DecidableEq α] {A : Arith α β}

variable {calls : List Call} {s : Space}

/-- The default entry of a name. -/
def defE (A : Arith α β) (s : Space) (n : Name) : Option α := defaultAt A s (s.idx n)

/-- The default entry is the entry of the default of the hyperparameter. -/
theorem defE_eq (h : Reach calls s) {x : HP} (hx : x ∈ allHps calls) : defE A s x.name = some (A.toVec x x.default) := by
  have hn := reach_ninv h
  have hp := (hp_of h).2 ⟨hx, rfl⟩
  unfold Space.hp? at hp
  cases hf : findNode s.com x.name with
  | none => simp [hf] at hp
  | some y =>
    simp [hf] at hp
    obtain ⟨hy, e⟩ := findNode_some hf
    obtain ⟨i, hi⟩ := List.getElem?_of_mem hy
    have hidx : s.idx x.name = i := by
      refine idx_unique hn.nodup ?_
      simp [namesOf, List.getElem?_map, hi, e]
    simp [defE, defaultAt, hidx, List.getElem?_map, hi, hp]

theorem defE_isSome (h : Reach calls s) {m : Name} (hm : m ∈ s.names) : (defE A s m).isSome = true := by
  obtain ⟨x, hx, rfl⟩ := (reach_isNode h m).1 hm
  rw [defE_eq h hx]
  rfl

theorem at_set_eq {v : AVec α} {i : Nat} {e : Option α} (hi : i < v.length) : AVec.at (v.set i e) i = e := by
  simp [AVec.at, List.getD_eq_getElem?_getD, hi]

theorem at_set_ne {v : AVec α} {i j : Nat} {e : Option α} (hij : i ≠ j) : AVec.at (v.set i e) j = v.at j := by
  simp [AVec.at, List.getD_eq_getElem?_getD, List.getElem?_set_ne hij]

theorem length_foldl_set {γ : Type} {f : AVec α → γ → AVec α} (hf : ∀ v x, (f v x).length = v.length) :
    ∀ (l : List γ) (v : AVec α), (l.foldl f v).length = v.length := by
  intro l
  induction l with
  | nil => intro v; rfl
  | cons x xs ih => intro v; rw [List.foldl_cons, ih, hf]

theorem applyCNode_length {v : AVec α} {c : CNode} : (applyCNode A s v c).length = v.length := by
  unfold applyCNode
  split
  · exact length_foldl_set (by intro v x; split <;> simp) _ _
  · exact length_foldl_set (by simp) _ _

theorem fold_set_at (h : Reach calls s) (g : Name → Option (Option α)) : ∀ (l : List Name) (v : AVec α),
    (∀ n ∈ l, n ∈ s.names) → v.length = s.len → ∀ {m : Name}, m ∈ s.names →
    AVec.at (l.foldl (fun acc n => match g n with
      | some e => acc.set (s.idx n) e
      | none => acc) v) (s.idx m) = if m ∈ l then (g m).getD (v.at (s.idx m)) else v.at (s.idx m) := by
  intro l
  induction l with
  | nil => intro v _ _ m _; simp
  | cons n l ih =>
    intro v hl hv m hm
    rw [List.foldl_cons]
    have hn := hl n (by simp)
    have hlen : ∀ e : Option α, (v.set (s.idx n) e).length = s.len := by intro e; simp [hv]
    cases hg : g n with
    | none =>
      simp only
      rw [ih v (fun k hk => hl k (by simp [hk])) hv hm]
      by_cases e : m = n
      · subst e; simp [hg]
      · simp [e]
    | some e =>
      simp only
      rw [ih _ (fun k hk => hl k (by simp [hk])) (hlen e) hm]
      by_cases em : m = n
      · subst em
        rw [at_set_eq (by rw [hv]; exact idx_lt h hn)]
        simp [hg]
      · have : s.idx n ≠ s.idx m := fun k => em (idx_inj h hm hn k.symm)
        rw [at_set_ne this]
        simp [em]

/-- One condition node of `change_hp_value`. -/
theorem applyCNode_at (h : Reach calls s) {v : AVec α} (hv : v.length = s.len) {c : CNode}
    (hk : ∀ n ∈ c.kids, n ∈ s.names) {m : Name} (hm : m ∈ s.names) :
    (applyCNode A s v c).at (s.idx m) =
      if m ∈ c.kids then
        if satVec A s.idx v c.cond then
          if (v.at (s.idx m)).isSome then v.at (s.idx m) else defE A s m
        else none
      else v.at (s.idx m) := by
  unfold applyCNode
  by_cases hs : satVec A s.idx v c.cond = true
  · rw [if_pos hs]
    have := fold_set_at h (fun n => if (v.at (s.idx n)).isSome then none else some (defE A s n)) c.kids v hk
      hv hm
    have hfun : (fun (acc : AVec α) (n : Name) => if (v.at (s.idx n)).isSome then acc
        else acc.set (s.idx n) (defaultAt A s (s.idx n))) =
      (fun acc n => match (if (v.at (s.idx n)).isSome then none else some (defE A s n) : Option (Option α)) with
      | some e => acc.set (s.idx n) e
      | none => acc) := by
      funext acc n
      by_cases e : (v.at (s.idx n)).isSome = true
      · simp [e]
      · simp [e, defE]
    rw [hfun, this]
    by_cases hmk : m ∈ c.kids
    · rw [if_pos hmk, if_pos hmk, if_pos hs]
      by_cases e : (v.at (s.idx m)).isSome = true
      · simp [e]
      · simp [e]
    · rw [if_neg hmk, if_neg hmk]
  · rw [if_neg hs]
    have := fold_set_at h (fun _ => some none) c.kids v hk hv hm
    simp only [Option.getD_some] at this
    rw [this]
    by_cases hmk : m ∈ c.kids
    · rw [if_pos hmk, if_pos hmk, if_neg hs]
    · rw [if_neg hmk, if_neg hmk]

/-- The loop of `change_hp_value`. -/
def changeLoop (A : Arith α β) (s : Space) (l : List Nat) (v : AVec α) : AVec α :=
  l.foldl (fun acc j => match s.minConds[j]? with
    | some c => applyCNode A s acc c
    | none => acc) v

theorem changeLoop_length {l : List Nat} {v : AVec α} : (changeLoop A s l v).length = v.length := by
  unfold changeLoop
  exact length_foldl_set (by intro v x; split <;> simp [applyCNode_length]) _ _

/-- The loop does not touch names that are no children of the nodes it visits. -/
theorem changeLoop_other (h : Reach calls s) {m : Name} (hm : m ∈ s.names) : ∀ (l : List Nat) (v : AVec α),
    v.length = s.len → (∀ j ∈ l, ¬ KidOf s.minConds j m) →
    (changeLoop A s l v).at (s.idx m) = v.at (s.idx m) := by
  intro l
  induction l with
  | nil => intro v _ _; rfl
  | cons j l ih =>
    intro v hv hl
    have hstep : changeLoop A s (j :: l) v = changeLoop A s l (match s.minConds[j]? with
      | some c => applyCNode A s v c
      | none => v) := rfl
    rw [hstep]
    cases hc : s.minConds[j]? with
    | none => exact ih v hv (fun i hi => hl i (by simp [hi]))
    | some c =>
      rw [ih _ (by rw [applyCNode_length, hv]) (fun i hi => hl i (by simp [hi]))]
      rw [applyCNode_at h hv (kids_known h (List.mem_of_getElem? hc)) hm, if_neg]
      intro hk
      exact hl j (by simp) ⟨c, hc, hk⟩

theorem changeHp_eq (v : AVec α) (n : Name) (x : α) (i : Nat) :
    changeHp A s v n x i = changeLoop A s ((s.lookup.lookup n).getD []) (v.set i (some x)) := rfl

/-- Changing a value leaves the value itself in place, and everything that does not depend on it. -/
theorem changeHp_at (h : Reach calls s) {v : AVec α} (hv : v.length = s.len) {n : Name} (hn : n ∈ s.names)
    {x : α} : (changeHp A s v n x (s.idx n)).at (s.idx n) = some x := by
  rw [changeHp_eq, changeLoop_other h hn _ _ (by simp [hv]), at_set_eq (by rw [hv]; exact idx_lt h hn)]
  intro j hj hk
  exact (reach_ninv h).toDInv.acyclic n (lookup_path h hj hk)

theorem changeHp_other (h : Reach calls s) {v : AVec α} (hv : v.length = s.len) {n m : Name}
    (hn : n ∈ s.names) (hm : m ∈ s.names) (hne : m ≠ n) (hp : ¬ Path (ParentOf calls) n m) {x : α} :
    (changeHp A s v n x (s.idx n)).at (s.idx m) = v.at (s.idx m) := by
  rw [changeHp_eq, changeLoop_other h hm _ _ (by simp [hv]),
    at_set_ne (fun e => hne (idx_inj h hm hn e.symm))]
  intro j hj hk
  exact hp ((lookup_path h hj hk).mono (fun a b e => (reach_edge h a b).1 e))

theorem changeLoop_cons {j : Nat} {l : List Nat} {v : AVec α} {c : CNode} (hc : s.minConds[j]? = some c) :
    changeLoop A s (j :: l) v = changeLoop A s l (applyCNode A s v c) := by
  show changeLoop A s l (match s.minConds[j]? with
      | some c => applyCNode A s v c
      | none => v) = _
  rw [hc]

theorem applyCNode_sat (h : Reach calls s) {v : AVec α} (hv : v.length = s.len) {i : Nat} {c : CNode}
    (hc : s.minConds[i]? = some c) : satVec A s.idx (applyCNode A s v c) c.cond = satVec A s.idx v c.cond := by
  have hm := List.mem_of_getElem? hc
  refine satVec_congr ?_
  intro p hp
  rw [applyCNode_at h hv (kids_known h hm) (parents_known h hm p hp), if_neg]
  intro hk
  exact (reach_ninv h).toDInv.acyclic p (.edge (group_edge h ⟨c, hc, hp⟩ ⟨c, hc, hk⟩))

/-- If no node of the list feeds the condition, the loop does not change its truth. -/
theorem changeLoop_sat (h : Reach calls s) {v : AVec α} (hv : v.length = s.len) {i : Nat} {c : CNode}
    (hc : s.minConds[i]? = some c) {l : List Nat} (hl : ∀ j ∈ l, ¬ GEdge s.minConds j i) :
    satVec A s.idx (changeLoop A s l v) c.cond = satVec A s.idx v c.cond := by
  have hm := List.mem_of_getElem? hc
  refine satVec_congr ?_
  intro p hp
  refine changeLoop_other h (parents_known h hm p hp) l v hv ?_
  intro j hj hk
  exact hl j hj ⟨p, hk, c, hc, hp⟩

/-- After the loop over a closed list, the children of the visited nodes are set exactly if the condition holds,
and then by their old value or their default. -/
theorem changeLoop_closed (h : Reach calls s) : ∀ (l : List Nat) (v : AVec α), v.length = s.len → Closed s.minConds l →
    ∀ i ∈ l, ∀ c, s.minConds[i]? = some c → ∀ m ∈ c.kids,
      ((changeLoop A s l v).at (s.idx m)).isSome = satVec A s.idx (changeLoop A s l v) c.cond := by
  intro l
  induction l with
  | nil => intro v _ _ i hi; cases hi
  | cons x l ih =>
    intro v hv hcl i hi c hc m hm
    cases hx : s.minConds[x]? with
    | none =>
      have hstep : changeLoop A s (x :: l) v = changeLoop A s l v := by
        show changeLoop A s l (match s.minConds[x]? with
          | some c => applyCNode A s v c
          | none => v) = _
        rw [hx]
      rw [hstep]
      rcases List.mem_cons.1 hi with rfl | hi
      · rw [hx] at hc; cases hc
      · exact ih v hv hcl.2 i hi c hc m hm
    | some cx =>
      rw [changeLoop_cons hx]
      have hv' : (applyCNode A s v cx).length = s.len := by rw [applyCNode_length, hv]
      by_cases hil : i ∈ l
      · exact ih _ hv' hcl.2 i hil c hc m hm
      · have e : i = x := (List.mem_cons.1 hi).resolve_right hil
        subst e
        rw [hc] at hx; cases hx
        have hmem := List.mem_of_getElem? hc
        rw [changeLoop_sat h hv' hc (fun j hj e => hil (hcl.2.mem hj e)),
          changeLoop_other h (kids_known h hmem m hm) l _ hv', applyCNode_sat h hv hc,
          applyCNode_at h hv (kids_known h hmem) (kids_known h hmem m hm), if_pos hm]
        · by_cases hs : satVec A s.idx v c.cond = true
          · rw [if_pos hs, hs]
            by_cases hset : (v.at (s.idx m)).isSome = true
            · rw [if_pos hset]; exact hset
            · rw [if_neg hset]; exact defE_isSome h (kids_known h hmem m hm)
          · rw [if_neg hs]
            simp only [Bool.not_eq_true] at hs
            rw [hs]; rfl
        · intro j hj hk
          exact hil (kid_unique h hk ⟨c, hc, hm⟩ ▸ hj)

/-- Newly set entries are defaults or old values. -/
theorem changeLoop_values (h : Reach calls s) {m : Name} (hm : m ∈ s.names) : ∀ (l : List Nat) (v : AVec α),
    v.length = s.len →
    (changeLoop A s l v).at (s.idx m) = none ∨ (changeLoop A s l v).at (s.idx m) = v.at (s.idx m) ∨
      (changeLoop A s l v).at (s.idx m) = defE A s m := by
  intro l
  induction l with
  | nil => intro v _; exact .inr (.inl rfl)
  | cons x l ih =>
    intro v hv
    cases hx : s.minConds[x]? with
    | none =>
      have hstep : changeLoop A s (x :: l) v = changeLoop A s l v := by
        show changeLoop A s l (match s.minConds[x]? with
          | some c => applyCNode A s v c
          | none => v) = _
        rw [hx]
      rw [hstep]
      exact ih v hv
    | some c =>
      rw [changeLoop_cons hx]
      have hv' : (applyCNode A s v c).length = s.len := by rw [applyCNode_length, hv]
      rcases ih _ hv' with k | k | k
      · exact .inl k
      · rw [k, applyCNode_at h hv (kids_known h (List.mem_of_getElem? hx)) hm]
        by_cases hmk : m ∈ c.kids
        · rw [if_pos hmk]
          by_cases hs : satVec A s.idx v c.cond = true
          · rw [if_pos hs]
            by_cases hset : (v.at (s.idx m)).isSome = true
            · rw [if_pos hset]; exact .inr (.inl rfl)
            · rw [if_neg hset]; exact .inr (.inr rfl)
          · rw [if_neg hs]; exact .inl rfl
        · rw [if_neg hmk]; exact .inr (.inl rfl)
      · exact .inr (.inr k)

/-- With an order in which no node comes after what depends on it, values that stay active are kept. -/
theorem changeLoop_noBack (h : Reach calls s) : ∀ (l : List Nat) (v : AVec α), v.length = s.len → NoBack s.minConds l →
    ∀ i ∈ l, ∀ c, s.minConds[i]? = some c → ∀ m ∈ c.kids,
      (changeLoop A s l v).at (s.idx m) = if satVec A s.idx (changeLoop A s l v) c.cond then
        if (v.at (s.idx m)).isSome then v.at (s.idx m) else defE A s m else none := by
  intro l
  induction l with
  | nil => intro v _ _ i hi; cases hi
  | cons x l ih =>
    intro v hv hcl i hi c hc m hm
    cases hx : s.minConds[x]? with
    | none =>
      have hstep : changeLoop A s (x :: l) v = changeLoop A s l v := by
        show changeLoop A s l (match s.minConds[x]? with
          | some c => applyCNode A s v c
          | none => v) = _
        rw [hx]
      rw [hstep]
      rcases List.mem_cons.1 hi with rfl | hi
      · rw [hx] at hc; cases hc
      · exact ih v hv hcl.2 i hi c hc m hm
    | some cx =>
      rw [changeLoop_cons hx]
      have hv' : (applyCNode A s v cx).length = s.len := by rw [applyCNode_length, hv]
      have hmem := List.mem_of_getElem? hc
      have hxmem := List.mem_of_getElem? hx
      by_cases hil : i ∈ l
      · rw [ih _ hv' hcl.2 i hil c hc m hm,
          applyCNode_at h hv (kids_known h hxmem) (kids_known h hmem m hm)]
        by_cases hmk : m ∈ cx.kids
        · have e := kid_unique h (i := x) (j := i) ⟨cx, hx, hmk⟩ ⟨c, hc, hm⟩
          subst e
          rw [hc] at hx; cases hx
          rw [changeLoop_sat h hv' hc hcl.1, applyCNode_sat h hv hc, if_pos hm]
          by_cases hs : satVec A s.idx v c.cond = true
          · simp only [if_pos hs]
            by_cases hset : (v.at (s.idx m)).isSome = true
            · simp only [if_pos hset]
            · simp only [if_neg hset]; simp [Option.isSome]
          · simp only [if_neg hs]
        · rw [if_neg hmk]
      · have e : i = x := (List.mem_cons.1 hi).resolve_right hil
        subst e
        rw [hc] at hx; cases hx
        rw [changeLoop_sat h hv' hc hcl.1, applyCNode_sat h hv hc,
          changeLoop_other h (kids_known h hmem m hm) l _ hv',
          applyCNode_at h hv (kids_known h hmem) (kids_known h hmem m hm), if_pos hm]
        intro j hj hk
        exact hil (kid_unique h hk ⟨c, hc, hm⟩ ▸ hj)
theorem change_unlisted (h : Reach calls s) (hw : WeaklyLayered calls) {v : AVec α} (hv : v.length = s.len)
    {n : Name} (hn : n ∈ s.names) {x : α} {i : Nat} {c : CNode} (hc : s.minConds[i]? = some c)
    (hi : i ∉ (s.lookup.lookup n).getD []) :
    satVec A s.idx (changeHp A s v n x (s.idx n)) c.cond = satVec A s.idx v c.cond ∧
    ∀ m ∈ c.kids, m ≠ n → (changeHp A s v n x (s.idx n)).at (s.idx m) = v.at (s.idx m) := by
  have hmem := List.mem_of_getElem? hc
  have hv' : (v.set (s.idx n) (some x)).length = s.len := by simp [hv]
  constructor
  · rw [changeHp_eq, changeLoop_sat h hv' hc]
    · refine satVec_congr ?_
      intro p hp
      refine at_set_ne ?_
      intro e
      have := idx_inj h hn (parents_known h hmem p hp) e
      subst this
      exact hi ((lookup_iff h hw).2 ⟨i, ⟨c, hc, hp⟩, .inl rfl⟩)
    · intro j hj e
      exact hi ((lookup_closed h hw n).mem hj e)
  · intro m hm hne
    have hmn := kids_known h hmem m hm
    rw [changeHp_eq, changeLoop_other h hmn _ _ hv', at_set_ne (fun e => hne (idx_inj h hmn hn e.symm))]
    intro j hj hk
    exact hi (kid_unique h hk ⟨c, hc, hm⟩ ▸ hj)

theorem changeHp_length {v : AVec α} {n : Name} {x : α} {i : Nat} : (changeHp A s v n x i).length = v.length := by
  rw [changeHp_eq, changeLoop_length, List.length_set]

theorem changeHp_activity (h : Reach calls s) (hsep : Separable A calls) (hw : WeaklyLayered calls) {v : AVec α}
    {a : Entries α} (hv : Represents s v a) (ha : ActivityOk A calls a) {n : Name} (hn : n ∈ s.names)
    (hset : ∃ q, a n = some q) (x : α) :
    ActivityOk A calls (asg s.idx (changeHp A s v n x (s.idx n))) := by
  have hlen : (changeHp A s v n x (s.idx n)).length = s.len := by rw [changeHp_length]; exact hv.1
  rw [activity_iff h hsep (represents_asg h hlen)]
  rw [activity_iff h hsep hv] at ha
  intro i c hc m hm
  by_cases hi : i ∈ (s.lookup.lookup n).getD []
  · rw [changeHp_eq]
    exact changeLoop_closed h _ _ (by simp [hv.1]) (lookup_closed h hw n) i hi c hc m hm
  · obtain ⟨h1, h2⟩ := change_unlisted h hw hv.1 hn (x := x) hc hi
    rw [h1, ← ha i c hc m hm]
    by_cases e : m = n
    · subst e
      rw [changeHp_at h hv.1 hn, at_idx hv hn]
      obtain ⟨q, hq⟩ := hset
      rw [hq]; rfl
    · rw [h2 m hm e]

end Verif.AnyNum
