import Verif.Lemmas.Lookup
import Verif.Lemmas.Config

/-!
# One step of `change_hp_value`
-/

set_option autoImplicit false

namespace Verif
open Verif.Spec

theorem length_foldl_set {β : Type} {f : Vec → β → Vec} (hf : ∀ v x, (f v x).length = v.length) :
    ∀ (l : List β) (v : Vec), (l.foldl f v).length = v.length := by
  intro l
  induction l with
  | nil => intro v; rfl
  | cons x xs ih => intro v; rw [List.foldl_cons, ih, hf]

theorem applyCNode_length {s : Space} {v : Vec} {c : CNode} : (applyCNode s v c).length = v.length := by
  unfold applyCNode
  split
  · exact length_foldl_set (by intro v x; split <;> simp) _ _
  · exact length_foldl_set (by simp) _ _

variable {calls : List Call} {s : Space}

theorem idx_inj (h : Reach calls s) {a b : Name} (ha : a ∈ s.names) (hb : b ∈ s.names)
    (e : s.idx a = s.idx b) : a = b := by
  have h1 := (idx_spec ha).1
  have h2 := (idx_spec hb).1
  rw [show idxOf s.com a = idxOf s.com b from e] at h1
  rw [h1] at h2
  exact Option.some.inj h2

/-- The entry of the default vector. -/
def defAt (s : Space) (n : Name) : Rat := (defaultVecs s.com).getD (s.idx n) 0

theorem fold_set_at (h : Reach calls s) (g : Name → Option NV) : ∀ (l : List Name) (v : Vec),
    (∀ n ∈ l, n ∈ s.names) → v.length = s.len → ∀ {m : Name}, m ∈ s.names →
    Vec.at (l.foldl (fun acc n => match g n with
      | some e => acc.set (s.idx n) e
      | none => acc) v) (s.idx m) = if m ∈ l then (g m).getD (v.at (s.idx m)) else v.at (s.idx m) := by
  intro l
  induction l with
  | nil => intro v _ _ m _; simp
  | cons n l ih =>
    intro v hl hv m hm
    rw [List.foldl_cons]
    have hn := hl n (by simp)
    have hlen : ∀ e : NV, (v.set (s.idx n) e).length = s.len := by intro e; simp [hv]
    cases hg : g n with
    | none =>
      simp only [hg]
      rw [ih v (fun k hk => hl k (by simp [hk])) hv hm]
      by_cases e : m = n
      · subst e; simp [hg]
      · simp [e]
    | some e =>
      simp only [hg]
      rw [ih _ (fun k hk => hl k (by simp [hk])) (hlen e) hm]
      by_cases em : m = n
      · subst em
        rw [at_set_eq (by rw [hv]; exact idx_lt h hn)]
        simp [hg]
      · have : s.idx n ≠ s.idx m := fun k => em (idx_inj h hm hn k.symm)
        rw [at_set_ne this]
        simp [em]

/-- One condition node of `change_hp_value`. -/
theorem applyCNode_at (h : Reach calls s) {v : Vec} (hv : v.length = s.len) {c : CNode}
    (hk : ∀ n ∈ c.kids, n ∈ s.names) {m : Name} (hm : m ∈ s.names) :
    (applyCNode s v c).at (s.idx m) =
      if m ∈ c.kids then
        if c.cond.satVec s.idx v then
          if isSet (v.at (s.idx m)) then v.at (s.idx m) else some (defAt s m)
        else none
      else v.at (s.idx m) := by
  unfold applyCNode
  by_cases hs : c.cond.satVec s.idx v = true
  · rw [if_pos hs]
    have := fold_set_at h (fun n => if isSet (v.at (s.idx n)) then none else some (some (defAt s n))) c.kids v hk
      hv hm
    have hfun : (fun (acc : Vec) (n : Name) => if isSet (v.at (s.idx n)) then acc
        else acc.set (s.idx n) (some ((defaultVecs s.com).getD (s.idx n) 0))) =
      (fun acc n => match (if isSet (v.at (s.idx n)) then none else some (some (defAt s n)) : Option NV) with
      | some e => acc.set (s.idx n) e
      | none => acc) := by
      funext acc n
      by_cases e : isSet (v.at (s.idx n)) = true
      · simp [e]
      · simp [e, defAt]
    rw [hfun, this]
    by_cases hmk : m ∈ c.kids
    · rw [if_pos hmk, if_pos hmk, if_pos hs]
      by_cases e : isSet (v.at (s.idx m)) = true
      · simp [e]
      · simp [e]
    · rw [if_neg hmk, if_neg hmk]
  · rw [if_neg hs]
    have := fold_set_at h (fun _ => some none) c.kids v hk hv hm
    simp only [Option.getD_some] at this
    rw [this]
    by_cases hmk : m ∈ c.kids
    · rw [if_pos hmk, if_pos hmk, if_neg hs]
    · rw [if_neg hmk, if_neg hmk]

theorem kids_known (h : Reach calls s) {c : CNode} (hc : c ∈ s.minConds) : ∀ n ∈ c.kids, n ∈ s.names := by
  intro n hn
  have hi := sinv_of_reach h
  have hg := groupsOk_sorted s.com
  rw [← hi.mins] at hg
  obtain ⟨x, hx, rfl, _⟩ := hg.members c hc n hn
  exact mem_names hx

/-- The loop of `change_hp_value`. -/
def changeLoop (s : Space) (l : List Nat) (v : Vec) : Vec :=
  l.foldl (fun acc j => match s.minConds[j]? with
    | some c => applyCNode s acc c
    | none => acc) v

theorem changeLoop_length {l : List Nat} {v : Vec} : (changeLoop s l v).length = v.length := by
  unfold changeLoop
  exact length_foldl_set (by intro v x; split <;> simp [applyCNode_length]) _ _

/-- The loop does not touch names that are no children of the nodes it visits. -/
theorem changeLoop_other (h : Reach calls s) {m : Name} (hm : m ∈ s.names) : ∀ (l : List Nat) (v : Vec),
    v.length = s.len → (∀ j ∈ l, ¬ KidOf s.minConds j m) →
    (changeLoop s l v).at (s.idx m) = v.at (s.idx m) := by
  intro l
  induction l with
  | nil => intro v _ _; rfl
  | cons j l ih =>
    intro v hv hl
    have hstep : changeLoop s (j :: l) v = changeLoop s l (match s.minConds[j]? with
      | some c => applyCNode s v c
      | none => v) := rfl
    rw [hstep]
    cases hc : s.minConds[j]? with
    | none => exact ih v hv (fun i hi => hl i (by simp [hi]))
    | some c =>
      rw [ih _ (by rw [applyCNode_length, hv]) (fun i hi => hl i (by simp [hi]))]
      rw [applyCNode_at h hv (kids_known h (List.mem_of_getElem? hc)) hm, if_neg]
      intro hk
      exact hl j (by simp) ⟨c, hc, hk⟩

theorem changeHp_eq (v : Vec) (n : Name) (x : Rat) (i : Nat) :
    s.changeHp v n x i = changeLoop s ((s.lookup.lookup n).getD []) (v.set i (some x)) := rfl

/-- Changing a value leaves the value itself in place, and everything that does not depend on it. -/
theorem changeHp_at (h : Reach calls s) {v : Vec} (hv : v.length = s.len) {n : Name} (hn : n ∈ s.names)
    {x : Rat} : (s.changeHp v n x (s.idx n)).at (s.idx n) = some x := by
  rw [changeHp_eq, changeLoop_other h hn _ _ (by simp [hv]), at_set_eq (by rw [hv]; exact idx_lt h hn)]
  intro j hj hk
  exact (reach_ninv h).toDInv.acyclic n (lookup_path h hj hk)

theorem changeHp_other (h : Reach calls s) {v : Vec} (hv : v.length = s.len) {n m : Name}
    (hn : n ∈ s.names) (hm : m ∈ s.names) (hne : m ≠ n) (hp : ¬ Path (ParentOf calls) n m) {x : Rat} :
    (s.changeHp v n x (s.idx n)).at (s.idx m) = v.at (s.idx m) := by
  rw [changeHp_eq, changeLoop_other h hm _ _ (by simp [hv]),
    at_set_ne (fun e => hne (idx_inj h hm hn e.symm))]
  intro j hj hk
  exact hp ((lookup_path h hj hk).mono (fun a b e => (reach_edge h a b).1 e))

end Verif
