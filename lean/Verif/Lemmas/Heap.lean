import Verif.Spec.Heap
import Verif.Lemmas.Change
import Verif.Props.Config

/-!
# Arrays and worlds of configurations
-/

set_option autoImplicit false

namespace Verif

open Verif.Spec

variable {calls : List Call} {s : Space}

/-! ## Arrays of doubles behave like vectors -/

theorem put_len (a : Arr) (i : Nat) (e : NV) : (a.put i e).data.length = a.data.length := by
  unfold Arr.put; split <;> simp

theorem put_dt (a : Arr) (i : Nat) (e : NV) : (a.put i e).dt = a.dt := by
  unfold Arr.put; split <;> simp

theorem put_float {a : Arr} (h : a.dt = .float) (i : Nat) (e : NV) : a.put i e = ⟨.float, a.data.set i e⟩ := by
  obtain ⟨dt, d⟩ := a; cases h; rfl

theorem foldl_put {β : Type} {f : Vec → β → Vec} {g : Arr → β → Arr} (hfg : ∀ v x, g ⟨.float, v⟩ x = ⟨.float, f v x⟩) :
    ∀ (l : List β) (v : Vec), l.foldl g ⟨.float, v⟩ = ⟨.float, l.foldl f v⟩ := by
  intro l
  induction l with
  | nil => intro v; rfl
  | cons x xs ih => intro v; rw [List.foldl_cons, List.foldl_cons, hfg, ih]

theorem applyCNodeA_float (v : Vec) (c : CNode) : applyCNodeA s ⟨.float, v⟩ c = ⟨.float, applyCNode s v c⟩ := by
  unfold applyCNodeA applyCNode
  dsimp only
  by_cases h : c.cond.satVec s.idx v = true
  · rw [if_pos h, if_pos h]
    refine foldl_put (fun u n => ?_) _ _
    by_cases e : isSet (v.at (s.idx n)) = true
    · rw [if_pos e, if_pos e]
    · rw [if_neg e, if_neg e]; rfl
  · rw [if_neg h, if_neg h]
    exact foldl_put (fun u n => rfl) _ _

theorem changeHpA_float (v : Vec) (n : Name) (x : Rat) (i : Nat) :
    s.changeHpA ⟨.float, v⟩ n x i = ⟨.float, s.changeHp v n x i⟩ := by
  unfold Space.changeHpA Space.changeHp
  rw [put_float rfl]
  refine foldl_put (fun u j => ?_) _ _
  cases s.minConds[j]? with
  | none => rfl
  | some c => exact applyCNodeA_float u c

/-! ## Arrays of any kind -/

theorem foldl_arr {β : Type} {g : Arr → β → Arr} (P : Arr → Prop) (hg : ∀ a x, P a → P (g a x)) :
    ∀ (l : List β) (a : Arr), P a → P (l.foldl g a) := by
  intro l
  induction l with
  | nil => intro a h; exact h
  | cons x xs ih => intro a h; exact ih _ (hg a x h)

theorem applyCNodeA_shape (a : Arr) (c : CNode) :
    (applyCNodeA s a c).data.length = a.data.length ∧ (applyCNodeA s a c).dt = a.dt := by
  unfold applyCNodeA
  split
  · refine foldl_arr (fun b => b.data.length = a.data.length ∧ b.dt = a.dt) (fun b n hb => ?_) _ _ ⟨rfl, rfl⟩
    split
    · exact hb
    · exact ⟨(put_len _ _ _).trans hb.1, (put_dt _ _ _).trans hb.2⟩
  · exact foldl_arr (fun b => b.data.length = a.data.length ∧ b.dt = a.dt)
      (fun b n hb => ⟨(put_len _ _ _).trans hb.1, (put_dt _ _ _).trans hb.2⟩) _ _ ⟨rfl, rfl⟩

theorem changeHpA_shape (a : Arr) (n : Name) (x : Rat) (i : Nat) :
    (s.changeHpA a n x i).data.length = a.data.length ∧ (s.changeHpA a n x i).dt = a.dt := by
  unfold Space.changeHpA
  refine foldl_arr (fun b => b.data.length = a.data.length ∧ b.dt = a.dt) (fun b j hb => ?_) _ _ ⟨put_len _ _ _, put_dt _ _ _⟩
  cases s.minConds[j]? with
  | none => exact hb
  | some c => exact ⟨(applyCNodeA_shape b c).1.trans hb.1, (applyCNodeA_shape b c).2.trans hb.2⟩

theorem put_at_ne {a : Arr} {i j : Nat} (h : i ≠ j) (e : NV) : (a.put i e).data.at j = a.data.at j := by
  unfold Arr.put; split <;> exact at_set_ne h

theorem applyCNodeA_other (h : Reach calls s) {a : Arr} {c : CNode} (hk : ∀ n ∈ c.kids, n ∈ s.names) {m : Name}
    (hm : m ∈ s.names) (hmk : m ∉ c.kids) : (applyCNodeA s a c).data.at (s.idx m) = a.data.at (s.idx m) := by
  have key : ∀ (l : List Name) (f : Arr → Name → Arr), (∀ n ∈ l, ∀ b, (f b n).data.at (s.idx m) = b.data.at (s.idx m)) →
      ∀ b : Arr, (l.foldl f b).data.at (s.idx m) = b.data.at (s.idx m) := by
    intro l f
    induction l with
    | nil => intro _ b; rfl
    | cons n l ih =>
      intro hf b
      rw [List.foldl_cons, ih (fun k hk => hf k (List.mem_cons_of_mem _ hk)), hf n List.mem_cons_self]
  have hne : ∀ n ∈ c.kids, s.idx n ≠ s.idx m := fun n hn e => hmk ((idx_inj h (hk n hn) hm e) ▸ hn)
  unfold applyCNodeA
  split
  · refine key _ _ (fun n hn b => ?_) a
    split
    · rfl
    · exact put_at_ne (hne n hn) _
  · exact key _ _ (fun n hn b => put_at_ne (hne n hn) _) a

theorem changeHpA_at (h : Reach calls s) (a : Arr) {n : Name} (hn : n ∈ s.names) (x : Rat) :
    (s.changeHpA a n x (s.idx n)).data.at (s.idx n) = (a.put (s.idx n) (some x)).data.at (s.idx n) := by
  have key : ∀ (l : List Nat), (∀ j ∈ l, ¬ KidOf s.minConds j n) → ∀ b : Arr,
      (l.foldl (fun acc j => match s.minConds[j]? with
        | some c => applyCNodeA s acc c
        | none => acc) b).data.at (s.idx n) = b.data.at (s.idx n) := by
    intro l
    induction l with
    | nil => intro _ b; rfl
    | cons j l ih =>
      intro hl b
      rw [List.foldl_cons, ih (fun i hi => hl i (List.mem_cons_of_mem _ hi))]
      cases hc : s.minConds[j]? with
      | none => rfl
      | some c =>
        exact applyCNodeA_other h (kids_known h (List.mem_of_getElem? hc)) hn (fun hk => hl j List.mem_cons_self ⟨c, hc, hk⟩)
  exact key _ (fun j hj hk => (reach_ninv h).toDInv.acyclic n (lookup_path h hj hk)) _

/-! ## Worlds -/

/-- The reference of every configuration leads to an array of the length of the space. -/
def Memory.Ok (s : Space) (w : Memory) : Prop :=
  ∀ k ∈ w.cfgs, ∃ a, w.arrs[k.ref]? = some a ∧ a.data.length = s.len

theorem Ok.append {w : Memory} (h : w.Ok s) (a : Arr) (cs : List CfgObj)
    (hc : ∀ k ∈ cs, ∃ b, (w.arrs ++ [a])[k.ref]? = some b ∧ b.data.length = s.len) :
    Memory.Ok s { arrs := w.arrs ++ [a], cfgs := w.cfgs ++ cs } := by
  intro k hk
  rcases List.mem_append.1 hk with hk | hk
  · obtain ⟨b, h1, h2⟩ := h k hk
    exact ⟨b, by
      show (w.arrs ++ [a])[k.ref]? = _
      rw [List.getElem?_append_left (List.getElem?_eq_some_iff.1 h1).1]; exact h1, h2⟩
  · exact hc k hk

theorem ok_fresh {w : Memory} (h : w.Ok s) {a : Arr} (ha : a.data.length = s.len) (vals : Option (List (Name × Val))) (al : Bool) :
    (w.fresh a vals al).Ok s := by
  refine Ok.append h a _ (fun k hk => ?_)
  rcases List.mem_singleton.1 hk with rfl
  exact ⟨a, by simp, ha⟩

theorem ok_write {w : Memory} (h : w.Ok s) (r i : Nat) (e : NV) : (w.write r i e).1.Ok s := by
  unfold Memory.write
  cases ha : w.arrs[r]? with
  | none => exact h
  | some a =>
    dsimp only
    split
    · exact h
    · split
      · exact h
      · intro k hk
        obtain ⟨b, h1, h2⟩ := h k hk
        by_cases e : r = k.ref
        · subst e
          rw [ha] at h1; cases h1
          exact ⟨_, by
            show (w.arrs.set k.ref _)[k.ref]? = _
            rw [List.getElem?_set_self (List.getElem?_eq_some_iff.1 ha).1], by rw [put_len]; exact h2⟩
        · exact ⟨b, by show (w.arrs.set r _)[k.ref]? = _; rw [List.getElem?_set_ne e]; exact h1, h2⟩

theorem ok_setItem {w : Memory} (h : w.Ok s) (c : Nat) (n : Name) (v : Val) : (w.setItem s c n v).1.Ok s := by
  unfold Memory.setItem
  cases ho : w.cfgs[c]? with
  | none => exact h
  | some o =>
    dsimp only
    cases ha : w.arrs[o.ref]? with
    | none => exact h
    | some a =>
      dsimp only
      cases findNode s.dag.nodes n with
      | none => exact h
      | some x =>
        dsimp only
        split
        · exact h
        · cases x.hp.kind.toVec v with
          | none => exact h
          | some q =>
            dsimp only
            cases s.check (s.changeHpA a n q (s.idx n)).data with
            | some e => exact h
            | none =>
              dsimp only
              intro k hk
              obtain ⟨b, h1, h2⟩ := h o (List.mem_of_getElem? ho)
              rw [ha] at h1; cases h1
              rcases List.mem_or_eq_of_mem_set hk with hk | rfl
              · obtain ⟨b', h1', h2'⟩ := h k hk
                exact ⟨b', by
                  show (w.arrs ++ [_])[k.ref]? = _
                  rw [List.getElem?_append_left (List.getElem?_eq_some_iff.1 h1').1]; exact h1', h2'⟩
              · exact ⟨s.changeHpA a n q (s.idx n), by simp, (changeHpA_shape a n q _).1.trans h2⟩

theorem ok_getItem {w : Memory} (h : w.Ok s) (c : Nat) (n : Name) : (w.getItem s c n).1.Ok s := by
  unfold Memory.getItem
  cases ho : w.cfgs[c]? with
  | none => exact h
  | some o =>
    cases hk : w.cfg? c with
    | none => exact h
    | some k =>
      dsimp only
      cases k.getItem s n with
      | mk r k' =>
        cases r with
        | error e => exact h
        | ok v =>
          intro j hj
          rcases List.mem_or_eq_of_mem_set hj with hj | rfl
          · exact h j hj
          · exact h o (List.mem_of_getElem? ho)

theorem ok_step {w : Memory} (hs : Reach calls s) (h : w.Ok s) (o : Op) : (w.step s o).1.Ok s := by
  cases o with
  | array a =>
    show Memory.Ok s { arrs := w.arrs ++ [a], cfgs := w.cfgs }
    have := Ok.append h a [] (by simp)
    rwa [List.append_nil] at this
  | write r i e => exact ok_write h r i e
  | ofArray r al =>
    show Memory.Ok s (Prod.fst (match w.arrs[r]? with | none => _ | some a => _))
    cases ha : w.arrs[r]? with
    | none => exact h
    | some a =>
      dsimp only
      split
      · exact h
      · rename_i hl
        intro k hk
        rcases List.mem_append.1 hk with hk | hk
        · exact h k hk
        · rcases List.mem_singleton.1 hk with rfl
          exact ⟨a, ha, by simpa using hl⟩
  | ofList v al =>
    show Memory.Ok s (Prod.fst (if v.length ≠ s.len then _ else _))
    split
    · exact h
    · rename_i hl
      exact ok_fresh h (by simpa using hl) _ _
  | ofColumn a al =>
    show Memory.Ok s (Prod.fst (if a.data.length ≠ s.len then _ else _))
    split
    · exact h
    · rename_i hl
      exact ok_fresh h (by simpa using hl) _ _
  | ofValues d al =>
    show Memory.Ok s (Prod.fst (match Config.ofValues s d al with | .error e => _ | .ok c => _))
    cases hc : Config.ofValues s d al with
    | error e => exact h
    | ok c => exact ok_fresh h (cacheOk hs (.values hc)).len _ _
  | set c n v => exact ok_setItem h c n v
  | get c n => exact ok_getItem h c n

theorem ok_run (hs : Reach calls s) : ∀ (ops : List Op) {w : Memory}, w.Ok s → (w.run s ops).Ok s := by
  intro ops
  induction ops with
  | nil => intro w h; exact h
  | cons o os ih => intro w h; exact ih (ok_step hs h o)

theorem ok_program (hs : Reach calls s) (ops : List Op) : (Memory.run s {} ops).Ok s :=
  ok_run hs ops (fun k hk => by cases hk)

end Verif
