import Verif.Lemmas.Check

/-!
# Building configurations from dictionaries
-/

set_option autoImplicit false

namespace Verif
open Verif.Spec

theorem at_set_eq {v : Vec} {i : Nat} {e : NV} (h : i < v.length) : Vec.at (v.set i e) i = e := by
  simp [Vec.at, h]

theorem at_set_ne {v : Vec} {i j : Nat} {e : NV} (h : i ≠ j) : Vec.at (v.set i e) j = v.at j := by
  simp [Vec.at, List.getElem?_set_ne h]

theorem lookup_append_some {β : Type} {d e : List (Name × β)} {k : Name} {v : β}
    (h : d.lookup k = some v) : (d ++ e).lookup k = some v := by
  rw [List.lookup_append, h]; rfl

theorem lookup_append_none {β : Type} {d e : List (Name × β)} {k : Name}
    (h : d.lookup k = none) : (d ++ e).lookup k = e.lookup k := by
  rw [List.lookup_append, h]; rfl

/-- What `Configuration(values=...)` does with one hyperparameter. -/
def Filled (d : Dict) (x : Node) (e : NV) (o : Option Val) : Prop :=
  (∃ w q, d.lookup x.name = some (some w) ∧ x.hp.kind.legalValue w = true ∧
    x.hp.kind.toVec (roundVal x.hp.kind w) = some q ∧ e = some q ∧ o = some (roundVal x.hp.kind w)) ∨
  ((d.lookup x.name = none ∨ d.lookup x.name = some none) ∧ e = none ∧ o = none)

theorem fillValues_spec {s : Space} {d : Dict} : ∀ {xs : List Node} {v v' : Vec}
    {vals vals' : List (Name × Val)}, fillValues s d xs v vals = .ok (v', vals') →
    (xs.map (fun x => s.idx x.name)).Nodup → (xs.map Node.name).Nodup →
    (∀ x ∈ xs, s.idx x.name < v.length) → (∀ x ∈ xs, vals.lookup x.name = none) →
    v'.length = v.length ∧
    (∀ x ∈ xs, Filled d x (v'.at (s.idx x.name)) (vals'.lookup x.name)) ∧
    (∀ i, i ∉ xs.map (fun x => s.idx x.name) → v'.at i = v.at i) ∧
    (∀ n, n ∉ xs.map Node.name → vals'.lookup n = vals.lookup n) := by
  intro xs
  induction xs with
  | nil =>
    intro v v' vals vals' h _ _ _ _
    simp only [fillValues, Except.ok.injEq, Prod.mk.injEq] at h
    obtain ⟨rfl, rfl⟩ := h
    simp
  | cons x xs ih =>
    intro v v' vals vals' h hni hnn hlen hvals
    simp only [List.map_cons, List.nodup_cons] at hni hnn
    have hxl := hlen x (by simp)
    -- the two ways in which the loop goes on
    have step : ∀ (e : NV) (vals1 : List (Name × Val)),
        fillValues s d xs (v.set (s.idx x.name) e) vals1 = .ok (v', vals') →
        (∀ n, n ≠ x.name → vals1.lookup n = vals.lookup n) →
        Filled d x e (vals1.lookup x.name) →
        v'.length = v.length ∧
        (∀ y ∈ x :: xs, Filled d y (v'.at (s.idx y.name)) (vals'.lookup y.name)) ∧
        (∀ i, i ∉ (x :: xs).map (fun x => s.idx x.name) → v'.at i = v.at i) ∧
        (∀ n, n ∉ (x :: xs).map Node.name → vals'.lookup n = vals.lookup n) := by
      intro e vals1 hf hv1 hfx
      obtain ⟨h1, h2, h3, h4⟩ := ih hf hni.2 hnn.2
        (fun y hy => by rw [List.length_set]; exact hlen y (by simp [hy]))
        (fun y hy => by
          rw [hv1 y.name]
          · exact hvals y (by simp [hy])
          · intro e; exact hnn.1 (e ▸ List.mem_map.2 ⟨y, hy, rfl⟩))
      refine ⟨by rw [h1, List.length_set], ?_, ?_, ?_⟩
      · intro y hy
        rcases List.mem_cons.1 hy with rfl | hy
        · rw [h3 _ hni.1, at_set_eq hxl, h4 _ hnn.1]
          exact hfx
        · exact h2 y hy
      · intro i hi
        simp only [List.map_cons, List.mem_cons, not_or] at hi
        rw [h3 i hi.2, at_set_ne (fun e => hi.1 e.symm)]
      · intro n hn
        simp only [List.map_cons, List.mem_cons, not_or] at hn
        rw [h4 n hn.2, hv1 n hn.1]
    unfold fillValues at h
    cases hd : d.lookup x.name with
    | none =>
      simp only [hd] at h
      exact step none vals h (fun _ _ => rfl) (.inr ⟨.inl hd, rfl, hvals x (by simp)⟩)
    | some o =>
      cases o with
      | none =>
        simp only [hd] at h
        exact step none vals h (fun _ _ => rfl) (.inr ⟨.inr hd, rfl, hvals x (by simp)⟩)
      | some w =>
        simp only [hd] at h
        by_cases hl : x.hp.kind.legalValue w = true
        · simp only [hl, Bool.not_true, Bool.false_eq_true, if_false] at h
          cases hq : x.hp.kind.toVec (roundVal x.hp.kind w) with
          | none => simp [hq] at h
          | some q =>
            simp only [hq] at h
            refine step (some q) _ h ?_ (.inl ⟨w, q, hd, hl, hq, rfl, ?_⟩)
            · intro n hn
              cases hvn : vals.lookup n with
              | some w' => exact lookup_append_some hvn
              | none =>
                rw [lookup_append_none hvn]
                simp only [List.lookup_cons]
                have : (n == x.name) = false := by simpa using hn
                simp [this]
            · rw [lookup_append_none (hvals x (by simp))]
              simp
        · simp [hl] at h

variable {calls : List Call} {s : Space}

theorem idx_nodup (h : Reach calls s) : (s.com.map (fun x => s.idx x.name)).Nodup := by
  have hn := (reach_ninv h).nodup
  have : s.com.map (fun x => s.idx x.name) = (namesOf s.com).map (fun n => (namesOf s.com).idxOf n) := by
    simp [namesOf, Space.idx, idxOf]
  rw [this]
  unfold List.Nodup at hn ⊢
  rw [List.pairwise_map]
  refine hn.imp_of_mem ?_
  intro a b ha hb hne e
  have h1 := (idx_spec ha).1
  have h2 := (idx_spec hb).1
  unfold At idxOf at h1 h2
  rw [show List.idxOf a (List.map Node.name s.com) = List.idxOf b (List.map Node.name s.com) from e] at h1
  rw [h1] at h2
  exact hne (Option.some.inj h2)

theorem idx_lt (h : Reach calls s) {n : Name} (hn : n ∈ s.names) : s.idx n < s.len := by
  have hi := sinv_of_reach h
  rw [hi.len]
  have := List.idxOf_lt_length_of_mem hn
  simpa [Space.idx, idxOf, Space.names] using this

/-- What a successful `Configuration(space, values=...)` is made of. -/
theorem ofValues_ok (h : Reach calls s) {d : Dict} {al : Bool} {c : Config} (hc : Config.ofValues s d al = .ok c) :
    s.check c.vec al = none ∧ c.vec.length = s.len ∧ c.allow = al ∧
    (∀ kv ∈ d, kv.1 ∈ s.names ∨ kv.1 = "") ∧
    ∃ vals, c.vals = some vals ∧ (∀ n, n ∉ s.names → vals.lookup n = none) ∧
      ∀ x ∈ s.com, Filled d x (c.vec.at (s.idx x.name)) (vals.lookup x.name) := by
  have hi := sinv_of_reach h
  have hn := reach_ninv h
  unfold Config.ofValues at hc
  split at hc
  · cases hc
  · rename_i hunk
    split at hc
    · cases hc
    · rename_i v vals hf
      split at hc
      · cases hc
      · rename_i hchk
        cases hc
        obtain ⟨h1, h2, h3, h4⟩ := fillValues_spec hf (by rw [hi.com]; exact idx_nodup h)
          (by rw [hi.com]; exact hn.nodup)
          (by
            intro x hx
            rw [List.length_replicate]
            rw [hi.com] at hx
            exact idx_lt h (mem_names hx))
          (by simp)
        refine ⟨hchk, by simpa using h1, rfl, ?_, vals, rfl, ?_, ?_⟩
        · intro kv hkv
          simp only [List.any_eq_true, Bool.and_eq_true, decide_eq_true_eq, not_exists, not_and] at hunk
          have := hunk kv hkv
          by_cases hm : kv.1 ∈ s.names
          · exact .inl hm
          · rw [hi.com] at this
            have := this hm
            exact .inr (by simpa using this)
        · intro n hnn
          rw [hi.com] at h4
          simpa using h4 n hnn
        · rw [hi.com] at h2
          exact h2

end Verif
