import Verif.Lemmas.Deactivate
import Verif.Model.RandomNeighbor

/-!
# The random neighbour
-/

set_option autoImplicit false

namespace Verif
open Verif.Spec

variable {calls : List Call} {s : Space}

theorem items_ok {c : Config} : ∀ {ns : List Name} {d : Dict}, c.items s ns = .ok d →
    (∀ n ∈ ns, ∃ w, (c.getItem s n).1 = .ok w ∧ d.lookup n = some (some w)) ∧
    (∀ n, n ∉ ns → d.lookup n = none) ∧ ∀ kv ∈ d, kv.1 ∈ ns := by
  intro ns
  induction ns with
  | nil => intro d h; simp only [Config.items, Except.ok.injEq] at h; subst h; simp
  | cons m ms ih =>
    intro d h
    simp only [Config.items] at h
    cases hg : (c.getItem s m).1 with
    | error e => rw [hg] at h; cases h
    | ok w =>
      rw [hg] at h
      cases hi : c.items s ms with
      | error e => rw [hi] at h; cases h
      | ok d' =>
        rw [hi] at h
        simp only [Except.ok.injEq] at h
        subst h
        obtain ⟨i1, i2, i3⟩ := ih hi
        refine ⟨?_, ?_, ?_⟩
        · intro n hn
          rw [List.lookup_cons]
          by_cases e : n = m
          · subst e; exact ⟨w, hg, by simp⟩
          · have hb : (n == m) = false := by simpa using e
            rw [hb]
            rcases List.mem_cons.1 hn with e' | hn'
            · exact absurd e' e
            · exact i1 n hn'
        · intro n hn
          have e : n ≠ m := fun e => hn (e ▸ List.mem_cons_self ..)
          have hb : (n == m) = false := by simpa using e
          rw [List.lookup_cons, hb]
          exact i2 n (fun hm => hn (List.mem_cons_of_mem _ hm))
        · intro kv hkv
          rcases List.mem_cons.1 hkv with e | hkv'
          · subst e; exact List.mem_cons_self ..
          · exact List.mem_cons_of_mem _ (i3 kv hkv')

theorem idx_of_get (h : Reach calls s) {i : Nat} {x : Node} (hx : s.com[i]? = some x) : s.idx x.name = i := by
  have hn := reach_ninv h
  have hi := sinv_of_reach h
  have : (namesOf s.com)[i]? = some x.name := by
    unfold namesOf; rw [List.getElem?_map, hx]; rfl
  unfold Space.idx
  have h2 := idx_unique (hi.com ▸ hn.nodup) this
  first
    | exact h2
    | exact h2.symm

/-- The index drawn at time `t`. -/
def drawn (s : Space) (rand : Nat → Nat) (t : Nat) : Nat := if 1 < s.len then rand t % s.len else 0

theorem pickActive_succ (v : Vec) (rand : Nat → Nat) (m t : Nat) : pickActive s v rand (m + 1) t =
    match s.com[drawn s rand t]? with
    | none => pickActive s v rand m (t + 1)
    | some x => if isSet (v.at (drawn s rand t)) && !x.hp.kind.tiny then some (x, t + 1)
      else pickActive s v rand m (t + 1) := rfl

/-- What the inner loop returns. -/
theorem pickActive_some (h : Reach calls s) {v : Vec} {rand : Nat → Nat} : ∀ {m t : Nat} {x : Node} {t' : Nat},
    pickActive s v rand m t = some (x, t') →
    x ∈ s.com ∧ isSet (v.at (s.idx x.name)) = true ∧ x.hp.kind.tiny = false ∧ t < t' ∧ t' ≤ t + m := by
  intro m
  induction m with
  | zero => intro t x t' e; cases e
  | succ m ih =>
    intro t x t' e
    rw [pickActive_succ] at e
    have rec1 : ∀ {x : Node} {t' : Nat}, pickActive s v rand m (t + 1) = some (x, t') →
        x ∈ s.com ∧ isSet (v.at (s.idx x.name)) = true ∧ x.hp.kind.tiny = false ∧ t < t' ∧ t' ≤ t + (m + 1) := by
      intro x t' e
      obtain ⟨a, b, c, d, f⟩ := ih e
      exact ⟨a, b, c, by omega, by omega⟩
    split at e
    · exact rec1 e
    · rename_i y hy
      split at e
      · rename_i hc
        simp only [Option.some.injEq, Prod.mk.injEq] at e
        obtain ⟨e1, e2⟩ := e
        subst e1 e2
        simp only [Bool.and_eq_true, Bool.not_eq_true'] at hc
        refine ⟨List.mem_of_getElem? hy, ?_, hc.2, by omega, by omega⟩
        rw [idx_of_get h hy]
        exact hc.1
      · exact rec1 e

/-- The inner loop looks at every draw. -/
theorem pickActive_at {v : Vec} {rand : Nat → Nat} {T : Nat} {x : Node} (hx : s.com[drawn s rand T]? = some x)
    (hset : isSet (v.at (drawn s rand T)) = true) (ht : x.hp.kind.tiny = false) : ∀ {m t : Nat}, t ≤ T → T < t + m →
    ∃ y t', pickActive s v rand m t = some (y, t') ∧ t < t' ∧ (t' ≤ T ∨ (t' = T + 1 ∧ y = x)) := by
  intro m
  induction m with
  | zero => intro t h1 h2; omega
  | succ m ih =>
    intro t h1 h2
    by_cases e : t = T
    · subst e
      refine ⟨x, t + 1, ?_, by omega, .inr ⟨rfl, rfl⟩⟩
      rw [pickActive_succ, hx]
      simp [hset, ht]
    · have rec1 : ∃ y t', pickActive s v rand m (t + 1) = some (y, t') ∧ t < t' ∧ (t' ≤ T ∨ (t' = T + 1 ∧ y = x)) := by
        obtain ⟨y, t', k1, k2, k3⟩ := ih (t := t + 1) (by omega) (by omega)
        exact ⟨y, t', k1, by omega, k3⟩
      rw [pickActive_succ]
      split
      · exact rec1
      · rename_i y hy
        split
        · exact ⟨y, t + 1, rfl, by omega, .inl (by omega)⟩
        · exact rec1

/-- Where a returned configuration comes from. -/
theorem randomLoop_found (h : Reach calls s) {v : Vec} {d : Dict} {rand : Nat → Nat} {nb : Nat → Name → List Rat} {c' : Config} :
    ∀ {fuel t k : Nat}, randomLoop s v d rand nb fuel t k = some (.found c') →
    ∃ x ∈ s.com, isSet (v.at (s.idx x.name)) = true ∧ x.hp.kind.tiny = false ∧
      ∃ k q w, (nb k x.name).head? = some q ∧ x.hp.kind.toVal q = some w ∧
        Config.ofValues s (dictSet d x.name (some w)) = .ok c' := by
  intro fuel
  induction fuel with
  | zero => intro t k e; cases e
  | succ fuel ih =>
    intro t k e
    simp only [randomLoop] at e
    cases hp : pickActive s v rand 10000 t with
    | none => rw [hp] at e; cases e
    | some p =>
      obtain ⟨x, t'⟩ := p
      rw [hp] at e
      simp only at e
      obtain ⟨k1, k2, k3, _⟩ := pickActive_some h hp
      cases hn : nb k x.name with
      | nil => rw [hn] at e; cases e
      | cons q qs =>
        rw [hn] at e
        simp only at e
        cases hv : x.hp.kind.toVal q with
        | none => rw [hv] at e; cases e
        | some w =>
          rw [hv] at e
          simp only at e
          cases ho : Config.ofValues s (dictSet d x.name (some w)) with
          | ok c =>
            rw [ho] at e
            simp only [Option.some.injEq, RandomNeighbor.found.injEq] at e
            subst e
            exact ⟨x, k1, k2, k3, k, q, w, by rw [hn]; rfl, hv, ho⟩
          | error e' =>
            rw [ho] at e
            simp only at e
            split at e
            · exact ih e
            · cases e

/-- The loop ends at the latest with the draw of a hyperparameter all of whose proposals are accepted. -/
theorem randomLoop_ends {v : Vec} {d : Dict} {rand : Nat → Nat} {nb : Nat → Name → List Rat} {T : Nat}
    {x : Node} (hx : s.com[drawn s rand T]? = some x) (hset : isSet (v.at (drawn s rand T)) = true)
    (ht : x.hp.kind.tiny = false)
    (hacc : ∀ k q w, (nb k x.name).head? = some q → x.hp.kind.toVal q = some w →
      ∃ c, Config.ofValues s (dictSet d x.name (some w)) = .ok c) :
    ∀ {fuel t k : Nat}, t ≤ T → T + 1 ≤ t + fuel → ∃ r, randomLoop s v d rand nb fuel t k = some r := by
  intro fuel
  induction fuel with
  | zero => intro t k h1 h2; omega
  | succ fuel ih =>
    intro t k h1 h2
    simp only [randomLoop]
    cases hp : pickActive s v rand 10000 t with
    | none => exact ⟨_, rfl⟩
    | some p =>
      obtain ⟨y, t'⟩ := p
      simp only
      cases hn : nb k y.name with
      | nil => exact ⟨_, rfl⟩
      | cons q qs =>
        simp only
        cases hv : y.hp.kind.toVal q with
        | none => exact ⟨_, rfl⟩
        | some w =>
          simp only
          cases ho : Config.ofValues s (dictSet d y.name (some w)) with
          | ok c => exact ⟨_, rfl⟩
          | error e =>
            simp only
            split
            · by_cases hT : T < t + 10000
              · obtain ⟨y', t'', k1, k2, k3⟩ := pickActive_at (m := 10000) hx hset ht h1 hT
                rw [hp] at k1
                simp only [Option.some.injEq, Prod.mk.injEq] at k1
                obtain ⟨e1, e2⟩ := k1
                subst e1 e2
                rcases k3 with k3 | ⟨_, k3⟩
                · exact ih k3 (by omega)
                · subst k3
                  obtain ⟨c, hc⟩ := hacc k q w (by rw [hn]; rfl) hv
                  rw [ho] at hc
                  cases hc
              · have hle : ∀ {m t : Nat} {y : Node} {t' : Nat}, pickActive s v rand m t = some (y, t') → t < t' ∧ t' ≤ t + m := by
                  intro m
                  induction m with
                  | zero => intro t y t' e; cases e
                  | succ m ihm =>
                    intro t y t' e
                    rw [pickActive_succ] at e
                    split at e
                    · have := ihm e; omega
                    · split at e
                      · simp only [Option.some.injEq, Prod.mk.injEq] at e; omega
                      · have := ihm e; omega
                have := hle hp
                exact ih (by omega) (by omega)
            · exact ⟨_, rfl⟩

theorem checkConds_valueError (v : Vec) (al : Bool) : ∀ {cs : List CNode} {e : Err}, checkConds s v al cs = some e →
    e.isValueError = true := by
  intro cs
  induction cs with
  | nil => intro e h; cases h
  | cons c cs ih =>
    intro e h
    simp only [checkConds] at h
    split at h
    · split at h
      · cases h; rfl
      · split at h
        · cases h; rfl
        · exact ih h
    · split at h
      · exact ih h
      · split at h
        · split at h
          · split at h <;> (cases h; rfl)
          · cases h; rfl
        · exact ih h

theorem check_valueError {v : Vec} {al : Bool} {e : Err} (h : s.check v al = some e) : e.isValueError = true := by
  unfold Space.check at h
  split at h
  · cases h; rfl
  · split at h
    · rename_i e' he
      cases h
      exact checkConds_valueError v al he
    · split at h
      · cases h; rfl
      · cases h

theorem fillValues_valueError {d : Dict} : ∀ {ns : List Node} {v : Vec}
    {vals : List (Name × Val)} {e : Err}, (∀ x ∈ ns, x.hp.wf = true) → fillValues s d ns v vals = .error e →
    e.isValueError = true := by
  intro ns
  induction ns with
  | nil => intro v vals e _ h; cases h
  | cons x xs ih =>
    intro v vals e hns h
    have hxs : ∀ y ∈ xs, y.hp.wf = true := fun y hy => hns y (List.mem_cons_of_mem _ hy)
    simp only [fillValues] at h
    split at h
    · exact ih hxs h
    · exact ih hxs h
    · split at h
      · cases h; rfl
      · rename_i w _ hl
        simp only [Bool.not_eq_true', Bool.not_eq_false] at hl
        obtain ⟨q, hq⟩ := legal_toVec (roundVal_legal (hns x (List.mem_cons_self ..)) hl)
        rw [hq] at h
        exact ih hxs h

/-- Building a configuration from a dictionary raises nothing but `ValueError`s. -/
theorem ofValues_valueError (h : Reach calls s) {d : Dict} {al : Bool} {e : Err} (he : Config.ofValues s d al = .error e) :
    e.isValueError = true := by
  have hw : ∀ x ∈ s.dag.nodes, x.hp.wf = true := by
    intro x hx
    rw [(sinv_of_reach h).com] at hx
    exact node_wf h hx
  unfold Config.ofValues at he
  split at he
  · cases he; rfl
  · split at he
    · rename_i e' h'
      cases he
      exact fillValues_valueError hw h'
    · split at he
      · rename_i e' h'
        cases he
        exact check_valueError h'
      · cases he

/-- The loop returns a configuration if a good hyperparameter is drawn early enough. -/
theorem randomLoop_finds (h : Reach calls s) {v : Vec} {d : Dict} {rand : Nat → Nat} {nb : Nat → Name → List Rat} {T : Nat}
    {x : Node} (hx : s.com[drawn s rand T]? = some x) (hset : isSet (v.at (drawn s rand T)) = true)
    (ht : x.hp.kind.tiny = false) (hT : T < 10000)
    (hnb : ∀ k, ∀ y ∈ s.com, ∃ q w, (nb k y.name).head? = some q ∧ y.hp.kind.toVal q = some w)
    (hacc : ∀ k q w, (nb k x.name).head? = some q → x.hp.kind.toVal q = some w →
      ∃ c, Config.ofValues s (dictSet d x.name (some w)) = .ok c) :
    ∀ {fuel t k : Nat}, t ≤ T → T + 1 ≤ t + fuel → ∃ c, randomLoop s v d rand nb fuel t k = some (.found c) := by
  intro fuel
  induction fuel with
  | zero => intro t k h1 h2; omega
  | succ fuel ih =>
    intro t k h1 h2
    obtain ⟨y, t', k1, k2, k3⟩ := pickActive_at (m := 10000) hx hset ht h1 (by omega)
    obtain ⟨y1, y2, y3, _⟩ := pickActive_some h k1
    obtain ⟨q, w, hq, hw⟩ := hnb k y y1
    cases hn : nb k y.name with
    | nil => rw [hn] at hq; cases hq
    | cons q' qs =>
      have e : q' = q := by rw [hn] at hq; simpa using hq
      subst e
      simp only [randomLoop, k1, hn, hw]
      cases ho : Config.ofValues s (dictSet d y.name (some w)) with
      | ok c => exact ⟨c, rfl⟩
      | error e =>
        simp only [ofValues_valueError h ho, if_true]
        rcases k3 with k3 | ⟨_, k3⟩
        · exact ih k3 (by omega)
        · subst k3
          obtain ⟨c, hc⟩ := hacc k q' w hq hw
          rw [ho] at hc
          cases hc

theorem pickActive_none {v : Vec} {rand : Nat → Nat} (hno : ∀ i x, s.com[i]? = some x → isSet (v.at i) = true →
    x.hp.kind.tiny = true) : ∀ m t, pickActive s v rand m t = none := by
  intro m
  induction m with
  | zero => intro t; rfl
  | succ m ih =>
    intro t
    rw [pickActive_succ]
    split
    · exact ih _
    · rename_i x hx
      split
      · rename_i hc
        simp only [Bool.and_eq_true, Bool.not_eq_true'] at hc
        rw [hno _ _ hx hc.1] at hc
        exact absurd hc.2 (by decide)
      · exact ih _

end Verif
