import Verif.Lemmas.Heap
import Verif.Props.Grown

/-!
# C88: configurations that share their arrays
-/

set_option autoImplicit false

namespace Verif

open Verif.Spec

variable {calls : List Call} {s : Space}

private theorem cfg?_def {w : Memory} {i : Nat} {o : CfgObj} {a : Arr} (h1 : w.cfgs[i]? = some o) (h2 : w.arrs[o.ref]? = some a) :
    w.cfg? i = some { vec := a.data, vals := o.vals, allow := o.allow } := by
  unfold Memory.cfg?; rw [h1]; dsimp only; rw [h2]

private theorem cfg?_some {w : Memory} {i : Nat} {c : Config} (h : w.cfg? i = some c) :
    ∃ o a, w.cfgs[i]? = some o ∧ w.arrs[o.ref]? = some a ∧ c = { vec := a.data, vals := o.vals, allow := o.allow } := by
  unfold Memory.cfg? at h
  cases h1 : w.cfgs[i]? with
  | none => rw [h1] at h; cases h
  | some o =>
    rw [h1] at h
    dsimp only at h
    cases h2 : w.arrs[o.ref]? with
    | none => rw [h2] at h; cases h
    | some a => rw [h2] at h; cases h; exact ⟨o, a, rfl, h2, rfl⟩

/-- Later arrays and configurations do not matter. -/
private theorem cfg?_append {w : Memory} {i : Nat} {c : Config} (h : w.cfg? i = some c) (as : List Arr) (cs : List CfgObj) :
    Memory.cfg? { arrs := w.arrs ++ as, cfgs := w.cfgs ++ cs } i = some c := by
  obtain ⟨o, a, h1, h2, rfl⟩ := cfg?_some h
  exact cfg?_def (w := { arrs := w.arrs ++ as, cfgs := w.cfgs ++ cs })
    (by show (w.cfgs ++ cs)[i]? = _; rw [List.getElem?_append_left (List.getElem?_eq_some_iff.1 h1).1]; exact h1)
    (by show (w.arrs ++ as)[o.ref]? = _; rw [List.getElem?_append_left (List.getElem?_eq_some_iff.1 h2).1]; exact h2)

private theorem cfg?_arrs {w : Memory} {i : Nat} {c : Config} (h : w.cfg? i = some c) (as : List Arr) :
    Memory.cfg? { arrs := w.arrs ++ as, cfgs := w.cfgs } i = some c := by
  have := cfg?_append h as []; rwa [List.append_nil] at this

/-- **C88, isolation.** A step that neither names a configuration nor writes to its array does not change what the configuration is:
not its vector, not its values.  In particular assigning to one configuration never changes another one, even if both were made from
the same array. -/
theorem C88_elsewhere (w : Memory) (i : Nat) (c : Config) (h : w.cfg? i = some c) (o : Op) (ho : Elsewhere w i o) :
    (w.step s o).1.cfg? i = some c := by
  cases o with
  | array a => exact cfg?_arrs h [a]
  | write r j e =>
    obtain ⟨k, a, h1, h2, rfl⟩ := cfg?_some h
    have hr : k.ref ≠ r := ho k h1
    show (w.write r j e).1.cfg? i = _
    unfold Memory.write
    cases hb : w.arrs[r]? with
    | none => exact h
    | some b =>
      dsimp only
      split
      · exact h
      · split
        · exact h
        · exact cfg?_def (w := { w with arrs := w.arrs.set r (b.put j e) }) h1
            (by show (w.arrs.set r _)[k.ref]? = _; rw [List.getElem?_set_ne (Ne.symm hr)]; exact h2)
  | ofArray r al =>
    show Memory.cfg? (Prod.fst (match w.arrs[r]? with | none => _ | some a => _)) i = _
    cases w.arrs[r]? with
    | none => exact h
    | some a =>
      dsimp only
      split
      · exact h
      · have := cfg?_append h [] [{ ref := r, allow := al }]; rwa [List.append_nil] at this
  | ofList v al =>
    show Memory.cfg? (Prod.fst (if v.length ≠ s.len then _ else _)) i = _
    split
    · exact h
    · exact cfg?_append h _ _
  | ofColumn a al =>
    show Memory.cfg? (Prod.fst (if a.data.length ≠ s.len then _ else _)) i = _
    split
    · exact h
    · exact cfg?_append h _ _
  | ofValues d al =>
    show Memory.cfg? (Prod.fst (match Config.ofValues s d al with | .error e => _ | .ok c => _)) i = _
    cases Config.ofValues s d al with
    | error e => exact h
    | ok c => exact cfg?_append h _ _
  | set j n v =>
    have hj : j ≠ i := ho
    show (w.setItem s j n v).1.cfg? i = _
    unfold Memory.setItem
    cases w.cfgs[j]? with
    | none => exact h
    | some k =>
      dsimp only
      cases w.arrs[k.ref]? with
      | none => exact h
      | some a =>
        dsimp only
        cases findNode s.dag.nodes n with
        | none => exact h
        | some x =>
          dsimp only
          split
          · exact h
          · cases x.hp.kind.toVec v with
            | none => exact h
            | some q =>
              dsimp only
              cases s.check (s.changeHpA a n q (s.idx n)).data with
              | some e => exact h
              | none =>
                obtain ⟨o, b, h1, h2, rfl⟩ := cfg?_some (cfg?_arrs h [s.changeHpA a n q (s.idx n)])
                exact cfg?_def (w := { arrs := w.arrs ++ [_], cfgs := w.cfgs.set j _ })
                  (by show (w.cfgs.set j _)[i]? = _; rw [List.getElem?_set_ne hj]; exact h1) h2
  | get j n =>
    have hj : j ≠ i := ho
    show (w.getItem s j n).1.cfg? i = _
    unfold Memory.getItem
    cases w.cfgs[j]? with
    | none => exact h
    | some o =>
      cases w.cfg? j with
      | none => exact h
      | some k =>
        dsimp only
        cases k.getItem s n with
        | mk r k' =>
          cases r with
          | error e => exact h
          | ok v =>
            obtain ⟨o, b, h1, h2, rfl⟩ := cfg?_some h
            exact cfg?_def (w := { w with cfgs := w.cfgs.set j _ })
              (by show (w.cfgs.set j _)[i]? = _; rw [List.getElem?_set_ne hj]; exact h1) h2

/-- **C88, arrays of the caller.** Assigning to a configuration, reading from it and making configurations never write to an array
that exists already: in particular an array that a configuration was made from is not changed by assignments to it. -/
theorem C88_arrays_kept (w : Memory) (o : Op) (ho : ∀ r i e, o ≠ .write r i e) (r : Nat) (a : Arr) (h : w.arrs[r]? = some a) :
    (w.step s o).1.arrs[r]? = some a := by
  have app : ∀ as : List Arr, (w.arrs ++ as)[r]? = some a := fun as => by
    rw [List.getElem?_append_left (List.getElem?_eq_some_iff.1 h).1]; exact h
  cases o with
  | array b => exact app [b]
  | write r' i e => exact absurd rfl (ho r' i e)
  | ofArray r' al =>
    show (Memory.arrs (Prod.fst (match w.arrs[r']? with | none => _ | some a => _)))[r]? = _
    cases w.arrs[r']? with
    | none => exact h
    | some b => dsimp only; split <;> exact h
  | ofList v al =>
    show (Memory.arrs (Prod.fst (if v.length ≠ s.len then _ else _)))[r]? = _
    split
    · exact h
    · exact app _
  | ofColumn b al =>
    show (Memory.arrs (Prod.fst (if b.data.length ≠ s.len then _ else _)))[r]? = _
    split
    · exact h
    · exact app _
  | ofValues d al =>
    show (Memory.arrs (Prod.fst (match Config.ofValues s d al with | .error e => _ | .ok c => _)))[r]? = _
    cases Config.ofValues s d al with
    | error e => exact h
    | ok c => exact app _
  | set j n v =>
    show (w.setItem s j n v).1.arrs[r]? = _
    unfold Memory.setItem
    cases w.cfgs[j]? with
    | none => exact h
    | some k =>
      dsimp only
      cases w.arrs[k.ref]? with
      | none => exact h
      | some b =>
        dsimp only
        cases findNode s.dag.nodes n with
        | none => exact h
        | some x =>
          dsimp only
          split
          · exact h
          · cases x.hp.kind.toVec v with
            | none => exact h
            | some q =>
              dsimp only
              cases s.check (s.changeHpA b n q (s.idx n)).data with
              | some e => exact h
              | none => exact app _
  | get j n =>
    show (w.getItem s j n).1.arrs[r]? = _
    unfold Memory.getItem
    cases w.cfgs[j]? with
    | none => exact h
    | some o =>
      cases w.cfg? j with
      | none => exact h
      | some k =>
        dsimp only
        cases k.getItem s n with
        | mk r k' => cases r <;> exact h

/-- **C88, assignments.** On an array of doubles an assignment does to the configuration what `setItem` (C22, C23) does to a vector. -/
theorem C88_set (w : Memory) (i : Nat) (c : Config) (h : w.cfg? i = some c) (hd : ∀ k a, w.cfgs[i]? = some k → w.arrs[k.ref]? = some a → a.dt = .float)
    (n : Name) (v : Val) :
    (w.step s (.set i n v)).1.cfg? i = some (c.setItem s n v).1 ∧
    (w.step s (.set i n v)).2 = (match (c.setItem s n v).2 with | none => .done | some e => .raised e) := by
  obtain ⟨k, ⟨dt, d⟩, h1, h2, rfl⟩ := cfg?_some h
  cases (show dt = .float from hd _ _ h1 h2)
  show (w.setItem s i n v).1.cfg? i = _ ∧ (w.setItem s i n v).2 = _
  unfold Memory.setItem Config.setItem
  rw [h1]; dsimp only; rw [h2]; dsimp only
  cases findNode s.dag.nodes n with
  | none => exact ⟨h, rfl⟩
  | some x =>
    dsimp only
    split
    · exact ⟨h, rfl⟩
    · cases x.hp.kind.toVec v with
      | none => exact ⟨h, rfl⟩
      | some q =>
        dsimp only
        rw [changeHpA_float]
        dsimp only
        cases s.check (s.changeHp d n q (s.idx n)) with
        | some e => exact ⟨h, rfl⟩
        | none =>
          refine ⟨cfg?_def (o := { k with ref := w.arrs.length, vals := none }) (a := ⟨.float, s.changeHp d n q (s.idx n)⟩) ?_ ?_, rfl⟩
          · show (w.cfgs.set i _)[i]? = _
            rw [List.getElem?_set_self (List.getElem?_eq_some_iff.1 h1).1]
          · show (w.arrs ++ [_])[w.arrs.length]? = _
            simp

/-- **C88, reading.** Reading does to the configuration what `getItem` (C24) does. -/
theorem C88_get (w : Memory) (i : Nat) (c : Config) (h : w.cfg? i = some c) (n : Name) :
    (w.step s (.get i n)).1.cfg? i = some (c.getItem s n).2 ∧
    (w.step s (.get i n)).2 = (match (c.getItem s n).1 with | .ok v => .value v | .error e => .raised e) := by
  obtain ⟨k, a, h1, h2, hc⟩ := cfg?_some h
  show (w.getItem s i n).1.cfg? i = _ ∧ (w.getItem s i n).2 = _
  unfold Memory.getItem
  rw [h1, h]
  dsimp only
  have hkeep : (c.getItem s n).2.vec = c.vec ∧ (c.getItem s n).2.allow = c.allow ∧
      ∀ e, (c.getItem s n).1 = .error e → (c.getItem s n).2 = c := by
    unfold Config.getItem
    cases (c.vals.getD []).lookup n with
    | some u => exact ⟨rfl, rfl, fun e he => by cases he⟩
    | none =>
      dsimp only
      cases findNode s.dag.nodes n with
      | none => exact ⟨rfl, rfl, fun _ _ => rfl⟩
      | some x =>
        dsimp only
        cases c.vec.at (s.idx n) with
        | none => exact ⟨rfl, rfl, fun _ _ => rfl⟩
        | some q =>
          dsimp only
          cases x.hp.kind.toVal q with
          | none => exact ⟨rfl, rfl, fun _ _ => rfl⟩
          | some u => exact ⟨rfl, rfl, fun e he => by cases he⟩
  cases hg : c.getItem s n with
  | mk r k' =>
    rw [hg] at hkeep
    cases r with
    | error e =>
      rw [show k' = c from hkeep.2.2 e rfl]
      exact ⟨h, rfl⟩
    | ok v =>
      refine ⟨?_, rfl⟩
      rw [cfg?_def (w := { w with cfgs := w.cfgs.set i { k with vals := k'.vals } }) (o := { k with vals := k'.vals }) (a := a)
        (by show (w.cfgs.set i _)[i]? = _; rw [List.getElem?_set_self (List.getElem?_eq_some_iff.1 h1).1]) h2]
      obtain ⟨v1, v2, v3⟩ := k'
      subst hc
      obtain ⟨e1, e2, _⟩ := hkeep
      dsimp only at e1 e2
      rw [e1, e2]

/-! ## Histories -/

private def AllFloat (w : Memory) : Prop := ∀ a ∈ w.arrs, a.dt = .float

private theorem allFloat_step (hs : Reach calls s) {w : Memory} (h : AllFloat w) (o : Op) (os : List Op) (hp : Polite s w (o :: os)) :
    AllFloat (w.step s o).1 := by
  have app : ∀ {b : Arr} {cs : List CfgObj}, b.dt = .float → AllFloat { arrs := w.arrs ++ [b], cfgs := cs } := by
    intro b cs hb a ha
    rcases List.mem_append.1 ha with ha | ha
    · exact h a ha
    · rw [List.mem_singleton.1 ha]; exact hb
  cases o with
  | array b => exact app hp.1
  | write r i e =>
    show AllFloat (w.write r i e).1
    unfold Memory.write
    cases hb : w.arrs[r]? with
    | none => exact h
    | some b =>
      dsimp only
      split
      · exact h
      · split
        · exact h
        · intro a ha
          rcases List.mem_or_eq_of_mem_set ha with ha | rfl
          · exact h a ha
          · rw [put_dt]; exact h b (List.mem_of_getElem? hb)
  | ofArray r' al =>
    show AllFloat (Prod.fst (match w.arrs[r']? with | none => _ | some a => _))
    cases w.arrs[r']? with
    | none => exact h
    | some b => dsimp only; split <;> exact h
  | ofList v al =>
    show AllFloat (Prod.fst (if v.length ≠ s.len then _ else _))
    split
    · exact h
    · exact app rfl
  | ofColumn b al =>
    show AllFloat (Prod.fst (if b.data.length ≠ s.len then _ else _))
    split
    · exact h
    · exact app hp.1
  | ofValues d al =>
    show AllFloat (Prod.fst (match Config.ofValues s d al with | .error e => _ | .ok c => _))
    cases Config.ofValues s d al with
    | error e => exact h
    | ok c => exact app rfl
  | set j n v =>
    show AllFloat (w.setItem s j n v).1
    unfold Memory.setItem
    cases w.cfgs[j]? with
    | none => exact h
    | some k =>
      dsimp only
      cases hb : w.arrs[k.ref]? with
      | none => exact h
      | some b =>
        dsimp only
        cases findNode s.dag.nodes n with
        | none => exact h
        | some x =>
          dsimp only
          split
          · exact h
          · cases x.hp.kind.toVec v with
            | none => exact h
            | some q =>
              dsimp only
              cases s.check (s.changeHpA b n q (s.idx n)).data with
              | some e => exact h
              | none => exact app ((changeHpA_shape b n q _).2.trans (h b (List.mem_of_getElem? hb)))
  | get j n =>
    show AllFloat (w.getItem s j n).1
    unfold Memory.getItem
    cases w.cfgs[j]? with
    | none => exact h
    | some o =>
      cases w.cfg? j with
      | none => exact h
      | some k =>
        dsimp only
        cases k.getItem s n with
        | mk r k' => cases r <;> exact h

private theorem cfg?_of_ok {w : Memory} (h : w.Ok s) {i : Nat} (hi : i < w.cfgs.length) : ∃ c, w.cfg? i = some c := by
  obtain ⟨a, h1, _⟩ := h _ (List.getElem_mem hi)
  exact ⟨_, cfg?_def (List.getElem?_eq_getElem hi) h1⟩

/-- A configuration of a longer world is an old one or the new one. -/
private theorem cfg?_new {w : Memory} (h : w.Ok s) {as : List Arr} {k : CfgObj} {i : Nat} {c : Config}
    (hc : Memory.cfg? { arrs := w.arrs ++ as, cfgs := w.cfgs ++ [k] } i = some c) :
    w.cfg? i = some c ∨ ∃ a, (w.arrs ++ as)[k.ref]? = some a ∧ c = { vec := a.data, vals := k.vals, allow := k.allow } := by
  by_cases hi : i < w.cfgs.length
  · obtain ⟨c', h'⟩ := cfg?_of_ok h hi
    have := cfg?_append h' as [k]
    rw [this] at hc; cases hc; exact .inl h'
  · obtain ⟨o, a, h1, h2, h3⟩ := cfg?_some hc
    have h1' : (w.cfgs ++ [k])[i]? = some o := h1
    rw [List.getElem?_append_right (by omega)] at h1'
    have hm := List.mem_of_getElem? h1'
    rw [List.mem_singleton] at hm
    subst hm
    exact .inr ⟨a, h2, h3⟩

private theorem cfg?_lt {w : Memory} {i : Nat} {c : Config} (h : w.cfg? i = some c) : i < w.cfgs.length := by
  obtain ⟨o, a, h1, _, _⟩ := cfg?_some h
  exact (List.getElem?_eq_some_iff.1 h1).1

private theorem ofVector_ok {v : Vec} {al : Bool} (h : v.length = s.len) :
    Config.ofVector s v al = .ok { vec := v, allow := al } := by
  unfold Config.ofVector; rw [if_neg (by simpa using h)]

private theorem cfgReach_step (hs : Reach calls s) {w : Memory} (hok : w.Ok s) (hf : AllFloat w)
    (hr : ∀ i c, w.cfg? i = some c → CfgReach s c) (o : Op) (os : List Op) (hp : Polite s w (o :: os)) :
    ∀ i c, (w.step s o).1.cfg? i = some c → CfgReach s c := by
  -- a step that does not make a configuration
  have old : (w.step s o).1.cfgs.length = w.cfgs.length → (∀ i, Elsewhere w i o) →
      ∀ i c, (w.step s o).1.cfg? i = some c → CfgReach s c := by
    intro hl he i c hc
    obtain ⟨c', h'⟩ := cfg?_of_ok hok (i := i) (by rw [← hl]; exact cfg?_lt hc)
    rw [C88_elsewhere w i c' h' o (he i)] at hc
    cases hc; exact hr i _ h'
  -- a step that names a configuration
  have named : ∀ j, (w.step s o).1.cfgs.length = w.cfgs.length → (∀ i, i ≠ j → Elsewhere w i o) →
      (∀ c, w.cfg? j = some c → ∃ c', (w.step s o).1.cfg? j = some c' ∧ CfgReach s c') →
      ∀ i c, (w.step s o).1.cfg? i = some c → CfgReach s c := by
    intro j hl he hj i c hc
    obtain ⟨c', h'⟩ := cfg?_of_ok hok (i := i) (by rw [← hl]; exact cfg?_lt hc)
    by_cases e : i = j
    · subst e
      obtain ⟨c'', k1, k2⟩ := hj c' h'
      rw [k1] at hc; cases hc; exact k2
    · rw [C88_elsewhere w i c' h' o (he i e)] at hc
      cases hc; exact hr i _ h'
  cases o with
  | array b => exact old rfl (fun _ => trivial)
  | write r i e =>
    refine old ?_ (fun j k hk => hp.1 k (List.mem_of_getElem? hk))
    show (w.write r i e).1.cfgs.length = _
    unfold Memory.write
    cases w.arrs[r]? with
    | none => rfl
    | some b => dsimp only; split <;> [rfl; (split <;> rfl)]
  | ofArray r al =>
    intro i c hc
    have hc' : Memory.cfg? (Prod.fst (match w.arrs[r]? with
      | none => (w, Out.raised .keyError)
      | some a => if a.data.length ≠ s.len then (w, Out.raised .valueError)
        else ({ w with cfgs := w.cfgs ++ [{ ref := r, allow := al }] }, Out.done))) i = some c := hc
    cases ha : w.arrs[r]? with
    | none => rw [ha] at hc'; exact hr i c hc'
    | some a =>
      rw [ha] at hc'
      dsimp only at hc'
      split at hc'
      · exact hr i c hc'
      · rename_i hl
        have := cfg?_new hok (as := []) (k := { ref := r, allow := al }) (i := i) (c := c) (by rw [List.append_nil]; exact hc')
        rcases this with h | ⟨b, h1, rfl⟩
        · exact hr i c h
        · rw [List.append_nil] at h1
          have h1' : w.arrs[r]? = some b := h1
          rw [ha] at h1'; cases h1'
          exact .vector (ofVector_ok (by simpa using hl))
  | ofList v al =>
    intro i c hc
    have hc' : Memory.cfg? (Prod.fst (if v.length ≠ s.len then (w, Out.raised .valueError) else (w.fresh ⟨.float, v⟩ none al, .done))) i
      = some c := hc
    split at hc'
    · exact hr i c hc'
    · rename_i hl
      rcases cfg?_new hok hc' with h | ⟨b, h1, rfl⟩
      · exact hr i c h
      · have h1' : (w.arrs ++ [⟨.float, v⟩])[w.arrs.length]? = some b := h1
        rw [List.getElem?_concat_length] at h1'; cases h1'
        exact .vector (ofVector_ok (by simpa using hl))
  | ofColumn a al =>
    intro i c hc
    have hc' : Memory.cfg? (Prod.fst (if a.data.length ≠ s.len then (w, Out.raised .valueError) else (w.fresh a none al, .done))) i
      = some c := hc
    split at hc'
    · exact hr i c hc'
    · rename_i hl
      rcases cfg?_new hok hc' with h | ⟨b, h1, rfl⟩
      · exact hr i c h
      · have h1' : (w.arrs ++ [a])[w.arrs.length]? = some b := h1
        rw [List.getElem?_concat_length] at h1'; cases h1'
        exact .vector (ofVector_ok (by simpa using hl))
  | ofValues d al =>
    intro i c hc
    have hc' : Memory.cfg? (Prod.fst (match Config.ofValues s d al with
      | .error e => (w, Out.raised e)
      | .ok c => (w.fresh ⟨.float, c.vec⟩ c.vals al, .done))) i = some c := hc
    cases hv : Config.ofValues s d al with
    | error e => rw [hv] at hc'; exact hr i c hc'
    | ok k =>
      rw [hv] at hc'
      rcases cfg?_new hok hc' with h | ⟨b, h1, rfl⟩
      · exact hr i c h
      · have h1' : (w.arrs ++ [⟨.float, k.vec⟩])[w.arrs.length]? = some b := h1
        rw [List.getElem?_concat_length] at h1'; cases h1'
        have hal : k.allow = al := by
          unfold Config.ofValues at hv
          split at hv
          · cases hv
          · split at hv
            · cases hv
            · split at hv
              · cases hv
              · cases hv; rfl
        have := CfgReach.values hv
        obtain ⟨v1, v2, v3⟩ := k
        cases hal
        exact this
  | set j n v =>
    refine named j ?_ (fun i hi => Ne.symm hi) (fun c hc => ?_)
    · show (w.setItem s j n v).1.cfgs.length = _
      unfold Memory.setItem
      cases w.cfgs[j]? with
      | none => rfl
      | some k =>
        dsimp only
        cases w.arrs[k.ref]? with
        | none => rfl
        | some b =>
          dsimp only
          cases findNode s.dag.nodes n with
          | none => rfl
          | some x =>
            dsimp only
            split
            · rfl
            · cases x.hp.kind.toVec v with
              | none => rfl
              | some q =>
                dsimp only
                cases s.check (s.changeHpA b n q (s.idx n)).data with
                | some e => rfl
                | none => exact List.length_set
    · exact ⟨_, (C88_set w j c hc (fun k a _ ha => hf a (List.mem_of_getElem? ha)) n v).1, .set (hr j c hc)⟩
  | get j n =>
    refine named j ?_ (fun i hi => Ne.symm hi) (fun c hc => ?_)
    · show (w.getItem s j n).1.cfgs.length = _
      unfold Memory.getItem
      cases w.cfgs[j]? with
      | none => rfl
      | some o =>
        cases w.cfg? j with
        | none => rfl
        | some k =>
          dsimp only
          cases k.getItem s n with
          | mk r k' =>
            cases r with
            | error e => rfl
            | ok v => exact List.length_set
    · exact ⟨_, (C88_get w j c hc n).1, .get (hr j c hc)⟩

/-- **C88, partial.** In every program whose arrays are arrays of doubles and that does not write to arrays of configurations, every
configuration is at any time one that can be made by constructing, assigning and reading alone: all that is proved of configurations
(C22, C24, ...) holds of it, whatever else the program does with other configurations and arrays. -/
theorem C88_polite_programs_partial (hs : Reach calls s) (ops : List Op) (hp : Polite s {} ops) (i : Nat) (c : Config)
    (hc : (Memory.run s {} ops).cfg? i = some c) : CfgReach s c := by
  have key : ∀ (ops : List Op) (w : Memory), w.Ok s → AllFloat w → (∀ i c, w.cfg? i = some c → CfgReach s c) → Polite s w ops →
      ∀ i c, (w.run s ops).cfg? i = some c → CfgReach s c := by
    intro ops
    induction ops with
    | nil => intro w _ _ hr _; exact hr
    | cons o os ih =>
      intro w h1 h2 h3 h4
      exact ih _ (ok_step hs h1 o) (allFloat_step hs h2 o os h4) (cfgReach_step hs h1 h2 h3 o os h4) h4.2
  exact key ops {} (fun k hk => by cases hk) (fun a ha => by cases ha) (fun i c hc => by cases hc) hp i c hc

/-! ## What goes wrong -/

/-- **C88, false of the code: writes show in configurations.** The constructor does not copy an array: two configurations made from
one array both change, without any validation, when the caller writes to it. -/
theorem C88_write_changes_configurations (w : Memory) (r : Nat) (a : Arr) (ha : w.arrs[r]? = some a) (hd : a.dt = .float)
    (hl : a.data.length = s.len) (j : Nat) (hj : j < s.len) (e : NV) :
    ∃ c c', (w.run s [.ofArray r false, .ofArray r false, .write r j e]).cfg? w.cfgs.length = some c ∧
      (w.run s [.ofArray r false, .ofArray r false, .write r j e]).cfg? (w.cfgs.length + 1) = some c' ∧
      c.vec = a.data.set j e ∧ c'.vec = a.data.set j e := by
  have step1 : ∀ w : Memory, w.arrs[r]? = some a →
      (w.step s (.ofArray r false)).1 = { w with cfgs := w.cfgs ++ [{ ref := r, allow := false }] } := by
    intro w ha
    show Prod.fst (match w.arrs[r]? with | none => _ | some a => _) = _
    rw [ha]
    dsimp only
    rw [if_neg (by simpa using hl)]
  have step3 : ∀ w : Memory, w.arrs[r]? = some a → (w.step s (.write r j e)).1 = { w with arrs := w.arrs.set r (a.put j e) } := by
    intro w ha
    show (w.write r j e).1 = _
    unfold Memory.write
    rw [ha]
    dsimp only
    rw [if_neg (by omega), if_neg (by rw [hd]; rintro ⟨h, _⟩; cases h)]
  have hrun : w.run s [.ofArray r false, .ofArray r false, .write r j e] =
      { arrs := w.arrs.set r (a.put j e), cfgs := w.cfgs ++ [{ ref := r, allow := false }] ++ [{ ref := r, allow := false }] } := by
    show (Memory.step s (Memory.step s (Memory.step s w _).1 _).1 _).1 = _
    rw [step1 w ha, step1 _ (by exact ha), step3 _ (by exact ha)]
  have hput : (a.put j e).data = a.data.set j e := by rw [put_float hd]
  have hr := (List.getElem?_eq_some_iff.1 ha).1
  rw [hrun]
  refine ⟨{ vec := a.data.set j e }, { vec := a.data.set j e }, ?_, ?_, rfl, rfl⟩
  · rw [cfg?_def (w := ⟨w.arrs.set r (a.put j e), _⟩) (i := w.cfgs.length) (o := { ref := r, allow := false }) (a := a.put j e)
      (by show (w.cfgs ++ [_] ++ [_])[_]? = _; simp) (by show (w.arrs.set r _)[r]? = _; rw [List.getElem?_set_self hr]), hput]
  · rw [cfg?_def (w := ⟨w.arrs.set r (a.put j e), _⟩) (i := w.cfgs.length + 1) (o := { ref := r, allow := false }) (a := a.put j e)
      (by show (w.cfgs ++ [_] ++ [_])[_]? = _; simp) (by show (w.arrs.set r _)[r]? = _; rw [List.getElem?_set_self hr]), hput]

/-- **C88, false of the code: values that were read hide writes.** After a value has been read, setting its entry in the array of the
configuration to NaN removes its name from `list(config)`, but the value is still read. -/
theorem C88_stale_value (hs : Reach calls s) (ops : List Op) {i : Nat} {k : CfgObj} {a : Arr} {c : Config}
    (hk : (Memory.run s {} ops).cfgs[i]? = some k) (ha : (Memory.run s {} ops).arrs[k.ref]? = some a) (hd : a.dt = .float)
    (hc : (Memory.run s {} ops).cfg? i = some c) {n : Name} (hn : n ∈ s.names) {v : Val} (hv : (c.getItem s n).1 = .ok v) :
    ∃ c', ((Memory.run s {} ops).run s [.get i n, .write k.ref (s.idx n) none]).cfg? i = some c' ∧
      n ∉ c'.keys s ∧ (c'.getItem s n).1 = .ok v := by
  have hok := ok_program hs ops
  generalize Memory.run s {} ops = w at hk ha hc hok
  obtain ⟨b, hb, hbl⟩ := hok k (List.mem_of_getElem? hk)
  rw [ha] at hb; cases hb
  obtain ⟨g1, g2⟩ := C88_get (s := s) w i c hc n
  have harr : (w.step s (.get i n)).1.arrs[k.ref]? = some a := C88_arrays_kept w _ (by intro r j e h; cases h) _ _ ha
  obtain ⟨k', a', h1, h2, h3⟩ := cfg?_some g1
  have href : k'.ref = k.ref := by
    have : (w.getItem s i n).1.cfgs[i]? = some k' := h1
    unfold Memory.getItem at this
    rw [hk, hc] at this
    dsimp only at this
    cases hg : c.getItem s n with
    | mk r c' =>
      rw [hg] at this
      cases r with
      | error e => dsimp only at this; rw [hk] at this; cases this; rfl
      | ok v =>
        dsimp only at this
        rw [List.getElem?_set_self (List.getElem?_eq_some_iff.1 hk).1] at this
        cases this; rfl
  show ∃ c', (Memory.step s (w.step s (.get i n)).1 (.write k.ref (s.idx n) none)).1.cfg? i = some c' ∧ _
  generalize (w.step s (.get i n)).1 = w1 at harr h1 h2 g1 ⊢
  have hw : (w1.step s (.write k.ref (s.idx n) none)).1 = { w1 with arrs := w1.arrs.set k.ref (a.put (s.idx n) none) } := by
    show (w1.write _ _ _).1 = _
    unfold Memory.write
    rw [harr]
    dsimp only
    have := idx_lt hs hn
    rw [if_neg (by omega), if_neg (by rw [hd]; rintro ⟨h, _⟩; cases h)]
  refine ⟨{ vec := a.data.set (s.idx n) none, vals := k'.vals, allow := k'.allow }, ?_, ?_, ?_⟩
  · rw [hw, cfg?_def (w := ⟨w1.arrs.set k.ref (a.put (s.idx n) none), _⟩) (a := a.put (s.idx n) none) h1
      (by show (w1.arrs.set k.ref _)[k'.ref]? = _; rw [href, List.getElem?_set_self (List.getElem?_eq_some_iff.1 harr).1]),
      put_float hd]
  · intro hm
    have := (List.mem_filter.1 hm).2
    rw [at_set_eq (by rw [hbl]; exact idx_lt hs hn)] at this
    cases this
  · have hcache : (((c.getItem s n).2.vals).getD []).lookup n = some v := by
      unfold Config.getItem at hv ⊢
      cases he : (c.vals.getD []).lookup n with
      | some u => rw [he] at hv; cases hv; exact he
      | none =>
        rw [he] at hv
        dsimp only at hv ⊢
        cases hf : findNode s.dag.nodes n with
        | none => rw [hf] at hv; cases hv
        | some x =>
          rw [hf] at hv
          dsimp only at hv ⊢
          cases hq : c.vec.at (s.idx n) with
          | none => rw [hq] at hv; cases hv
          | some q =>
            rw [hq] at hv
            dsimp only at hv ⊢
            cases ht : x.hp.kind.toVal q with
            | none => rw [ht] at hv; cases hv
            | some u =>
              rw [ht] at hv
              cases hv
              show (dictSet (c.vals.getD []) n (roundVal x.hp.kind u)).lookup n = _
              rw [dictSet_lookup, if_pos rfl]
    rw [h3] at hcache
    dsimp only at hcache
    unfold Config.getItem
    dsimp only
    rw [hcache]

/-- **C88, false of the code: integer arrays.** The constructor keeps the element type of an array.  An assignment to a configuration
made from an array of integers that succeeds keeps only the integral part of the entry, for every space, hyperparameter and value. -/
theorem C88_integer_array_truncates (hs : Reach calls s) (ops : List Op) {i : Nat} {k : CfgObj} {a : Arr}
    (hk : (Memory.run s {} ops).cfgs[i]? = some k) (ha : (Memory.run s {} ops).arrs[k.ref]? = some a) (hd : a.dt = .int)
    {x : HP} (hx : x ∈ allHps calls) {v : Val} {q : Rat} (hq : x.kind.toVec v = some q)
    (hset : ((Memory.run s {} ops).step s (.set i x.name v)).2 = .done) :
    ∃ c, ((Memory.run s {} ops).step s (.set i x.name v)).1.cfg? i = some c ∧ c.vec.at (s.idx x.name) = some (truncRat q) := by
  have hok := ok_program hs ops
  generalize Memory.run s {} ops = w at hk ha hok hset
  obtain ⟨b, hb, hbl⟩ := hok k (List.mem_of_getElem? hk)
  rw [ha] at hb; cases hb
  obtain ⟨y, hy, rfl⟩ := node_of_hp hs hx
  have hyn : y.hp.name ∈ s.names := mem_names hy
  have hf : findNode s.dag.nodes y.hp.name = some y := by
    rw [(sinv_of_reach hs).com]; exact findNode_of_mem (reach_ninv hs).nodup hy
  have hset' : (w.setItem s i y.hp.name v).2 = .done := hset
  show ∃ c, (w.setItem s i y.hp.name v).1.cfg? i = some c ∧ _
  unfold Memory.setItem at hset' ⊢
  rw [hk] at hset' ⊢; dsimp only at hset' ⊢
  rw [ha] at hset' ⊢; dsimp only at hset' ⊢
  rw [hf] at hset' ⊢; dsimp only at hset' ⊢
  split at hset'
  · cases hset'
  · rename_i hleg
    rw [if_neg hleg]
    rw [hq] at hset' ⊢; dsimp only at hset' ⊢
    cases hc : s.check (s.changeHpA a y.hp.name q (s.idx y.hp.name)).data with
    | some e => rw [hc] at hset'; cases hset'
    | none =>
      dsimp only
      refine ⟨_, cfg?_def (w := ⟨w.arrs ++ [_], w.cfgs.set i _⟩) (o := { k with ref := w.arrs.length, vals := none })
        (a := s.changeHpA a y.hp.name q (s.idx y.hp.name)) ?_ ?_, ?_⟩
      · show (w.cfgs.set i _)[i]? = _
        rw [List.getElem?_set_self (List.getElem?_eq_some_iff.1 hk).1]
      · show (w.arrs ++ [_])[w.arrs.length]? = _
        simp
      · dsimp only
        rw [changeHpA_at hs a hyn q]
        obtain ⟨dt, d⟩ := a
        cases hd
        exact at_set_eq (by rw [show d.length = s.len from hbl]; exact idx_lt hs hyn)

/-- A choice and a float in [0, 1]. -/
def ExI.hpF : HP := ⟨"f", .flt 0 1, .flt (1/2)⟩
def ExI.call : Call := ⟨[ExH.hpA, ExI.hpF], [], []⟩
def ExI.sp : Space := Ex.committed {} ExI.call

theorem ExI.reach : Reach [ExI.call] ExI.sp :=
  Reach.snoc (calls := []) .nil (by decide +kernel)
    (Ex.add_of_stages [("a", some (.str "p")), ("f", some (.flt (1/2)))] [some 0, some (1/2)] [("a", .str "p"), ("f", .flt (1/2))]
      (by decide +kernel) (by decide +kernel) (by decide +kernel) (by decide +kernel) (by decide +kernel) (by decide +kernel))

/-- The program: an array of integers, a configuration made from it, the assignment of one half, and reading it. -/
def ExI.ops : List Op := [.array ⟨.int, [some 1, some 1]⟩, .ofArray 0 false]

/-- **C88, false of the code: the assigned value is lost.** `config["f"] = 0.5` succeeds, and `config["f"]` is `0.0`. -/
theorem C88_assigned_value_lost :
    ((Memory.run ExI.sp {} ExI.ops).step ExI.sp (.set 0 "f" (.flt (1/2)))).2 = .done ∧
    (Memory.step ExI.sp ((Memory.run ExI.sp {} ExI.ops).step ExI.sp (.set 0 "f" (.flt (1/2)))).1 (.get 0 "f")).2 = .value (.flt 0) := by
  decide +kernel

/-- A polite program: two configurations from one array, assignments to both, and a write to an array that is not used any more. -/
def ExI.polite : List Op :=
  [.array ⟨.float, [some 1, some 1]⟩, .ofArray 0 false, .ofArray 0 false, .get 0 "a", .set 0 "f" (.flt (1/2)), .set 1 "a" (.str "p"),
    .write 0 0 none]

example : Polite ExI.sp {} ExI.polite := by
  refine ⟨rfl, trivial, trivial, trivial, trivial, trivial, ?_, trivial⟩
  show ∀ k ∈ _, _
  decide +kernel

/-- Its configurations: the first has a = q and f = 1/2, the second a = p and f = 1. -/
example : ((Memory.run ExI.sp {} ExI.polite).cfg? 0).map Config.vec = some [some 1, some (1/2)] ∧
    ((Memory.run ExI.sp {} ExI.polite).cfg? 1).map Config.vec = some [some 0, some 1] := by
  decide +kernel

/-- A case of `C88_stale_value`: after the array has been made and the configuration constructed, `a` can be read. -/
example : (Memory.run ExI.sp {} (ExI.polite.take 2)).cfgs[0]?.map CfgObj.ref = some 0 ∧ "a" ∈ ExI.sp.names ∧
    ((Memory.run ExI.sp {} (ExI.polite.take 2)).step ExI.sp (.get 0 "a")).2 = .value (.str "q") := by
  decide +kernel

/-- The theorems on this program: its configurations are those that single calls can make, and the second one is not touched by what is
done to the first. -/
example (c : Config) (hc : (Memory.run ExI.sp {} ExI.polite).cfg? 0 = some c) : CfgReach ExI.sp c :=
  C88_polite_programs_partial ExI.reach ExI.polite (by
    refine ⟨rfl, trivial, trivial, trivial, trivial, trivial, ?_, trivial⟩
    show ∀ k ∈ _, _
    decide +kernel) 0 c hc

example (c : Config) (hc : (Memory.run ExI.sp {} (ExI.polite.take 3)).cfg? 1 = some c) :
    ((Memory.run ExI.sp {} (ExI.polite.take 3)).step ExI.sp (.set 0 "f" (.flt (1/2)))).1.cfg? 1 = some c :=
  C88_elsewhere _ 1 c hc _ (by show (0 : Nat) ≠ 1; decide)

example : ((Memory.run ExI.sp {} (ExI.polite.take 3)).step ExI.sp (.set 0 "f" (.flt (1/2)))).1.arrs[0]? = some ⟨.float, [some 1, some 1]⟩ :=
  C88_arrays_kept _ _ (by intro r i e; simp) 0 _ rfl

/-- Two configurations are made from the array of the program; writing `0` to it changes both. -/
example : ∃ c c', ((Memory.run ExI.sp {} (ExI.polite.take 1)).run ExI.sp [.ofArray 0 false, .ofArray 0 false, .write 0 1 (some 0)]).cfg? 0 = some c ∧
    ((Memory.run ExI.sp {} (ExI.polite.take 1)).run ExI.sp [.ofArray 0 false, .ofArray 0 false, .write 0 1 (some 0)]).cfg? 1 = some c' ∧
    c.vec = [some 1, some 0] ∧ c'.vec = [some 1, some 0] :=
  C88_write_changes_configurations (Memory.run ExI.sp {} (ExI.polite.take 1)) 0 ⟨.float, [some 1, some 1]⟩ rfl rfl
    (by decide +kernel) 1 (by decide +kernel) (some 0)

/-- A case of `C88_integer_array_truncates`. -/
example : ∃ c, ((Memory.run ExI.sp {} ExI.ops).step ExI.sp (.set 0 "f" (.flt (1/2)))).1.cfg? 0 = some c ∧
    c.vec.at (ExI.sp.idx "f") = some (truncRat (1/2)) := by
  have hk : ∃ k, (Memory.run ExI.sp {} ExI.ops).cfgs[0]? = some k := ⟨_, rfl⟩
  obtain ⟨k, hk⟩ := hk
  have hr : k.ref = 0 := by
    have h0 : (Memory.run ExI.sp {} ExI.ops).cfgs[0]?.map CfgObj.ref = some 0 := by decide +kernel
    rw [hk] at h0
    simpa using h0
  exact C88_integer_array_truncates ExI.reach ExI.ops hk (a := ⟨.int, [some 1, some 1]⟩) (by rw [hr]; rfl) rfl (x := ExI.hpF)
    (by simp [allHps, ExI.call]) (v := .flt (1/2)) (q := 1/2) (by decide +kernel) C88_assigned_value_lost.1

end Verif
