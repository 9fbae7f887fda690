import Verif.Lemmas.Build
import Verif.Spec.Util

/-!
# Removing inactive hyperparameters
-/

set_option autoImplicit false

namespace Verif
open Verif.Spec

variable {calls : List Call} {s : Space}

/-! ## Configurations with a full cache -/

/-- One hyperparameter of a configuration built from a dictionary. -/
def FullAt (k : Kind) (o : Option Val) (e : NV) : Prop :=
  (∃ w q, o = some w ∧ k.legalValue w = true ∧ roundVal k w = w ∧ k.toVec w = some q ∧ e = some q) ∨
  (o = none ∧ e = none)

/-- A configuration built from a dictionary: all values are cached. -/
structure Full (s : Space) (c : Config) : Prop where
  len : c.vec.length = s.len
  unk : ∀ n, n ∉ s.names → (c.vals.getD []).lookup n = none
  ent : ∀ x ∈ s.com, FullAt x.hp.kind ((c.vals.getD []).lookup x.name) (c.vec.at (s.idx x.name))

theorem full_of_filled (h : Reach calls s) {d : Dict} {v : Vec} {vals : List (Name × Val)} {al : Bool}
    (hl : v.length = s.len) (hn : ∀ n, n ∉ s.names → vals.lookup n = none)
    (hf : ∀ x ∈ s.com, Filled d x (v.at (s.idx x.name)) (vals.lookup x.name)) : Full s ⟨v, some vals, al⟩ := by
  refine ⟨hl, hn, ?_⟩
  intro x hx
  rcases hf x hx with ⟨w, q, h1, h2, h3, h4, h5⟩ | ⟨_, h4, h5⟩
  · exact .inl ⟨_, q, h5, roundVal_legal (node_wf h hx) h2, roundVal_idem _ _, h3, h4⟩
  · exact .inr ⟨h5, h4⟩

theorem full_of_values (h : Reach calls s) {d : Dict} {al : Bool} {c : Config} (hc : Config.ofValues s d al = .ok c) :
    Full s c := by
  obtain ⟨_, h2, _, _, vals, h5, h6, h7⟩ := ofValues_ok h hc
  have := full_of_filled h (al := c.allow) h2 h6 h7
  rw [← h5] at this
  exact this

/-- Reading one item. -/
theorem getItem_full (h : Reach calls s) {c : Config} (hc : Full s c) {x : Node} (hx : x ∈ s.com) :
    (c.getItem s x.name).1 = match (c.vals.getD []).lookup x.name with
      | some w => .ok w
      | none => .error .keyError := by
  rcases hc.ent x hx with ⟨w, q, h1, _⟩ | ⟨h1, h2⟩
  · rw [h1]; unfold Config.getItem; rw [h1]
  · rw [getItem_node h hx h1, h1, h2]

theorem mem_keys {c : Config} {n : Name} : n ∈ c.keys s ↔ n ∈ s.names ∧ isSet (c.vec.at (s.idx n)) = true := by
  simp [Config.keys]

theorem lookup_map_names (f : Name → Option Val) : ∀ {ns : List Name} {n : Name},
    (ns.map (fun m => (m, f m))).lookup n = if n ∈ ns then some (f n) else none := by
  intro ns
  induction ns with
  | nil => intro n; simp
  | cons m ms ih =>
    intro n
    simp only [List.map_cons, List.lookup_cons, List.mem_cons]
    by_cases e : n = m
    · subst e; simp
    · have : (n == m) = false := by simpa using e
      simp [this, ih, e]

/-- `dict(config)` for such a configuration. -/
theorem toDict_full (h : Reach calls s) {c : Config} (hc : Full s c) :
    c.toDict s = .ok ((c.keys s).map (fun n => (n, (c.vals.getD []).lookup n))) := by
  have : ∀ ns : List Name, (∀ n ∈ ns, n ∈ c.keys s) →
      c.items s ns = .ok (ns.map (fun n => (n, (c.vals.getD []).lookup n))) := by
    intro ns
    induction ns with
    | nil => intro _; rfl
    | cons n ns ih =>
      intro hall
      have h1 := ih (fun m hm => hall m (List.mem_cons_of_mem n hm))
      obtain ⟨h2, h3⟩ := mem_keys.1 (hall n (by simp))
      obtain ⟨x, hx, rfl⟩ := List.mem_map.1 h2
      unfold Config.items
      rw [getItem_full h hc hx, h1]
      rcases hc.ent x hx with ⟨w, q, k1, _⟩ | ⟨k1, k2⟩
      · rw [k1]; simp [k1]
      · rw [k2] at h3; simp [isSet] at h3
  exact this _ (fun _ hn => hn)

theorem asg_unset (h : Reach calls s) {v : Vec} (hl : v.length = s.len) {m : Name} (hm : m ∈ s.names) (n : Name) :
    asg s.idx (v.set (s.idx m) none) n = if n = m then none else asg s.idx v n := by
  have hi := sinv_of_reach h
  unfold asg
  by_cases e : n = m
  · subst e
    rw [if_pos rfl, at_set_eq (by rw [hl]; exact idx_lt h hm)]
  · rw [if_neg e]
    refine at_set_ne ?_
    intro e'
    by_cases hn : n ∈ s.names
    · exact e (idx_inj h hn hm e'.symm)
    · have h1 := idx_lt h hm
      have h2 : s.idx n = s.names.length := List.idxOf_eq_length hn
      rw [hi.len] at h1
      have : s.names.length = s.com.length := by simp [Space.names]
      omega

theorem dictDel_lookup {d : Dict} {m n : Name} : (dictDel d m).lookup n = if n = m then none else d.lookup n := by
  induction d with
  | nil => simp [dictDel]
  | cons kv d ih =>
    obtain ⟨k, o⟩ := kv
    unfold dictDel at *
    by_cases e : k = m
    · subst e
      simp only [List.filter_cons, ne_eq, not_true_eq_false, decide_false, Bool.false_eq_true, if_false, ih,
        List.lookup_cons]
      by_cases e' : n = k
      · simp [e']
      · have : (n == k) = false := by simpa using e'
        simp [this]
    · simp only [List.filter_cons, ne_eq, e, not_false_eq_true, decide_true, if_true, List.lookup_cons, ih]
      by_cases e' : n = k
      · subst e'
        simp [e]
      · have : (n == k) = false := by simpa using e'
        simp [this]

/-- One removal. -/
theorem without_full (h : Reach calls s) {c : Config} (hc : Full s c) {x : Node} (hx : x ∈ s.com) :
    (c.vec.at (s.idx x.name) = none → c.without s x.name = .ok none) ∧
    (∀ q, c.vec.at (s.idx x.name) = some q → ∃ c', Full s c' ∧ c'.vec = c.vec.set (s.idx x.name) none ∧
      (∀ n, n ≠ x.name → (c'.vals.getD []).lookup n = (c.vals.getD []).lookup n) ∧
      c.without s x.name = match s.check c'.vec true with
        | some e => .error e
        | none => .ok (some c')) := by
  have hn := reach_ninv h
  have hd := toDict_full h hc
  have hlk : ∀ n, ((c.keys s).map (fun n => (n, (c.vals.getD []).lookup n))).lookup n =
      if n ∈ c.keys s then some ((c.vals.getD []).lookup n) else none := fun n => lookup_map_names _
  constructor
  · intro hq
    unfold Config.without
    rw [hd]
    simp only
    rw [hlk, if_neg (c := x.name ∈ c.keys s)]
    · simp
    · rw [mem_keys, hq]; simp [isSet]
  · intro q hq
    have hset : x.name ∈ c.keys s := mem_keys.2 ⟨mem_names hx, by rw [hq]; rfl⟩
    let d := dictDel ((c.keys s).map (fun n => (n, (c.vals.getD []).lookup n))) x.name
    obtain ⟨vals, hof, hfill, hnone⟩ := ofValues_eq h (d := d) (v := c.vec.set (s.idx x.name) none)
      (by
        intro kv hkv
        obtain ⟨k1, _⟩ := List.mem_filter.1 hkv
        obtain ⟨n, k2, rfl⟩ := List.mem_map.1 k1
        exact (mem_keys.1 k2).1)
      (by rw [List.length_set]; exact hc.len)
      (by
        intro y hy
        have h1 := asg_unset h hc.len (mem_names hx) y.name
        unfold asg at h1
        rw [h1, dictDel_lookup, hlk]
        by_cases e : y.name = x.name
        · rw [if_pos e, if_pos e]
          exact .inr ⟨.inl rfl, rfl⟩
        · rw [if_neg e, if_neg e]
          rcases hc.ent y hy with ⟨w, q, k1, k2, k3, k4, k5⟩ | ⟨k1, k2⟩
          · rw [if_pos (mem_keys.2 ⟨mem_names hy, by rw [k5]; rfl⟩)]
            exact .inl ⟨w, q, by rw [k1], k2, by rw [k3]; exact k4, k5⟩
          · rw [if_neg (by rw [mem_keys, k2]; simp [isSet])]
            exact .inr ⟨.inl rfl, k2⟩) true
    refine ⟨⟨c.vec.set (s.idx x.name) none, some vals, true⟩,
      full_of_filled h (by rw [List.length_set]; exact hc.len) hnone hfill, rfl, ?_, ?_⟩
    · intro n hne
      simp only [Option.getD_some]
      by_cases hnn : n ∈ s.names
      · obtain ⟨y, hy, rfl⟩ := List.mem_map.1 hnn
        rcases hfill y hy with ⟨w, q, k1, k2, k3, k4, k5⟩ | ⟨k1, k2, k3⟩
        · rw [k5]
          rw [dictDel_lookup, if_neg hne, hlk] at k1
          split at k1
          · simp only [Option.some.injEq] at k1
            rcases hc.ent y hy with ⟨w', q', j1, j2, j3, _⟩ | ⟨j1, _⟩
            · rw [j1] at k1 ⊢
              cases k1
              rw [j3]
            · rw [j1] at k1; cases k1
          · cases k1
        · rw [k3]
          rw [dictDel_lookup, if_neg hne, hlk] at k1
          rcases hc.ent y hy with ⟨w', q', j1, j2, j3, j4, j5⟩ | ⟨j1, _⟩
          · rw [if_pos (mem_keys.2 ⟨mem_names hy, by rw [j5]; rfl⟩), j1] at k1
            rcases k1 with k1 | k1 <;> cases k1
          · exact j1.symm
      · rw [hnone n hnn, hc.unk n hnn]
    · unfold Config.without
      rw [hd]
      simp only
      rw [hlk, if_pos hset]
      simp only [Option.isNone_some, Bool.false_eq_true, if_false]
      rw [hof]
      cases s.check (c.vec.set (s.idx x.name) none) true <;> rfl

/-! ## One child -/

/-- The assignment of a configuration. -/
abbrev asgOf (s : Space) (c : Config) : Assign := asg s.idx c.vec

/-- The ways in which the traversal treats a child without an exception. -/
inductive DeStep (s : Space) (x : Node) (c : Cond) (st : DeState) : DeState → Prop where
  | keep : Holds (asgOf s st.cfg) c → DeStep s x c st { st with queue := st.queue ++ [x.name] }
  | skip : ¬ Holds (asgOf s st.cfg) c → asgOf s st.cfg x.name = none → DeStep s x c st st
  | drop {q : Rat} {c' : Config} : ¬ Holds (asgOf s st.cfg) c → asgOf s st.cfg x.name = some q → Full s c' →
      c'.vec = st.cfg.vec.set (s.idx x.name) none →
      (∀ n, n ≠ x.name → (c'.vals.getD []).lookup n = (st.cfg.vals.getD []).lookup n) →
      s.check c'.vec true = none →
      DeStep s x c st { cfg := c', queue := st.queue ++ [x.name], inactive := st.inactive ++ [x.name] }

theorem parentConds_node (h : Reach calls s) {x : Node} (hx : x ∈ s.com) {c : Cond} (hc : x.cond = some c) :
    s.parentConds x.name = [c] := by
  unfold Space.parentConds
  rw [findNode_of_mem (reach_ninv h).nodup hx]
  show x.cond.toList = [c]
  rw [hc]
  rfl

theorem deChild_cases (h : Reach calls s) {x : Node} (hx : x ∈ s.com) {c : Cond} (hc : x.cond = some c)
    {st : DeState} (hf : Full s st.cfg) :
    (∃ st', deChild s x.name (s.parentConds x.name) st = .ok st' ∧ DeStep s x c st st') ∨
    (∃ e q, deChild s x.name (s.parentConds x.name) st = .error e ∧ ¬ Holds (asgOf s st.cfg) c ∧
      asgOf s st.cfg x.name = some q ∧ s.check (st.cfg.vec.set (s.idx x.name) none) true = some e) := by
  rw [parentConds_node h hx hc]
  unfold deChild
  have hs := satVec_iff c s.idx st.cfg.vec
  cases hb : c.satVec s.idx st.cfg.vec with
  | true => exact .inl ⟨_, rfl, .keep (hs.1 hb)⟩
  | false =>
    have hnh : ¬ Holds (asgOf s st.cfg) c := fun k => by rw [hs.2 k] at hb; cases hb
    simp only [Bool.false_eq_true, if_false]
    obtain ⟨w1, w2⟩ := without_full h hf hx
    cases hq : st.cfg.vec.at (s.idx x.name) with
    | none => rw [w1 hq]; exact .inl ⟨_, rfl, .skip hnh hq⟩
    | some q =>
      obtain ⟨c', k1, k2, k3, k4⟩ := w2 q hq
      rw [k4]
      cases hck : s.check c'.vec true with
      | some e => exact .inr ⟨e, q, rfl, hnh, hq, by rw [← k2]; exact hck⟩
      | none => exact .inl ⟨_, rfl, .drop hnh hq k1 k2 k3 hck⟩

/-- Names of the children of a node are names of conditional nodes. -/
theorem childrenOf_node (h : Reach calls s) {p n : Name} (hn : n ∈ s.childrenOf p) :
    ∃ x ∈ s.com, x.name = n ∧ ∃ c, x.cond = some c := by
  obtain ⟨d, hd, hdn, _⟩ := (reach_edge h p n).1 hn
  exact node_of_child h hd hdn

theorem children_of_parent (h : Reach calls s) {x : Node} (hx : x ∈ s.com) {c : Cond} (hc : x.cond = some c)
    {p : Name} (hp : p ∈ c.parents) : x.name ∈ s.childrenOf p := by
  obtain ⟨k1, k2, _⟩ := node_cond h hx hc
  exact (reach_edge h p x.name).2 ⟨c, k1, k2, parents_iff.1 hp⟩

/-! ## Induction over the loops -/

theorem DeStep.full {x : Node} {c : Cond} {st st' : DeState} (hd : DeStep s x c st st') (hf : Full s st.cfg) :
    Full s st'.cfg := by
  cases hd with
  | keep _ => exact hf
  | skip _ _ => exact hf
  | drop _ _ hf' _ _ _ => exact hf'

theorem deChildren_inv (h : Reach calls s) (P : List Name → DeState → Prop)
    (hstep : ∀ x ∈ s.com, ∀ c, x.cond = some c → ∀ ns st st', Full s st.cfg → P (x.name :: ns) st →
      DeStep s x c st st' → P ns st') :
    ∀ {ns : List Name} {st : DeState}, (∀ n ∈ ns, ∃ x ∈ s.com, x.name = n ∧ ∃ c, x.cond = some c) →
      Full s st.cfg → P ns st →
      (∃ st', deChildren s ns st = .ok st' ∧ Full s st'.cfg ∧ P [] st') ∨
      (∃ e, deChildren s ns st = .error e ∧ ∃ x ∈ s.com, ∃ c ns' st' q, x.cond = some c ∧ Full s st'.cfg ∧
        P (x.name :: ns') st' ∧ ¬ Holds (asgOf s st'.cfg) c ∧ asgOf s st'.cfg x.name = some q ∧
        s.check (st'.cfg.vec.set (s.idx x.name) none) true = some e) := by
  intro ns
  induction ns with
  | nil => intro st _ hf hp; exact .inl ⟨st, rfl, hf, hp⟩
  | cons n ns ih =>
    intro st hall hf hp
    obtain ⟨x, hx, rfl, c, hc⟩ := hall n (by simp)
    unfold deChildren
    rcases deChild_cases h hx hc hf with ⟨st1, h1, h2⟩ | ⟨e, q, h1, h2, h3, h4⟩
    · rw [h1]
      exact ih (fun m hm => hall m (List.mem_cons_of_mem _ hm)) (h2.full hf) (hstep x hx c hc ns st st1 hf hp h2)
    · rw [h1]
      exact .inr ⟨e, rfl, x, hx, c, ns, st, q, hc, hf, hp, h2, h3, h4⟩

theorem deLoop_inv (h : Reach calls s) (P : List Name → DeState → Prop)
    (hstart : ∀ n q st, st.queue = n :: q → P [] st → P (s.childrenOf n) { st with queue := q })
    (hstep : ∀ x ∈ s.com, ∀ c, x.cond = some c → ∀ ns st st', Full s st.cfg → P (x.name :: ns) st →
      DeStep s x c st st' → P ns st') :
    ∀ {k : Nat} {st : DeState} {r : Except Err DeState}, deLoop s k st = some r → Full s st.cfg → P [] st →
      (∃ st', r = .ok st' ∧ Full s st'.cfg ∧ P [] st' ∧ st'.queue = []) ∨
      (∃ e, r = .error e ∧ ∃ x ∈ s.com, ∃ c ns' st' q, x.cond = some c ∧ Full s st'.cfg ∧
        P (x.name :: ns') st' ∧ ¬ Holds (asgOf s st'.cfg) c ∧ asgOf s st'.cfg x.name = some q ∧
        s.check (st'.cfg.vec.set (s.idx x.name) none) true = some e) := by
  intro k
  induction k with
  | zero =>
    intro st r hr hf hp
    unfold deLoop at hr
    split at hr
    · rename_i hq
      cases hr
      exact .inl ⟨st, rfl, hf, hp, by simpa using hq⟩
    · cases hr
  | succ k ih =>
    intro st r hr hf hp
    unfold deLoop at hr
    split at hr
    · rename_i hq
      cases hr
      exact .inl ⟨st, rfl, hf, hp, hq⟩
    · rename_i n q hq
      rcases deChildren_inv h P hstep (ns := s.childrenOf n) (st := { st with queue := q })
        (fun m hm => childrenOf_node h hm) hf (hstart n q st hq hp) with ⟨st1, h1, h2, h3⟩ | ⟨e, h1, h2⟩
      · rw [h1] at hr
        exact ih hr h2 h3
      · rw [h1] at hr
        cases hr
        exact .inr ⟨e, rfl, h2⟩

/-! ## Termination -/

theorem deChild_queue {n : Name} : ∀ {cs : List Cond} {st st' : DeState}, deChild s n cs st = .ok st' →
    ∃ ext, st'.queue = st.queue ++ ext ∧ ∀ m ∈ ext, m = n := by
  intro cs
  induction cs with
  | nil => intro st st' hr; cases hr; exact ⟨[], by simp, by simp⟩
  | cons c cs ih =>
    intro st st' hr
    unfold deChild at hr
    have push : ∀ st1 : DeState, st1.queue = st.queue ++ [n] → deChild s n cs st1 = .ok st' →
        ∃ ext, st'.queue = st.queue ++ ext ∧ ∀ m ∈ ext, m = n := by
      intro st1 h1 h2
      obtain ⟨ext, h3, h4⟩ := ih h2
      exact ⟨n :: ext, by rw [h3, h1]; simp, by simpa using h4⟩
    split at hr
    · exact push _ rfl hr
    · split at hr
      · cases hr
      · exact ih hr
      · exact push _ rfl hr

theorem deChildren_queue : ∀ {ns : List Name} {st st' : DeState}, deChildren s ns st = .ok st' →
    ∃ ext, st'.queue = st.queue ++ ext ∧ ∀ m ∈ ext, m ∈ ns := by
  intro ns
  induction ns with
  | nil => intro st st' hr; cases hr; exact ⟨[], by simp, by simp⟩
  | cons n ns ih =>
    intro st st' hr
    unfold deChildren at hr
    split at hr
    · cases hr
    · rename_i st1 h1
      obtain ⟨e1, h2, h3⟩ := deChild_queue h1
      obtain ⟨e2, h4, h5⟩ := ih hr
      refine ⟨e1 ++ e2, by rw [h4, h2]; simp, ?_⟩
      intro m hm
      rcases List.mem_append.1 hm with hm | hm
      · rw [h3 m hm]; simp
      · exact List.mem_cons_of_mem _ (h5 m hm)

theorem le_sum_of_mem {l : List Nat} {a : Nat} (ha : a ∈ l) : a ≤ l.sum := by
  induction l with
  | nil => cases ha
  | cons b l ih =>
    simp only [List.sum_cons]
    rcases List.mem_cons.1 ha with rfl | ha
    · omega
    · have := ih ha; omega

/-- The traversal ends. -/
theorem deLoop_total (h : Reach calls s) (st : DeState) (hq : ∀ n ∈ st.queue, n ∈ s.names) :
    ∃ k r, deLoop s k st = some r := by
  have hn := reach_ninv h
  obtain ⟨D, hD⟩ : ∃ D, ∀ n ∈ s.names, depthOf s.com n < D := by
    refine ⟨(s.names.map (depthOf s.com)).sum + 1, ?_⟩
    intro n hn
    have := le_sum_of_mem (List.mem_map.2 ⟨n, hn, rfl⟩ : depthOf s.com n ∈ s.names.map (depthOf s.com))
    omega
  have main : ∀ (j : Nat) (q r : List Name) (st : DeState), st.queue = q ++ r →
      (∀ n ∈ q, n ∈ s.names ∧ D ≤ depthOf s.com n + j) →
      (∀ n ∈ r, n ∈ s.names ∧ D + 1 ≤ depthOf s.com n + j) → ∃ k r, deLoop s k st = some r := by
    intro j
    induction j with
    | zero =>
      intro q r st hqr h1 h2
      have hq0 : q = [] := by
        cases q with
        | nil => rfl
        | cons n q => have := h1 n (by simp); have := hD n this.1; omega
      have hr0 : r = [] := by
        cases r with
        | nil => rfl
        | cons n r => have := h2 n (by simp); have := hD n this.1; omega
      refine ⟨0, .ok st, ?_⟩
      unfold deLoop
      rw [hqr, hq0, hr0]; rfl
    | succ j ih =>
      intro q
      induction q with
      | nil =>
        intro r st hqr _ h2
        exact ih r [] st (by simpa using hqr) (fun n hn => ⟨(h2 n hn).1, by have := (h2 n hn).2; omega⟩) (by simp)
      | cons n q ihq =>
        intro r st hqr h1 h2
        cases hch : deChildren s (s.childrenOf n) { st with queue := q ++ r } with
        | error e =>
          refine ⟨1, .error e, ?_⟩
          unfold deLoop
          rw [hqr, List.cons_append]
          simp only [hch]
        | ok st1 =>
          obtain ⟨ext, h3, h4⟩ := deChildren_queue hch
          obtain ⟨k, res, hk⟩ := ihq (r ++ ext) st1 (by rw [h3]; simp)
            (fun m hm => h1 m (List.mem_cons_of_mem _ hm)) (by
              intro m hm
              rcases List.mem_append.1 hm with hm | hm
              · exact h2 m hm
              · have hedge : Edge s.com n m := h4 m hm
                have := hn.good _ _ hedge
                have := (h1 n (by simp)).2
                exact ⟨(hn.edges _ _ hedge).2, by omega⟩)
          refine ⟨k + 1, res, ?_⟩
          unfold deLoop
          rw [hqr, List.cons_append]
          simp only [hch]
          exact hk
  exact main D st.queue [] st (by simp) (fun n hn => ⟨hq n hn, by omega⟩) (by simp)

theorem deLoop_succ (k : Nat) (st : DeState) : deLoop s (k + 1) st = (match st.queue with
    | [] => some (.ok st)
    | n :: q => match deChildren s (s.childrenOf n) { st with queue := q } with
      | .error e => some (.error e)
      | .ok st' => deLoop s k st') := rfl

theorem deLoop_mono : ∀ {k : Nat} {st : DeState} {r : Except Err DeState}, deLoop s k st = some r →
    ∀ j, k ≤ j → deLoop s j st = some r := by
  intro k
  induction k with
  | zero =>
    intro st r hr j _
    unfold deLoop at hr
    split at hr
    · rename_i hq
      have hq : st.queue = [] := by simpa using hq
      cases j with
      | zero => unfold deLoop; simpa [hq] using hr
      | succ j => unfold deLoop; simpa [hq] using hr
    · cases hr
  | succ k ih =>
    intro st r hr j hj
    cases j with
    | zero => omega
    | succ j =>
      rw [deLoop_succ] at hr ⊢
      cases hq : st.queue with
      | nil => rw [hq] at hr; exact hr
      | cons n q =>
        rw [hq] at hr
        simp only at hr ⊢
        cases he : deChildren s (s.childrenOf n) { st with queue := q } with
        | error e => rw [he] at hr; exact hr
        | ok st1 => rw [he] at hr; exact ih hr j (by omega)

/-! ## Pending hyperparameters -/

/-- A path of set hyperparameters below `p` that ends in `n` (which itself need not be set). -/
inductive PathSet (s : Space) (a : Assign) : Name → Name → Prop where
  | edge {p n : Name} : n ∈ s.childrenOf p → PathSet s a p n
  | step {p m n : Name} : m ∈ s.childrenOf p → a m ≠ none → PathSet s a m n → PathSet s a p n

theorem PathSet.snoc {a : Assign} {p m n : Name} (hp : PathSet s a p m) (hm : a m ≠ none)
    (he : n ∈ s.childrenOf m) : PathSet s a p n := by
  induction hp with
  | edge h1 => exact .step h1 hm (.edge he)
  | step h1 h2 _ ih => exact .step h1 h2 (ih hm he)

theorem PathSet.unset {a b : Assign} {m : Name} (hb : ∀ n, n ≠ m → b n = a n) {p n : Name}
    (hp : PathSet s a p n) : PathSet s b p n ∨ PathSet s b m n := by
  induction hp with
  | edge h1 => exact .inl (.edge h1)
  | @step p k n h1 h2 _ ih =>
    by_cases e : k = m
    · subst e
      exact .inr (ih.elim id id)
    · rcases ih with ih | ih
      · exact .inl (.step h1 (by rw [hb k e]; exact h2) ih)
      · exact .inr ih

/-- The traversal will still come to `n`. -/
def Pend (s : Space) (a : Assign) (queue rem : List Name) (n : Name) : Prop :=
  (∃ p ∈ queue, PathSet s a p n) ∨ n ∈ rem ∨ ∃ m ∈ rem, a m ≠ none ∧ PathSet s a m n

/-- Every hyperparameter that is to be removed is pending. -/
def Pending (s : Space) (rem : List Name) (st : DeState) : Prop :=
  ∀ x ∈ s.com, ∀ c, x.cond = some c → asgOf s st.cfg x.name ≠ none → ¬ Holds (asgOf s st.cfg) c →
    Pend s (asgOf s st.cfg) st.queue rem x.name

theorem pending_start (n : Name) (q : List Name) (st : DeState) (hq : st.queue = n :: q) (hp : Pending s [] st) :
    Pending s (s.childrenOf n) { st with queue := q } := by
  intro x hx c hc h1 h2
  rcases hp x hx c hc h1 h2 with ⟨p, hp, hpath⟩ | hp | ⟨m, hm, _⟩
  · rw [hq] at hp
    rcases List.mem_cons.1 hp with rfl | hp
    · cases hpath with
      | edge h1 => exact .inr (.inl h1)
      | step h1 h2 h3 => exact .inr (.inr ⟨_, h1, h2, h3⟩)
    · exact .inl ⟨p, hp, hpath⟩
  · cases hp
  · cases hm

theorem asgOf_drop (h : Reach calls s) {c c' : Config} (hf : Full s c) {x : Node} (hx : x ∈ s.com)
    (hv : c'.vec = c.vec.set (s.idx x.name) none) :
    asgOf s c' x.name = none ∧ ∀ n, n ≠ x.name → asgOf s c' n = asgOf s c n := by
  unfold asgOf
  rw [hv]
  have := asg_unset h hf.len (mem_names hx)
  refine ⟨by rw [this, if_pos rfl], fun n hn => by rw [this, if_neg hn]⟩

theorem pending_step (h : Reach calls s) (x : Node) (hx : x ∈ s.com) (c : Cond) (hc : x.cond = some c)
    (ns : List Name) (st st' : DeState) (hf : Full s st.cfg) (hp : Pending s (x.name :: ns) st)
    (hd : DeStep s x c st st') : Pending s ns st' := by
  have hn := reach_ninv h
  have uniq : ∀ y ∈ s.com, ∀ d, y.cond = some d → y.name = x.name → d = c := by
    intro y hy d hd e
    have h1 := findNode_of_mem hn.nodup hy
    have h2 := findNode_of_mem hn.nodup hx
    rw [e, h2] at h1
    cases h1
    rw [hc] at hd
    exact (Option.some.inj hd).symm
  cases hd with
  | keep hh =>
    intro y hy d hd h1 h2
    rcases hp y hy d hd h1 h2 with ⟨p, hp, hpath⟩ | hp | ⟨m, hm, k1, k2⟩
    · exact .inl ⟨p, List.mem_append_left _ hp, hpath⟩
    · rcases List.mem_cons.1 hp with e | hp
      · rw [uniq y hy d hd e] at h2
        exact absurd hh h2
      · exact .inr (.inl hp)
    · rcases List.mem_cons.1 hm with rfl | hm
      · exact .inl ⟨_, List.mem_append_right _ (by simp), k2⟩
      · exact .inr (.inr ⟨m, hm, k1, k2⟩)
  | skip hh hnone =>
    intro y hy d hd h1 h2
    rcases hp y hy d hd h1 h2 with hp | hp | ⟨m, hm, k1, k2⟩
    · exact .inl hp
    · rcases List.mem_cons.1 hp with e | hp
      · rw [e] at h1; exact absurd hnone h1
      · exact .inr (.inl hp)
    · rcases List.mem_cons.1 hm with rfl | hm
      · exact absurd hnone k1
      · exact .inr (.inr ⟨m, hm, k1, k2⟩)
  | @drop q c' hh hq hf' hv _ _ =>
    obtain ⟨hx0, hne⟩ := asgOf_drop h hf hx hv
    intro y hy d hd h1 h2
    have hyx : y.name ≠ x.name := by intro e; simp only [e] at h1; exact h1 hx0
    simp only at h1 h2 ⊢
    have hconv : ∀ p, PathSet s (asgOf s st.cfg) p y.name → p ∈ st.queue ++ [x.name] →
        Pend s (asgOf s c') (st.queue ++ [x.name]) ns y.name := by
      intro p hpath hpq
      rcases hpath.unset hne with k | k
      · exact .inl ⟨p, hpq, k⟩
      · exact .inl ⟨x.name, by simp, k⟩
    by_cases hold : Holds (asgOf s st.cfg) d
    · have : ∃ p ∈ d.parents, asgOf s st.cfg p ≠ asgOf s c' p := by
        apply Classical.byContradiction
        intro hno
        refine h2 ((holds_congr d ?_).1 hold)
        intro p hp
        apply Classical.byContradiction
        intro hne'
        exact hno ⟨p, hp, hne'⟩
      obtain ⟨p, hp1, hp2⟩ := this
      have : p = x.name := by
        apply Classical.byContradiction
        intro e
        exact hp2 (hne p e).symm
      subst this
      exact .inl ⟨x.name, by simp, .edge (children_of_parent h hy hd hp1)⟩
    · rcases hp y hy d hd (by rw [← hne _ hyx]; exact h1) hold with ⟨p, hp, hpath⟩ | hp | ⟨m, hm, k1, k2⟩
      · exact hconv p hpath (List.mem_append_left _ hp)
      · rcases List.mem_cons.1 hp with e | hp
        · exact absurd e hyx
        · exact .inr (.inl hp)
      · rcases List.mem_cons.1 hm with rfl | hm
        · exact hconv _ k2 (by simp)
        · by_cases e : m = x.name
          · subst e
            exact hconv _ k2 (by simp)
          · rcases k2.unset hne with k | k
            · exact .inr (.inr ⟨m, hm, by rw [hne m e]; exact k1, k⟩)
            · exact .inl ⟨x.name, by simp, k⟩

/-- At the beginning. -/
theorem pending_init (h : Reach calls s) {c : Config} (hatt : Attached calls (asgOf s c)) :
    Pending s [] { cfg := c, queue := s.dag.roots.filter (fun n => !(s.childrenOf n).isEmpty) } := by
  have hn := reach_ninv h
  have key : ∀ (d : Nat) (n : Name), depthOf s.com n ≤ d → Conditional calls n → asgOf s c n ≠ none →
      ∃ p ∈ s.dag.roots.filter (fun n => !(s.childrenOf n).isEmpty), PathSet s (asgOf s c) p n := by
    intro d
    induction d with
    | zero =>
      intro n hd hc hs
      obtain ⟨p, hp, _⟩ := hatt n hc hs
      have := hn.good _ _ ((reach_edge h p n).2 hp)
      omega
    | succ d ih =>
      intro n hd hc hs
      obtain ⟨p, hp, hps⟩ := hatt n hc hs
      have hedge : Edge s.com p n := (reach_edge h p n).2 hp
      have hlt := hn.good _ _ hedge
      by_cases hpc : Conditional calls p
      · obtain ⟨r, hr, hpath⟩ := ih p (by omega) hpc hps
        exact ⟨r, hr, hpath.snoc hps hedge⟩
      · refine ⟨p, List.mem_filter.2 ⟨(C06_roots_no_condition h p).2 ⟨(reach_isNode h p).1 (hn.edges _ _ hedge).1, hpc⟩, ?_⟩,
          .edge hedge⟩
        have : s.childrenOf p ≠ [] := List.ne_nil_of_mem hedge
        simp [this]
  intro x hx d hd h1 _
  obtain ⟨k1, k2, _⟩ := node_cond h hx hd
  exact .inl (key _ x.name (Nat.le_refl _) ⟨d, k1, k2⟩ h1)

/-! ## What is kept -/

/-- What is known of the current configuration. -/
structure DeInv (calls : List Call) (s : Space) (c0 : Config) (st : DeState) : Prop where
  prunes : Prunes calls (asgOf s st.cfg) (asgOf s c0)
  same : ∀ n, asgOf s st.cfg n ≠ none → (st.cfg.vals.getD []).lookup n = (c0.vals.getD []).lookup n
  gone : ∀ n ∈ st.inactive, asgOf s st.cfg n = none
  chk : s.check st.cfg.vec true = none

theorem deInv_step (h : Reach calls s) {c0 : Config} (x : Node) (hx : x ∈ s.com) (c : Cond) (hc : x.cond = some c)
    (st st' : DeState) (hf : Full s st.cfg) (hp : DeInv calls s c0 st)
    (hd : DeStep s x c st st') : DeInv calls s c0 st' := by
  cases hd with
  | keep hh => exact ⟨hp.prunes, hp.same, hp.gone, hp.chk⟩
  | skip hh hnone => exact hp
  | @drop q c' hh hq hf' hv hl hck =>
    obtain ⟨hx0, hne⟩ := asgOf_drop h hf hx hv
    obtain ⟨k1, k2, _⟩ := node_cond h hx hc
    refine ⟨⟨?_, ?_⟩, ?_, ?_, hck⟩
    · intro n r hr
      have hn' : n ≠ x.name := by intro e; subst e; simp only at hr; rw [hx0] at hr; cases hr
      simp only at hr
      rw [hne n hn'] at hr
      exact hp.prunes.1 n r hr
    · intro n hn
      have hn' : n ≠ x.name := by intro e; subst e; exact hn ⟨c, k1, k2⟩
      show asgOf s c' n = _
      rw [hne n hn']
      exact hp.prunes.2 n hn
    · intro n hn
      have hn' : n ≠ x.name := by intro e; subst e; exact hn hx0
      simp only at hn
      rw [hne n hn'] at hn
      show (c'.vals.getD []).lookup n = _
      rw [hl n hn']
      exact hp.same n hn
    · intro n hn
      show asgOf s c' n = none
      by_cases e : n = x.name
      · rw [e]; exact hx0
      · rw [hne n e]
        simp only [List.mem_append, List.mem_singleton, e, or_false] at hn
        exact hp.gone n hn

/-! ## Monotonicity -/

theorem holds_prunes (hmono : NoNeqOnConditional calls) {a b : Assign} (hp : Prunes calls b a) {c : Cond}
    (hc : c ∈ allConds calls) (hb : Holds b c) : Holds a c := by
  have : ∀ d : Cond, (∀ l ∈ d.dlcs, IsNotEquals l → ¬ Conditional calls l.parent.name) → Holds b d → Holds a d := by
    intro d
    induction d using Cond.induct with
    | hl l =>
      intro hne hb
      rw [holds_lit] at hb ⊢
      unfold LitHolds at hb ⊢
      cases ht : l.test with
      | bin op w x =>
        rw [ht] at hb
        cases op with
        | eq => exact hp.1 _ _ hb
        | ne =>
          have := hne l (by simp [Cond.dlcs]) ⟨w, x, ht⟩
          rw [← hp.2 _ this]; exact hb
        | lt => obtain ⟨q, h1, h2⟩ := hb; exact ⟨q, hp.1 _ _ h1, h2⟩
        | gt => obtain ⟨q, h1, h2⟩ := hb; exact ⟨q, hp.1 _ _ h1, h2⟩
      | isIn ws xs =>
        rw [ht] at hb
        obtain ⟨q, h1, h2⟩ := hb; exact ⟨q, h1, hp.1 _ _ h2⟩
    | ha cs ih =>
      intro hne hb
      rw [holds_and] at hb ⊢
      intro c hc
      exact ih c hc (fun l hl => hne l (by rw [Cond.dlcs]; exact mem_dlcsL.2 ⟨c, hc, hl⟩)) (hb c hc)
    | ho cs ih =>
      intro hne hb
      rw [holds_or] at hb ⊢
      obtain ⟨c, hc, hb⟩ := hb
      exact ⟨c, hc, ih c hc (fun l hl => hne l (by rw [Cond.dlcs]; exact mem_dlcsL.2 ⟨c, hc, hl⟩)) hb⟩
  exact this c (hmono c hc) hb

theorem forbids_restricts {a b : Assign} (hp : Restricts b a) {f : Forb} (hb : Forbids b f) : Forbids a f := by
  induction hb with
  | eq h1 => exact .eq (hp _ _ h1)
  | isIn h1 h2 => exact .isIn (hp _ _ h1) h2
  | rel h1 h2 h3 h4 h5 => exact .rel (hp _ _ h1) (hp _ _ h2) h3 h4 h5
  | and _ ih => exact .and ih

/-- Removing an inactive hyperparameter keeps the configuration acceptable. -/
theorem check_drop (h : Reach calls s) (hsep : Separable calls) (hown : OwnClauses calls)
    (hmono : NoNeqOnConditional calls) {cfg : Config} (hf : Full s cfg) (hck : s.check cfg.vec true = none) {x : Node}
    (hx : x ∈ s.com) {c : Cond} (hc : x.cond = some c) (hnh : ¬ Holds (asgOf s cfg) c) :
    s.check (cfg.vec.set (s.idx x.name) none) true = none := by
  obtain ⟨k1, k2, k3⟩ := node_cond h hx hc
  have hl : (cfg.vec.set (s.idx x.name) none).length = s.len := by rw [List.length_set]; exact hf.len
  obtain ⟨r1, r2, r3⟩ := (check_allow_iff h hsep hown (represents_asg h hf.len)).1 hck
  have ha := asg_unset h hf.len (mem_names hx)
  have hpr : Prunes calls (asg s.idx (cfg.vec.set (s.idx x.name) none)) (asg s.idx cfg.vec) := by
    constructor
    · intro n q hq
      rw [ha] at hq
      split at hq
      · cases hq
      · exact hq
    · intro n hn
      rw [ha, if_neg (by intro e; subst e; exact hn ⟨c, k1, k2⟩)]
  refine (check_allow_iff h hsep hown (represents_asg h hl)).2 ⟨?_, ?_, ?_⟩
  · intro n hn hcond
    rw [hpr.2 n hcond]
    exact r1 n hn hcond
  · intro d hd y hy hdn hh
    have hh' := holds_prunes hmono hpr hd hh
    rw [ha, if_neg]
    · exact r2 d hd y hy hdn hh'
    · intro e
      rw [e] at hdn
      exact hnh ((holds_pyEq hsep k1 hd (k3 d hd hdn) _).2 hh')
  · intro f hff hb
    exact r3 f hff (forbids_restricts hpr.1 hb)

/-! ## After the loop -/

theorem deFinal_noop (h : Reach calls s) {c : Config} (hf : Full s c) {inactive : List Name}
    (hg : ∀ n ∈ inactive, asgOf s c n = none) : ∀ {xs : List Node}, (∀ x ∈ xs, x ∈ s.com) →
    deFinal s inactive xs c = .ok c := by
  intro xs
  induction xs with
  | nil => intro _; rfl
  | cons x xs ih =>
    intro hall
    have h1 := ih (fun y hy => hall y (List.mem_cons_of_mem x hy))
    unfold deFinal
    split
    · rename_i hm
      rw [(without_full h hf (hall x (by simp))).1 (hg _ hm)]
      exact h1
    · exact h1

/-- Rebuilding a configuration from its dictionary. -/
theorem rebuild_full (h : Reach calls s) {c : Config} (hc : Full s c) (al : Bool) :
    ∃ d vals, c.toDict s = .ok d ∧ (∀ n, vals.lookup n = (c.vals.getD []).lookup n) ∧
      Config.ofValues s d al = match s.check c.vec al with
        | some e => .error e
        | none => .ok ⟨c.vec, some vals, al⟩ := by
  have hlk : ∀ n, ((c.keys s).map (fun n => (n, (c.vals.getD []).lookup n))).lookup n =
      if n ∈ c.keys s then some ((c.vals.getD []).lookup n) else none := fun n => lookup_map_names _
  obtain ⟨vals, hof, hfill, hnone⟩ := ofValues_eq h
    (d := (c.keys s).map (fun n => (n, (c.vals.getD []).lookup n))) (v := c.vec)
    (by
      intro kv hkv
      obtain ⟨n, k2, rfl⟩ := List.mem_map.1 hkv
      exact (mem_keys.1 k2).1) hc.len (by
      intro y hy
      rw [hlk]
      rcases hc.ent y hy with ⟨w, q, k1, k2, k3, k4, k5⟩ | ⟨k1, k2⟩
      · rw [if_pos (mem_keys.2 ⟨mem_names hy, by rw [k5]; rfl⟩)]
        exact .inl ⟨w, q, by rw [k1], k2, by rw [k3]; exact k4, k5⟩
      · rw [if_neg (by rw [mem_keys, k2]; simp [isSet])]
        exact .inr ⟨.inl rfl, k2⟩) al
  refine ⟨_, vals, toDict_full h hc, ?_, hof⟩
  intro n
  by_cases hnn : n ∈ s.names
  · obtain ⟨y, hy, rfl⟩ := List.mem_map.1 hnn
    rcases hfill y hy with ⟨w, q, k1, k2, k3, k4, k5⟩ | ⟨k1, k2, k3⟩
    · rw [k5]
      rw [hlk] at k1
      split at k1
      · simp only [Option.some.injEq] at k1
        rcases hc.ent y hy with ⟨w', q', j1, j2, j3, _⟩ | ⟨j1, _⟩
        · rw [j1] at k1 ⊢
          cases k1
          rw [j3]
        · rw [j1] at k1; cases k1
      · cases k1
    · rw [k3]
      rw [hlk] at k1
      rcases hc.ent y hy with ⟨w', q', j1, j2, j3, j4, j5⟩ | ⟨j1, _⟩
      · rw [if_pos (mem_keys.2 ⟨mem_names hy, by rw [j5]; rfl⟩), j1] at k1
        rcases k1 with k1 | k1 <;> cases k1
      · exact j1.symm
  · rw [hnone n hnn, hc.unk n hnn]

end Verif
