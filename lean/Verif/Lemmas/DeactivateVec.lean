import Verif.Lemmas.Deactivate

/-!
# Removing inactive hyperparameters from a configuration made from a vector
-/

set_option autoImplicit false

namespace Verif
open Verif.Spec

variable {calls : List Call} {s : Space}

/-! ## What the traversal sees of a configuration -/

/-- Two configurations that show the same dictionary and on which the conditions evaluate alike. -/
structure DeAlike (s : Space) (c1 c2 : Config) : Prop where
  dict : c1.toDict s = c2.toDict s
  sat : ∀ n, ∀ c ∈ s.parentConds n, c.satVec s.idx c1.vec = c.satVec s.idx c2.vec

theorem deAlike_refl (c : Config) : DeAlike s c c := ⟨rfl, fun _ _ _ => rfl⟩

theorem without_deAlike {c1 c2 : Config} (h : DeAlike s c1 c2) (n : Name) : c1.without s n = c2.without s n := by
  unfold Config.without
  rw [h.dict]

/-- Two states of the traversal that differ in the configuration only. -/
structure DeAlikeSt (s : Space) (t1 t2 : DeState) : Prop where
  cfg : DeAlike s t1.cfg t2.cfg
  queue : t1.queue = t2.queue
  inactive : t1.inactive = t2.inactive

/-- The same exception, or states that are alike. -/
def DeAlikeRes (s : Space) : Except Err DeState → Except Err DeState → Prop
  | .ok t1, .ok t2 => DeAlikeSt s t1 t2
  | .error e1, .error e2 => e1 = e2
  | _, _ => False

theorem deChild_alike (n : Name) : ∀ (cs : List Cond), (∀ c ∈ cs, c ∈ s.parentConds n) → ∀ t1 t2, DeAlikeSt s t1 t2 →
    DeAlikeRes s (deChild s n cs t1) (deChild s n cs t2) := by
  intro cs
  induction cs with
  | nil => intro _ t1 t2 h; exact h
  | cons c cs ih =>
    intro hcs t1 t2 h
    have ih := ih (fun d hd => hcs d (List.mem_cons_of_mem _ hd))
    unfold deChild
    rw [h.cfg.sat n c (hcs c List.mem_cons_self)]
    split
    · exact ih _ _ ⟨h.cfg, by show _ ++ _ = _ ++ _; rw [h.queue], h.inactive⟩
    · rw [without_deAlike h.cfg n]
      cases t2.cfg.without s n with
      | error e => exact rfl
      | ok o =>
        cases o with
        | none => exact ih _ _ h
        | some c' =>
          exact ih _ _ ⟨deAlike_refl c', by show _ ++ _ = _ ++ _; rw [h.queue], by show _ ++ _ = _ ++ _; rw [h.inactive]⟩

theorem deChildren_alike : ∀ (ns : List Name) (t1 t2 : DeState), DeAlikeSt s t1 t2 →
    DeAlikeRes s (deChildren s ns t1) (deChildren s ns t2) := by
  intro ns
  induction ns with
  | nil => intro t1 t2 h; exact h
  | cons n ns ih =>
    intro t1 t2 h
    have h1 := deChild_alike n (s.parentConds n) (fun _ hc => hc) t1 t2 h
    unfold deChildren
    cases h2 : deChild s n (s.parentConds n) t1 with
    | error e =>
      rw [h2] at h1
      cases h3 : deChild s n (s.parentConds n) t2 with
      | error e' => rw [h3] at h1; exact h1
      | ok t => rw [h3] at h1; exact h1.elim
    | ok t =>
      rw [h2] at h1
      cases h3 : deChild s n (s.parentConds n) t2 with
      | error e' => rw [h3] at h1; exact h1.elim
      | ok t' => rw [h3] at h1; exact ih t t' h1

/-- The loop: both run out of fuel, or both give the same. -/
theorem deLoop_alike : ∀ (k : Nat) (t1 t2 : DeState), DeAlikeSt s t1 t2 →
    (deLoop s k t1 = none ∧ deLoop s k t2 = none)
    ∨ ∃ r1 r2, deLoop s k t1 = some r1 ∧ deLoop s k t2 = some r2 ∧ DeAlikeRes s r1 r2 := by
  intro k
  induction k with
  | zero =>
    intro t1 t2 h
    unfold deLoop
    rw [h.queue]
    split
    · exact .inr ⟨_, _, rfl, rfl, h⟩
    · exact .inl ⟨rfl, rfl⟩
  | succ k ih =>
    intro t1 t2 h
    unfold deLoop
    rw [h.queue]
    cases t2.queue with
    | nil => exact .inr ⟨_, _, rfl, rfl, h⟩
    | cons n q =>
      have h1 := deChildren_alike (s.childrenOf n) { t1 with queue := q } { t2 with queue := q } ⟨h.cfg, rfl, h.inactive⟩
      simp only
      cases h2 : deChildren s (s.childrenOf n) { t1 with queue := q } with
      | error e =>
        rw [h2] at h1
        cases h3 : deChildren s (s.childrenOf n) { t2 with queue := q } with
        | error e' => rw [h3] at h1; exact .inr ⟨_, _, rfl, rfl, h1⟩
        | ok t => rw [h3] at h1; exact h1.elim
      | ok t =>
        rw [h2] at h1
        cases h3 : deChildren s (s.childrenOf n) { t2 with queue := q } with
        | error e' => rw [h3] at h1; exact h1.elim
        | ok t' => rw [h3] at h1; exact ih t t' h1

/-- The last loop: the same exception, or configurations that are alike. -/
theorem deFinal_alike (ina : List Name) : ∀ (xs : List Node) (c1 c2 : Config), DeAlike s c1 c2 →
    (∃ e, deFinal s ina xs c1 = .error e ∧ deFinal s ina xs c2 = .error e)
    ∨ ∃ d1 d2, deFinal s ina xs c1 = .ok d1 ∧ deFinal s ina xs c2 = .ok d2 ∧ DeAlike s d1 d2 := by
  intro xs
  induction xs with
  | nil => intro c1 c2 h; exact .inr ⟨c1, c2, rfl, rfl, h⟩
  | cons x xs ih =>
    intro c1 c2 h
    unfold deFinal
    split
    · rw [without_deAlike h x.name]
      cases c2.without s x.name with
      | error e => exact .inl ⟨e, rfl, rfl⟩
      | ok o =>
        cases o with
        | none => exact ih c1 c2 h
        | some c' => exact ih c' c' (deAlike_refl c')
    · exact ih c1 c2 h

/-- The whole function depends only on the dictionary and on the conditions. -/
theorem deactivateFrom_alike {c1 c2 : Config} (h : DeAlike s c1 c2) (k : Nat) : deactivateFrom s k c1 = deactivateFrom s k c2 := by
  unfold deactivateFrom
  rcases deLoop_alike (s := s) k { cfg := c1, queue := s.dag.roots.filter (fun n => !(s.childrenOf n).isEmpty) }
    { cfg := c2, queue := s.dag.roots.filter (fun n => !(s.childrenOf n).isEmpty) } ⟨h, rfl, rfl⟩ with ⟨h1, h2⟩ | ⟨r1, r2, h1, h2, hr⟩
  · rw [h1, h2]
  · rw [h1, h2]
    cases r1 with
    | error e1 =>
      cases r2 with
      | error e2 => rw [show e1 = e2 from hr]
      | ok t2 => exact hr.elim
    | ok t1 =>
      cases r2 with
      | error e2 => exact hr.elim
      | ok t2 =>
        simp only
        rw [hr.inactive]
        rcases deFinal_alike t2.inactive s.dag.nodes t1.cfg t2.cfg hr.cfg with ⟨e, k1, k2⟩ | ⟨d1, d2, k1, k2, k3⟩
        · rw [k1, k2]
        · rw [k1, k2]
          simp only
          rw [k3.dict]

/-! ## Dictionaries that configurations show -/

/-- A dictionary as `dict(config)` makes it: names of the space in their order, each with a rounded value. -/
structure Canon (s : Space) (d : Dict) : Prop where
  keys : (d.map Prod.fst).Sublist s.names
  vals : ∀ x ∈ s.com, ∀ o, (x.name, o) ∈ d → ∃ w, o = some w ∧ roundVal x.hp.kind w = w

theorem items_spec {c : Config} : ∀ {ns : List Name} {d : Dict}, c.items s ns = .ok d →
    d.map Prod.fst = ns ∧ ∀ n o, (n, o) ∈ d → ∃ w, o = some w ∧ (c.getItem s n).1 = .ok w := by
  intro ns
  induction ns with
  | nil => intro d h; cases h; exact ⟨rfl, by simp⟩
  | cons n ns ih =>
    intro d h
    unfold Config.items at h
    cases hg : (c.getItem s n).1 with
    | error e => rw [hg] at h; cases h
    | ok w =>
      rw [hg] at h
      simp only at h
      cases hi : c.items s ns with
      | error e => rw [hi] at h; cases h
      | ok d' =>
        rw [hi] at h
        cases h
        obtain ⟨h1, h2⟩ := ih hi
        refine ⟨by rw [List.map_cons, h1], ?_⟩
        intro m o hm
        rcases List.mem_cons.1 hm with e | hm
        · cases e; exact ⟨w, rfl, hg⟩
        · exact h2 m o hm

/-- The dictionary of a configuration made from a vector. -/
theorem canon_vector (h : Reach calls s) {v : Vec} {al : Bool} {c : Config} (hc : Config.ofVector s v al = .ok c) {d : Dict}
    (hd : c.toDict s = .ok d) : Canon s d := by
  have hv : c.vals = none := by
    unfold Config.ofVector at hc
    split at hc
    · cases hc
    · cases hc; rfl
  obtain ⟨h1, h2⟩ := items_spec hd
  refine ⟨by rw [h1]; exact List.filter_sublist, ?_⟩
  intro x hx o ho
  obtain ⟨w, rfl, hw⟩ := h2 _ _ ho
  refine ⟨w, rfl, ?_⟩
  rw [getItem_node h hx (by rw [hv]; rfl)] at hw
  cases hq : c.vec.at (s.idx x.name) with
  | none => rw [hq] at hw; cases hw
  | some q =>
    rw [hq] at hw
    simp only at hw
    cases ht : x.hp.kind.toVal q with
    | none => rw [ht] at hw; cases hw
    | some u => rw [ht] at hw; cases hw; exact roundVal_idem _ _

theorem canon_del {d : Dict} (hd : Canon s d) (n : Name) : Canon s (dictDel d n) := by
  have hs : (dictDel d n).Sublist d := List.filter_sublist
  exact ⟨(hs.map _).trans hd.keys, fun x hx o ho => hd.vals x hx o (hs.subset ho)⟩

theorem sublist_filter {ns ks : List Name} (h : ks.Sublist ns) (hn : ns.Nodup) : ns.filter (fun n => decide (n ∈ ks)) = ks := by
  induction h with
  | slnil => rfl
  | @cons l1 l2 a h ih =>
    obtain ⟨h1, h2⟩ := List.nodup_cons.1 hn
    rw [List.filter_cons_of_neg (by simpa using fun hm => h1 (h.subset hm)), ih h2]
  | @cons_cons l1 l2 a h ih =>
    obtain ⟨h1, h2⟩ := List.nodup_cons.1 hn
    rw [List.filter_cons_of_pos (by simp)]
    congr 1
    rw [← ih h2]
    refine List.filter_congr ?_
    intro m hm
    have : m ≠ a := fun e => h1 (e ▸ hm)
    have ih2 := ih h2
    simp only [List.mem_cons, this, false_or]
    rw [ih2]

theorem dict_lookup_mem : ∀ {d : Dict}, (d.map Prod.fst).Nodup → ∀ {n : Name} {o : Option Val}, (n, o) ∈ d →
    d.lookup n = some o := by
  intro d
  induction d with
  | nil => intro _ n o h; cases h
  | cons kv d ih =>
    intro hn n o h
    obtain ⟨k, p⟩ := kv
    obtain ⟨h1, h2⟩ := List.nodup_cons.1 hn
    rcases List.mem_cons.1 h with e | hm
    · cases e; simp
    · have : (n == k) = false := by
        simp only [beq_eq_false_iff_ne]
        rintro rfl
        exact h1 (List.mem_map.2 ⟨_, hm, rfl⟩)
      rw [List.lookup_cons, this]
      exact ih h2 hm

/-- A configuration made from the dictionary of a configuration shows the same dictionary. -/
theorem toDict_ofValues (h : Reach calls s) {d : Dict} (hd : Canon s d) {al : Bool} {c : Config}
    (hc : Config.ofValues s d al = .ok c) : c.toDict s = .ok d := by
  have hn := reach_ninv h
  have hnd : s.names.Nodup := hn.nodup
  have hkd : (d.map Prod.fst).Nodup := hd.keys.nodup hnd
  obtain ⟨_, _, _, _, vals, h5, h6, h7⟩ := ofValues_ok h hc
  rw [toDict_full h (full_of_values h hc)]
  have hkeys : c.keys s = d.map Prod.fst := by
    rw [← sublist_filter hd.keys hnd]
    unfold Config.keys
    refine List.filter_congr ?_
    intro n hnm
    obtain ⟨x, hx, rfl⟩ := List.mem_map.1 hnm
    rcases h7 x hx with ⟨w, q, k1, _, _, k4, _⟩ | ⟨k1, k2, _⟩
    · rw [k4]
      have : x.name ∈ d.map Prod.fst := List.mem_map.2 ⟨_, mem_of_lookup k1, rfl⟩
      simp only [isSet, this, decide_true]
      rfl
    · rw [k2]
      have : x.name ∉ d.map Prod.fst := by
        intro hm
        obtain ⟨⟨m, o⟩, hm, rfl⟩ := List.mem_map.1 hm
        obtain ⟨w, rfl, _⟩ := hd.vals x hx o hm
        have := dict_lookup_mem hkd hm
        rw [this] at k1
        rcases k1 with k1 | k1 <;> cases k1
      simp only [isSet, this, decide_false]
      rfl
  rw [hkeys, List.map_map, h5]
  congr 1
  refine (List.map_congr_left ?_).trans (List.map_id d)
  rintro ⟨n, o⟩ hm
  have hnm : n ∈ s.names := hd.keys.subset (List.mem_map.2 ⟨_, hm, rfl⟩)
  obtain ⟨x, hx, rfl⟩ := List.mem_map.1 hnm
  obtain ⟨w, rfl, hw⟩ := hd.vals x hx o hm
  have hl := dict_lookup_mem hkd hm
  rcases h7 x hx with ⟨w', q, k1, _, _, _, k5⟩ | ⟨k1, _, _⟩
  · rw [show d.lookup x.name = some (some w) from hl] at k1
    cases k1
    show (x.name, vals.lookup x.name) = _
    rw [k5, hw]
    rfl
  · rw [show d.lookup x.name = some (some w) from hl] at k1
    rcases k1 with k1 | k1 <;> cases k1

/-! ## What is left of the dictionary -/

/-- `c` shows the dictionary of `c1` without some conditional hyperparameters. -/
def Left (calls : List Call) (s : Space) (c1 c : Config) : Prop :=
  c = c1 ∨ ∃ d d', c1.toDict s = .ok d ∧ c.toDict s = .ok d' ∧ Canon s d' ∧ d'.Sublist d ∧
    ∀ kv ∈ d, kv ∈ d' ∨ Conditional calls kv.1

theorem left_without (h : Reach calls s) {v : Vec} {al : Bool} {c1 : Config} (hc1 : Config.ofVector s v al = .ok c1) {c c' : Config}
    {n : Name} (hn : Conditional calls n) (hl : Left calls s c1 c) (hw : c.without s n = .ok (some c')) : Left calls s c1 c' := by
  have : ∃ d d', c1.toDict s = .ok d ∧ c.toDict s = .ok d' ∧ Canon s d' ∧ d'.Sublist d ∧
      ∀ kv ∈ d, kv ∈ d' ∨ Conditional calls kv.1 := by
    rcases hl with rfl | hl
    · cases hd : c.toDict s with
      | error e => unfold Config.without at hw; rw [hd] at hw; cases hw
      | ok d => exact ⟨d, d, rfl, rfl, canon_vector h hc1 hd, List.Sublist.refl _, fun _ hk => .inl hk⟩
    · exact hl
  obtain ⟨d, d', h1, h2, h3, h4, h5⟩ := this
  unfold Config.without at hw
  rw [h2] at hw
  simp only at hw
  split at hw
  · cases hw
  · cases ho : Config.ofValues s (dictDel d' n) true with
    | error e => rw [ho] at hw; cases hw
    | ok c2 =>
      rw [ho] at hw
      cases hw
      refine .inr ⟨d, dictDel d' n, h1, toDict_ofValues h (canon_del h3 n) ho, canon_del h3 n,
        (List.filter_sublist).trans h4, ?_⟩
      intro kv hkv
      rcases h5 kv hkv with h6 | h6
      · by_cases e : kv.1 = n
        · exact .inr (e ▸ hn)
        · exact .inl (List.mem_filter.2 ⟨h6, by simpa using e⟩)
      · exact .inr h6

/-- The invariant of the traversal. -/
structure LeftSt (calls : List Call) (s : Space) (c1 : Config) (st : DeState) : Prop where
  cfg : Left calls s c1 st.cfg
  ina : ∀ n ∈ st.inactive, Conditional calls n

theorem left_deChild (h : Reach calls s) {v : Vec} {al : Bool} {c1 : Config} (hc1 : Config.ofVector s v al = .ok c1) {n : Name}
    (hn : Conditional calls n) : ∀ (cs : List Cond) (st st' : DeState), LeftSt calls s c1 st → deChild s n cs st = .ok st' →
    LeftSt calls s c1 st' := by
  intro cs
  induction cs with
  | nil => intro st st' hl hd; cases hd; exact hl
  | cons c cs ih =>
    intro st st' hl hd
    unfold deChild at hd
    split at hd
    · exact ih { st with queue := st.queue ++ [n] } st' ⟨hl.cfg, hl.ina⟩ hd
    · cases hw : st.cfg.without s n with
      | error e => rw [hw] at hd; cases hd
      | ok o =>
        rw [hw] at hd
        cases o with
        | none => exact ih _ st' hl hd
        | some c' =>
          refine ih _ st' ⟨left_without h hc1 hn hl.cfg hw, ?_⟩ hd
          intro m hm
          rcases List.mem_append.1 hm with hm | hm
          · exact hl.ina m hm
          · rw [List.mem_singleton.1 hm]; exact hn

theorem left_deChildren (h : Reach calls s) {v : Vec} {al : Bool} {c1 : Config} (hc1 : Config.ofVector s v al = .ok c1) :
    ∀ (ns : List Name), (∀ n ∈ ns, Conditional calls n) → ∀ (st st' : DeState), LeftSt calls s c1 st →
    deChildren s ns st = .ok st' → LeftSt calls s c1 st' := by
  intro ns
  induction ns with
  | nil => intro _ st st' hl hd; cases hd; exact hl
  | cons n ns ih =>
    intro hns st st' hl hd
    unfold deChildren at hd
    cases hw : deChild s n (s.parentConds n) st with
    | error e => rw [hw] at hd; cases hd
    | ok t =>
      rw [hw] at hd
      exact ih (fun m hm => hns m (List.mem_cons_of_mem _ hm)) t st'
        (left_deChild h hc1 (hns n List.mem_cons_self) _ st t hl hw) hd

theorem left_deLoop (h : Reach calls s) {v : Vec} {al : Bool} {c1 : Config} (hc1 : Config.ofVector s v al = .ok c1) :
    ∀ (k : Nat) (st st' : DeState), LeftSt calls s c1 st → deLoop s k st = some (.ok st') → LeftSt calls s c1 st' := by
  intro k
  induction k with
  | zero =>
    intro st st' hl hd
    unfold deLoop at hd
    split at hd
    · cases hd; exact hl
    · cases hd
  | succ k ih =>
    intro st st' hl hd
    unfold deLoop at hd
    cases hq : st.queue with
    | nil => rw [hq] at hd; cases hd; exact hl
    | cons n q =>
      rw [hq] at hd
      simp only at hd
      cases hw : deChildren s (s.childrenOf n) { st with queue := q } with
      | error e => rw [hw] at hd; cases hd
      | ok t =>
        rw [hw] at hd
        refine ih t st' (left_deChildren h hc1 _ ?_ { st with queue := q } t ⟨hl.cfg, hl.ina⟩ hw) hd
        intro m hm
        obtain ⟨x, hx, rfl, c, hc⟩ := childrenOf_node h hm
        obtain ⟨k1, k2, _⟩ := node_cond h hx hc
        exact ⟨c, k1, k2⟩

theorem left_deFinal (h : Reach calls s) {v : Vec} {al : Bool} {c1 : Config} (hc1 : Config.ofVector s v al = .ok c1) {ina : List Name}
    (hi : ∀ n ∈ ina, Conditional calls n) : ∀ (xs : List Node) (c c' : Config), Left calls s c1 c →
    deFinal s ina xs c = .ok c' → Left calls s c1 c' := by
  intro xs
  induction xs with
  | nil => intro c c' hl hd; cases hd; exact hl
  | cons x xs ih =>
    intro c c' hl hd
    unfold deFinal at hd
    split at hd
    · rename_i hm
      cases hw : c.without s x.name with
      | error e => rw [hw] at hd; cases hd
      | ok o =>
        rw [hw] at hd
        cases o with
        | none => exact ih c c' hl hd
        | some c2 => exact ih c2 c' (left_without h hc1 (hi _ hm) hl hw) hd
    · exact ih c c' hl hd

end Verif
