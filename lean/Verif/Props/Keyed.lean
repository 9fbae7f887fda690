import Verif.Model.Keyed
import Verif.Props.Equal
import Verif.Props.Config

/-!
# C127: configurations in sets and as keys
-/

set_option autoImplicit false

namespace Verif.Keyed

open Spec

variable {calls : List Call} {s : Space} {hash : String → Nat}

/-- Along the way, no configuration that is in the set is assigned to. -/
def Calm (hash : String → Nat) (s : Space) : St → List Op → Prop
  | _, [] => True
  | st, op :: ops => (∀ i n w, op = .assign i n w → i ∉ st.table.map Prod.snd) ∧ Calm hash s (st.step hash s op).1 ops

theorem run_cons {st : St} {op : Op} {ops : List Op} : st.run hash s (op :: ops) = ((st.step hash s op).1).run hash s ops := rfl

theorem run_append {st : St} {o1 o2 : List Op} : st.run hash s (o1 ++ o2) = (st.run hash s o1).run hash s o2 := by
  simp only [St.run, List.foldl_append]

theorem calm_append : ∀ {o1 o2 : List Op} {st : St}, Calm hash s st (o1 ++ o2) ↔ Calm hash s st o1 ∧ Calm hash s (st.run hash s o1) o2
  | [], o2, st => by simp [Calm, St.run]
  | op :: o1, o2, st => by
    simp only [List.cons_append, Calm, run_cons, calm_append (o1 := o1), and_assoc]

/-! ## Reading changes nothing that can be seen -/

theorem read_vec (c : Config) (n : Name) : (c.getItem s n).2.vec = c.vec := by
  unfold Config.getItem
  repeat' split
  all_goals rfl

theorem read_read (c : Config) (n m : Name) : (((c.getItem s n).2).getItem s m).1 = (c.getItem s m).1 := by
  have hv := read_vec (s := s) c n
  by_cases hmn : m = n
  · subst hmn
    cases hl : (c.vals.getD []).lookup m with
    | some w =>
      have e : c.getItem s m = (.ok w, c) := by simp only [Config.getItem, hl]
      rw [e]
      simp only [e]
    | none =>
      cases hf : findNode s.dag.nodes m with
      | none =>
        have e : c.getItem s m = (.error .keyError, c) := by simp only [Config.getItem, hl, hf]
        rw [e]
        simp only [e]
      | some x =>
        cases ha : c.vec.at (s.idx m) with
        | none =>
          have e : c.getItem s m = (.error .keyError, c) := by simp only [Config.getItem, hl, hf, ha]
          rw [e]
          simp only [e]
        | some q =>
          cases ht : x.hp.kind.toVal q with
          | none =>
            have e : c.getItem s m = (.error .valueError, c) := by simp only [Config.getItem, hl, hf, ha, ht]
            rw [e]
            simp only [e]
          | some w =>
            have e : c.getItem s m = (.ok (roundVal x.hp.kind w), { c with vals := some (dictSet (c.vals.getD []) m (roundVal x.hp.kind w)) }) := by
              simp only [Config.getItem, hl, hf, ha, ht]
            rw [e]
            simp only [Config.getItem, Option.getD_some, dictSet_lookup, if_pos]
  · have hl : (((c.getItem s n).2).vals.getD []).lookup m = (c.vals.getD []).lookup m := by
      unfold Config.getItem
      repeat' split
      all_goals first
        | rfl
        | (simp only [Option.getD_some, dictSet_lookup, if_neg hmn])
    have e : ∀ c' : Config, c'.vec = c.vec → (c'.vals.getD []).lookup m = (c.vals.getD []).lookup m →
        (c'.getItem s m).1 = (c.getItem s m).1 := by
      intro c' h1 h2
      unfold Config.getItem
      rw [h1, h2]
      repeat' split
      all_goals rfl
    exact e _ hv hl

theorem read_dict (c : Config) (n : Name) : ((c.getItem s n).2).dict s = c.dict s := by
  unfold Config.dict
  have hk : ((c.getItem s n).2).keys s = c.keys s := by
    unfold Config.keys
    rw [read_vec]
  rw [hk]
  congr 1
  funext m
  rw [read_read]

theorem repr_of_dict {c c' : Config} (h : c.dict s = c'.dict s) : c.repr s = c'.repr s := by
  unfold Config.repr
  rw [h]

theorem eq_of_dict {a b a' b' : Config} (h : a.dict s = a'.dict s) (h' : b.dict s = b'.dict s) : Config.eq s a b = Config.eq s a' b' := by
  unfold Config.eq
  rw [h, h']

theorem dict_of_repr {c : Config} {t : String} (h : c.repr s = .ok t) : ∃ d, c.dict s = .ok d := by
  unfold Config.repr at h
  split at h
  · cases h
  · exact ⟨_, by assumption⟩

theorem repr_of_dict_ok {c : Config} {d : List (Name × Val)} (h : c.dict s = .ok d) : ∃ t, c.repr s = .ok t := by
  unfold Config.repr
  rw [h]
  exact ⟨_, rfl⟩

theorem eq_dicts {a b : Config} (h : Config.eq s a b = .ok true) : (∃ d, a.dict s = .ok d) ∧ ∃ d, b.dict s = .ok d := by
  unfold Config.eq at h
  split at h
  · cases h
  · split at h
    · cases h
    · exact ⟨⟨_, by assumption⟩, _, by assumption⟩

/-! ## The set -/

theorem probe_some {objs : Nat → Config} {i h : Nat} : ∀ {l : List (Nat × Nat)} {e : Nat × Nat}, probe s objs i h l = .ok (some e) →
    e ∈ l ∧ e.1 = h ∧ (e.2 = i ∨ Config.eq s (objs e.2) (objs i) = .ok true)
  | [], e, hp => by simp [probe] at hp
  | x :: r, e, hp => by
    simp only [probe] at hp
    split at hp
    · rename_i hx
      split at hp
      · rename_i hi
        cases hp
        exact ⟨by simp, hx, Or.inl hi⟩
      · split at hp
        · cases hp
        · rename_i heq
          cases hp
          exact ⟨by simp, hx, Or.inr heq⟩
        · obtain ⟨a, b⟩ := probe_some hp
          exact ⟨List.mem_cons_of_mem _ a, b⟩
    · obtain ⟨a, b⟩ := probe_some hp
      exact ⟨List.mem_cons_of_mem _ a, b⟩

theorem probe_none {objs : Nat → Config} {i h : Nat} : ∀ {l : List (Nat × Nat)}, probe s objs i h l = .ok none →
    ∀ e ∈ l, e.1 = h → e.2 ≠ i ∧ Config.eq s (objs e.2) (objs i) ≠ .ok true
  | [], _, e, he => by cases he
  | x :: r, hp, e, he => by
    intro hh
    simp only [probe] at hp
    rcases List.mem_cons.1 he with rfl | he
    · rw [if_pos hh] at hp
      split at hp
      · cases hp
      · rename_i hne
        split at hp
        · cases hp
        · cases hp
        · rename_i hf
          exact ⟨hne, by rw [hf]; simp⟩
    · split at hp
      · split at hp
        · cases hp
        · split at hp
          · cases hp
          · cases hp
          · exact probe_none hp e he hh
      · exact probe_none hp e he hh

theorem eq_total {a b : Config} {d e : List (Name × Val)} (ha : a.dict s = .ok d) (hb : b.dict s = .ok e) : ∃ r, Config.eq s a b = .ok r := by
  unfold Config.eq
  rw [ha, hb]
  exact ⟨_, rfl⟩

theorem probe_total {objs : Nat → Config} {i h : Nat} {d : List (Name × Val)} (hi : (objs i).dict s = .ok d) : ∀ {l : List (Nat × Nat)},
    (∀ e ∈ l, ∃ d, (objs e.2).dict s = .ok d) → ∃ r, probe s objs i h l = .ok r
  | [], _ => ⟨none, rfl⟩
  | x :: r, hl => by
    obtain ⟨dx, hx⟩ := hl x (by simp)
    obtain ⟨b, hb⟩ := eq_total hx hi
    obtain ⟨y, hy⟩ := probe_total (h := h) hi (l := r) (fun e he => hl e (List.mem_cons_of_mem _ he))
    simp only [probe, hb]
    split
    · split
      · exact ⟨_, rfl⟩
      · cases b with
        | true => exact ⟨_, rfl⟩
        | false => exact ⟨y, hy⟩
    · exact ⟨y, hy⟩

/-- The entries are what was inserted: printed as they were then, and no two of them are equal with the same hash. -/
structure Inv (hash : String → Nat) (s : Space) (st : St) : Prop where
  text : ∀ e ∈ st.table, ∃ t, (st.objs e.2).repr s = .ok t ∧ hash t = e.1
  once : st.table.Pairwise (fun a b => a.1 = b.1 → a.2 ≠ b.2 ∧ Config.eq s (st.objs a.2) (st.objs b.2) ≠ .ok true)

theorem inv_nil {objs : Nat → Config} : Inv hash s ⟨objs, []⟩ := ⟨by simp, List.Pairwise.nil⟩

/-- Two states that print alike. -/
theorem Inv.of_dict {st st' : St} (h : Inv hash s st) (ht : st'.table = st.table)
    (hd : ∀ e ∈ st.table, (st'.objs e.2).dict s = (st.objs e.2).dict s) : Inv hash s st' := by
  constructor
  · intro e he
    rw [ht] at he
    obtain ⟨t, a, b⟩ := h.text e he
    exact ⟨t, by rw [repr_of_dict (hd e he), a], b⟩
  · rw [ht]
    refine h.once.imp_of_mem ?_
    intro a b ha hb hab hh
    rw [eq_of_dict (hd a ha) (hd b hb)]
    exact hab hh

theorem inv_step {st : St} (h : Inv hash s st) {op : Op} (hc : ∀ i n w, op = .assign i n w → i ∉ st.table.map Prod.snd) :
    Inv hash s (st.step hash s op).1 := by
  cases op with
  | read i n =>
    refine h.of_dict rfl ?_
    intro e _
    simp only [St.step, St.put]
    split
    · rename_i hi
      rw [read_dict, hi]
    · rfl
  | assign i n w =>
    refine h.of_dict rfl ?_
    intro e he
    simp only [St.step, St.put]
    rw [if_neg]
    rintro rfl
    exact hc _ n w rfl (List.mem_map.2 ⟨e, he, rfl⟩)
  | insert i =>
    simp only [St.step]
    split
    · exact h
    · rename_i t ht
      split
      · exact h
      · exact h
      · rename_i hp
        constructor
        · intro e he
          rcases List.mem_append.1 he with he | he
          · exact h.text e he
          · obtain rfl := List.mem_singleton.1 he
            exact ⟨t, ht, rfl⟩
        · refine List.pairwise_append.2 ⟨h.once, List.pairwise_singleton _ _, ?_⟩
          intro a ha b hb hab
          obtain rfl := List.mem_singleton.1 hb
          exact probe_none hp a ha hab
  | discard i =>
    simp only [St.step]
    split
    · exact h
    · exact h
    · rename_i e he
      exact ⟨fun x hx => h.text x (List.mem_of_mem_erase hx), h.once.sublist List.erase_sublist⟩

theorem inv_run : ∀ {ops : List Op} {st : St}, Inv hash s st → Calm hash s st ops → Inv hash s (st.run hash s ops)
  | [], _, h, _ => h
  | op :: ops, st, h, hc => by
    rw [run_cons]
    exact inv_run (inv_step h hc.1) hc.2

/-- Something in the set stands for configuration `i`. -/
def Held (hash : String → Nat) (s : Space) (st : St) (i : Nat) : Prop :=
  ∃ e ∈ st.table, ∃ t, (st.objs i).repr s = .ok t ∧ hash t = e.1 ∧ (e.2 = i ∨ Config.eq s (st.objs e.2) (st.objs i) = .ok true)

theorem contains_iff {st : St} (h : Inv hash s st) {i : Nat} :
    (st.contains hash s i = .ok true ↔ Held hash s st i) ∧
    (∀ {d : List (Name × Val)}, (st.objs i).dict s = .ok d → ∃ b, st.contains hash s i = .ok b) := by
  unfold St.contains St.find
  refine ⟨⟨?_, ?_⟩, ?_⟩
  · intro hc
    split at hc
    · cases hc
    · rename_i t ht
      cases hp : probe s st.objs i (hash t) st.table with
      | error x => rw [hp] at hc; cases hc
      | ok r =>
        rw [hp] at hc
        cases r with
        | none => cases hc
        | some e =>
          obtain ⟨h1, h2, h3⟩ := probe_some hp
          exact ⟨e, h1, t, ht, h2.symm, h3⟩
  · rintro ⟨e, he, t, ht, hh, h3⟩
    rw [ht]
    simp only
    obtain ⟨d, hd⟩ := dict_of_repr ht
    obtain ⟨r, hr⟩ := probe_total (h := hash t) hd (l := st.table) (fun e he => by
      obtain ⟨t', a, -⟩ := h.text e he
      exact dict_of_repr a)
    rw [hr]
    cases r with
    | some x => rfl
    | none =>
      obtain ⟨a, b⟩ := probe_none hr e he hh.symm
      rcases h3 with h3 | h3
      · exact absurd h3 a
      · exact absurd h3 b
  · intro d hd
    obtain ⟨t, ht⟩ := repr_of_dict_ok hd
    rw [ht]
    simp only
    obtain ⟨r, hr⟩ := probe_total (h := hash t) hd (l := st.table) (fun e he => by
      obtain ⟨t', a, -⟩ := h.text e he
      exact dict_of_repr a)
    rw [hr]
    exact ⟨_, rfl⟩

theorem held_step {st : St} {i : Nat} (h : Held hash s st i) {op : Op} (hc : ∀ k n w, op = .assign k n w → k ∉ st.table.map Prod.snd)
    (hi : ∀ n w, op ≠ .assign i n w) (hd : ∀ k, op ≠ .discard k) : Held hash s (st.step hash s op).1 i := by
  obtain ⟨e, he, t, ht, hh, h3⟩ := h
  have key : ∀ st' : St, (∀ x ∈ st.table, x ∈ st'.table) → (st'.objs i).dict s = (st.objs i).dict s →
      (st'.objs e.2).dict s = (st.objs e.2).dict s → Held hash s st' i := by
    intro st' h1 h2 h3'
    refine ⟨e, h1 e he, t, by rw [repr_of_dict h2, ht], hh, ?_⟩
    rw [eq_of_dict h3' h2]
    exact h3
  cases op with
  | read k n =>
    have hg : ∀ m, (((st.step hash s (.read k n)).1).objs m).dict s = (st.objs m).dict s := by
      intro m
      simp only [St.step, St.put]
      split
      · rename_i hm
        rw [read_dict, hm]
      · rfl
    exact key _ (fun x hx => hx) (hg i) (hg e.2)
  | assign k n w =>
    refine key _ (fun x hx => hx) ?_ ?_
    · simp only [St.step, St.put]
      rw [if_neg]
      rintro rfl
      exact hi n w rfl
    · simp only [St.step, St.put]
      rw [if_neg]
      rintro rfl
      exact hc _ n w rfl (List.mem_map.2 ⟨e, he, rfl⟩)
  | insert k =>
    simp only [St.step]
    split
    · exact ⟨e, he, t, ht, hh, h3⟩
    · split
      · exact ⟨e, he, t, ht, hh, h3⟩
      · exact ⟨e, he, t, ht, hh, h3⟩
      · exact key _ (fun x hx => List.mem_append_left _ hx) rfl rfl
  | discard k => exact absurd rfl (hd k)

theorem held_run {i : Nat} : ∀ {ops : List Op} {st : St}, Held hash s st i → Calm hash s st ops → (∀ n w, Op.assign i n w ∉ ops) →
    (∀ k, Op.discard k ∉ ops) → Held hash s (st.run hash s ops) i
  | [], _, h, _, _, _ => h
  | op :: ops, st, h, hc, ha, hd => by
    rw [run_cons]
    refine held_run (held_step h hc.1 ?_ ?_) hc.2 (fun n w hm => ha n w (List.mem_cons_of_mem _ hm))
      (fun k hm => hd k (List.mem_cons_of_mem _ hm))
    · rintro n w rfl
      exact ha n w (by simp)
    · rintro k rfl
      exact hd k (by simp)

theorem held_insert {st : St} {i : Nat} (hn : (st.step hash s (.insert i)).2 = none) : Held hash s (st.step hash s (.insert i)).1 i := by
  simp only [St.step] at hn ⊢
  split at hn
  · cases hn
  · rename_i t ht
    split at hn
    · cases hn
    · rename_i e hp
      simp only [ht, hp]
      obtain ⟨h1, h2, h3⟩ := probe_some hp
      exact ⟨e, h1, t, ht, h2.symm, h3⟩
    · rename_i hp
      simp only [ht, hp]
      exact ⟨(hash t, i), by simp, t, ht, rfl, Or.inl rfl⟩

/-- **C127.** A configuration that was put into a set is found in it, whatever is read, inserted and assigned afterwards, as long as neither
it nor a configuration that is in the set is assigned to, and nothing is removed.  The hash function is arbitrary. -/
theorem C127_found_partial {objs : Nat → Config} {i : Nat} {ops ops' : List Op}
    (hc : Calm hash s ⟨objs, []⟩ (ops ++ Op.insert i :: ops'))
    (hn : (((St.mk objs []).run hash s ops).step hash s (.insert i)).2 = none)
    (ha : ∀ n w, Op.assign i n w ∉ ops') (hd : ∀ k, Op.discard k ∉ ops') :
    ((St.mk objs []).run hash s (ops ++ Op.insert i :: ops')).contains hash s i = .ok true := by
  have hI := inv_run inv_nil hc
  refine (contains_iff hI).1.2 ?_
  obtain ⟨-, hc2⟩ := calm_append.1 hc
  rw [run_append, run_cons]
  exact held_run (held_insert hn) hc2.2 ha hd

/-- **C127.** With it, everything that is equal to it is found, if both show native values (`3`, not `3.0`, for integers; all configurations
made from vectors do, by C45). -/
theorem C127_equal_found_partial (hr : Reach calls s) {objs : Nat → Config} {i k : Nat} {ops : List Op} (hc : Calm hash s ⟨objs, []⟩ ops)
    (hi : ((St.mk objs []).run hash s ops).contains hash s i = .ok true)
    (he : Config.eq s (((St.mk objs []).run hash s ops).objs i) (((St.mk objs []).run hash s ops).objs k) = .ok true)
    (hn : ReadsNative calls s (((St.mk objs []).run hash s ops).objs i))
    (hn' : ReadsNative calls s (((St.mk objs []).run hash s ops).objs k)) :
    ((St.mk objs []).run hash s ops).contains hash s k = .ok true := by
  have hI := inv_run inv_nil hc
  obtain ⟨e, h1, t, ht, hh, h3⟩ := (contains_iff hI).1.1 hi
  refine (contains_iff hI).1.2 ?_
  obtain ⟨t', a, b⟩ := C45_equal_hash_partial hr he hn hn'
  rw [ht] at a
  cases a
  refine ⟨e, h1, t, b, hh, Or.inr ?_⟩
  rcases h3 with h3 | h3
  · rw [h3]
    exact he
  · exact C45_eq_trans hr h3 he

/-- The configurations that a program puts into the set. -/
def inserted (ops : List Op) (j : Nat) : Prop := Op.insert j ∈ ops

theorem table_inserted : ∀ {ops : List Op} {st : St} {e : Nat × Nat}, e ∈ (st.run hash s ops).table → e ∈ st.table ∨ inserted ops e.2
  | [], _, _, h => Or.inl h
  | op :: ops, st, e, h => by
    rw [run_cons] at h
    rcases table_inserted h with h | h
    · cases op with
      | read i n => exact Or.inl h
      | assign i n w => exact Or.inl h
      | insert i =>
        simp only [St.step] at h
        split at h
        · exact Or.inl h
        · split at h
          · exact Or.inl h
          · exact Or.inl h
          · rcases List.mem_append.1 h with h | h
            · exact Or.inl h
            · obtain rfl := List.mem_singleton.1 h
              exact Or.inr (by simp [inserted])
      | discard i =>
        simp only [St.step] at h
        split at h
        · exact Or.inl h
        · exact Or.inl h
        · exact Or.inl (List.mem_of_mem_erase h)
    · exact Or.inr (List.mem_cons_of_mem _ h)

/-- **C127.** Nothing else is found: what is found is equal to a configuration that was put into the set.  (For every history, also with
assignments to what is in the set.) -/
theorem C127_nothing_else (hr : Reach calls s) {objs : Nat → Config} {k : Nat} {ops : List Op}
    (hk : ((St.mk objs []).run hash s ops).contains hash s k = .ok true) :
    ∃ j, inserted ops j ∧
      Config.eq s (((St.mk objs []).run hash s ops).objs j) (((St.mk objs []).run hash s ops).objs k) = .ok true := by
  unfold St.contains St.find at hk
  split at hk
  · cases hk
  · rename_i t ht
    cases hp : probe s ((St.mk objs []).run hash s ops).objs k (hash t) ((St.mk objs []).run hash s ops).table with
    | error x => rw [hp] at hk; cases hk
    | ok r =>
      rw [hp] at hk
      cases r with
      | none => cases hk
      | some e =>
        obtain ⟨h1, h2, h3⟩ := probe_some hp
        refine ⟨e.2, (table_inserted h1).resolve_left (by simp), ?_⟩
        rcases h3 with h3 | h3
        · rw [h3]
          obtain ⟨d, hd⟩ := dict_of_repr ht
          exact C45_eq_refl hr hd
        · exact h3

/-- **C127.** What is removed is no longer found, and of two configurations one of which was found and that are not equal, the other one
stays. -/
theorem C127_discard_partial (hr : Reach calls s) {objs : Nat → Config} {i : Nat} {ops : List Op} (hc : Calm hash s ⟨objs, []⟩ ops)
    (hn : (((St.mk objs []).run hash s ops).step hash s (.discard i)).2 = none) :
    ((St.mk objs []).run hash s (ops ++ [.discard i])).contains hash s i = .ok false ∧
    ∀ k, ((St.mk objs []).run hash s ops).contains hash s k = .ok true →
      Config.eq s (((St.mk objs []).run hash s ops).objs i) (((St.mk objs []).run hash s ops).objs k) ≠ .ok true →
      ((St.mk objs []).run hash s (ops ++ [.discard i])).contains hash s k = .ok true := by
  have hI := inv_run inv_nil hc
  have hI' : Inv hash s ((St.mk objs []).run hash s (ops ++ [.discard i])) :=
    inv_run inv_nil (calm_append.2 ⟨hc, by simp [Calm]⟩)
  rw [run_append] at hI' ⊢
  generalize (St.mk objs []).run hash s ops = st at *
  have e1 : st.run hash s [.discard i] = (st.step hash s (.discard i)).1 := rfl
  rw [e1] at hI' ⊢
  have hobj : (st.step hash s (.discard i)).1.objs = st.objs := by
    simp only [St.step]
    split <;> rfl
  have hsub : (st.step hash s (.discard i)).1.table.Sublist st.table := by
    simp only [St.step]
    split
    · exact List.Sublist.refl _
    · exact List.Sublist.refl _
    · exact List.erase_sublist
  have htot : ∃ t, (st.objs i).repr s = .ok t := by
    simp only [St.step, St.find] at hn
    cases hrp : (st.objs i).repr s with
    | error x => rw [hrp] at hn; cases hn
    | ok t => exact ⟨t, rfl⟩
  obtain ⟨t, ht⟩ := htot
  obtain ⟨d, hd⟩ := dict_of_repr ht
  constructor
  · obtain ⟨b, hb⟩ := (contains_iff hI' (i := i)).2 (d := d) (by rw [hobj]; exact hd)
    cases b with
    | false => exact hb
    | true =>
      exfalso
      obtain ⟨e, he, t', ht', hh, h3⟩ := (contains_iff hI').1.1 hb
      rw [hobj, ht] at ht'
      cases ht'
      rw [hobj] at h3
      have hem := hsub.subset he
      -- before the step the entry was found, and another one was removed
      cases hf : st.find hash s i with
      | error x => simp only [St.step, hf] at hn; cases hn
      | ok r =>
        cases r with
        | none =>
          simp only [St.find, ht] at hf
          obtain ⟨a, b⟩ := probe_none hf e hem hh.symm
          rcases h3 with h3 | h3
          · exact a h3
          · exact b h3
        | some x =>
          have hf' := hf
          simp only [St.find, ht] at hf'
          obtain ⟨x1, x2, x3⟩ := probe_some hf'
          simp only [St.step, hf] at he
          have hnd : st.table.Nodup := hI.once.imp (by
            rintro a b hab rfl
            exact (hab rfl).1 rfl)
          have hne : e ≠ x := ((hnd.mem_erase_iff).1 he).1
          have hI2 : ∀ {a b : Nat × Nat}, a ∈ st.table → b ∈ st.table → a ≠ b →
              (a.1 = b.1 → Config.eq s (st.objs a.2) (st.objs b.2) ≠ .ok true) := by
            intro a b ha hb hab hh'
            have hs := hI.once.imp (S := fun a b : Nat × Nat => a.1 = b.1 → Config.eq s (st.objs a.2) (st.objs b.2) ≠ .ok true)
              (fun hab h => (hab h).2)
            have hsym : ∀ a b : Nat × Nat, (a.1 = b.1 → Config.eq s (st.objs a.2) (st.objs b.2) ≠ .ok true) →
                (b.1 = a.1 → Config.eq s (st.objs b.2) (st.objs a.2) ≠ .ok true) :=
              fun a b h h' h2 => h h'.symm (C45_eq_symm hr h2)
            haveI : Std.Symm (fun a b : Nat × Nat => a.1 = b.1 → Config.eq s (st.objs a.2) (st.objs b.2) ≠ .ok true) := ⟨hsym⟩
            exact hs.forall ha hb hab hh'
          refine hI2 hem x1 hne (by rw [← hh, x2]) ?_
          have re : Config.eq s (st.objs e.2) (st.objs i) = .ok true := by
            rcases h3 with h3 | h3
            · rw [h3]; exact C45_eq_refl hr hd
            · exact h3
          have rx : Config.eq s (st.objs x.2) (st.objs i) = .ok true := by
            rcases x3 with x3 | x3
            · rw [x3]; exact C45_eq_refl hr hd
            · exact x3
          exact C45_eq_trans hr re (C45_eq_symm hr rx)
  · intro k hk hne
    refine (contains_iff hI').1.2 ?_
    obtain ⟨e, he, t', ht', hh, h3⟩ := (contains_iff hI).1.1 hk
    refine ⟨e, ?_, t', by rw [hobj]; exact ht', hh, by rw [hobj]; exact h3⟩
    cases hf : st.find hash s i with
    | error x => simp only [St.step, hf]; exact he
    | ok r =>
      cases r with
      | none => simp only [St.step, hf]; exact he
      | some x =>
        have hf' := hf
        simp only [St.find, ht] at hf'
        obtain ⟨x1, x2, x3⟩ := probe_some hf'
        simp only [St.step, hf]
        refine (List.mem_erase_of_ne ?_).2 he
        rintro rfl
        apply hne
        obtain ⟨dk, hdk⟩ := dict_of_repr ht'
        have re : Config.eq s (st.objs e.2) (st.objs k) = .ok true := by
          rcases h3 with h3 | h3
          · rw [h3]; exact C45_eq_refl hr hdk
          · exact h3
        have rx : Config.eq s (st.objs e.2) (st.objs i) = .ok true := by
          rcases x3 with x3 | x3
          · rw [x3]; exact C45_eq_refl hr hd
          · exact x3
        exact C45_eq_trans hr (C45_eq_symm hr rx) re

/-- **C127 is false of the code** for configurations that are assigned to while they are in a set: after an assignment such a configuration
is found exactly if the hash of its text is the same as before.  If not, it cannot be removed, and after it is inserted again the set contains
the same object twice. -/
theorem C127_lost {objs : Nat → Config} {i : Nat} {n : Name} {w : Val} {t t' : String} (ht : (objs i).repr s = .ok t)
    (ht' : ((objs i).setItem s n w).1.repr s = .ok t') (hh : hash t' ≠ hash t) :
    ((St.mk objs []).run hash s [.insert i, .assign i n w]).contains hash s i = .ok false ∧
    ((St.mk objs []).run hash s [.insert i, .assign i n w, .discard i]).table = [(hash t, i)] ∧
    ((St.mk objs []).run hash s [.insert i, .assign i n w, .insert i]).table = [(hash t, i), (hash t', i)] := by
  have hh' : ¬ hash t = hash t' := fun h => hh h.symm
  refine ⟨?_, ?_, ?_⟩
  · simp [St.run, St.step, St.put, St.contains, St.find, probe, ht, ht', hh', Except.map]
  · simp [St.run, St.step, St.put, St.find, probe, ht, ht', hh']
  · simp [St.run, St.step, St.put, probe, ht, ht', hh']

/-- **C127 is false of the code**: a configuration may also be lost without being assigned to.  If an equal configuration was in the set
already, that one stands for both; when it is assigned to, both are lost. -/
theorem C127_lost_with_another {objs : Nat → Config} {i j : Nat} (hij : i ≠ j) {n : Name} {w : Val} {t : String}
    (hi : (objs i).repr s = .ok t) (hj : (objs j).repr s = .ok t) (he : Config.eq s (objs j) (objs i) = .ok true)
    (hne : Config.eq s ((objs j).setItem s n w).1 (objs i) = .ok false) :
    ((St.mk objs []).run hash s [.insert j, .insert i]).contains hash s i = .ok true ∧
    ((St.mk objs []).run hash s [.insert j, .insert i, .assign j n w]).contains hash s i = .ok false := by
  have hji : ¬ j = i := fun h => hij h.symm
  refine ⟨?_, ?_⟩
  · simp [St.run, St.step, St.contains, St.find, probe, hi, hj, he, hji, Except.map]
  · simp [St.run, St.step, St.put, St.contains, St.find, probe, hi, hj, he, hne, hji, hij, Except.map]

/-- **C127 is false of the code**: an assignment of the very value that a configuration shows may also lose it.  Here it was made with `3.0`
for an integer hyperparameter; `config["k"] = config["k"]` leaves it equal to what it was, but it is printed with `3` now. -/
theorem C127_same_value_lost : ∃ (calls : List Call) (s : Space) (c : Config) (n : Name) (w : Val) (t t' : String), Reach calls s ∧
    CfgReach s c ∧ (c.getItem s n).1 = .ok w ∧ (c.setItem s n w).2 = none ∧ Config.eq s c (c.setItem s n w).1 = .ok true ∧
    c.repr s = .ok t ∧ (c.setItem s n w).1.repr s = .ok t' ∧ t ≠ t' := by
  refine ⟨_, _, Ex.cfgA, "k", .flt 3, (Ex.cfgA.repr Ex.sp1).toOption.getD "",
    ((Ex.cfgA.setItem Ex.sp1 "k" (.flt 3)).1.repr Ex.sp1).toOption.getD "", Ex.reach1, .values Ex.cfgA_eq, ?_, ?_, ?_, ?_, ?_, ?_⟩
  all_goals decide +kernel

/-! ## Examples -/

section Examples

/-- Three configurations: with `k = 3`, with `k = 3.0`, and one that is made from the vector of the first. -/
def exObjs : Nat → Config
  | 0 => Ex.cfgInt
  | 1 => Ex.cfgA
  | _ => { vec := Ex.cfgInt.vec }

theorem exRepr : ∃ t, Ex.cfgInt.repr Ex.sp1 = .ok t :=
  ⟨(Ex.cfgInt.repr Ex.sp1).toOption.getD "", by decide +kernel⟩

/-- `C127_found_partial` applies: the first one is inserted, the second one is read and assigned to, the third one is inserted. -/
example (hash : String → Nat) : ((St.mk exObjs []).run hash Ex.sp1
    [.read 1 "k", .insert 0, .assign 1 "k" (.int 1), .read 0 "k"]).contains hash Ex.sp1 0 = .ok true := by
  refine C127_found_partial (ops := [.read 1 "k"]) (ops' := [.assign 1 "k" (.int 1), .read 0 "k"]) ?_ ?_ ?_ ?_
  · obtain ⟨t, hr⟩ := exRepr
    simp [Calm, St.step, St.put, exObjs, hr, probe]
  · obtain ⟨t, hr⟩ := exRepr
    simp [St.run, St.step, St.put, exObjs, hr, probe]
  · intro n w h
    simp at h
  · intro k h
    simp at h

/-- `C127_discard_partial` applies: the first one is inserted and removed. -/
example (hash : String → Nat) : ((St.mk exObjs []).run hash Ex.sp1 [.insert 0, .discard 0]).contains hash Ex.sp1 0 = .ok false := by
  refine (C127_discard_partial Ex.reach1 (ops := [.insert 0]) (by simp [Calm]) ?_).1
  obtain ⟨t, hr⟩ := exRepr
  simp [St.run, St.step, St.find, exObjs, hr, probe]

/-- `C127_equal_found_partial` applies: of two configurations that are made from one vector, the second is found when the first was inserted. -/
example (hash : String → Nat) : ((St.mk exObjs []).run hash Ex.sp1 [.insert 2]).contains hash Ex.sp1 3 = .ok true := by
  obtain ⟨t, hr⟩ : ∃ t, (Config.mk Ex.cfgInt.vec none false).repr Ex.sp1 = .ok t :=
    ⟨((Config.mk Ex.cfgInt.vec none false).repr Ex.sp1).toOption.getD "", by decide +kernel⟩
  have ho : ((St.mk exObjs []).run hash Ex.sp1 [.insert 2]).objs = exObjs := by
    simp [St.run, St.step, exObjs, hr, probe]
  have hn := C45_from_vector_native Ex.reach1 (.vector (v := Ex.cfgInt.vec) (al := false) rfl)
  refine C127_equal_found_partial Ex.reach1 (i := 2) (by simp [Calm]) ?_ ?_ ?_ ?_
  · simp [St.run, St.step, St.contains, St.find, exObjs, hr, probe, Except.map]
  · rw [ho]
    decide +kernel
  · rw [ho]
    exact hn
  · rw [ho]
    exact hn

/-- `C127_lost` applies to the first one, if Python's hash tells its two texts apart. -/
example {hash : String → Nat} (hh : Function.Injective hash) :
    ((St.mk exObjs []).run hash Ex.sp1 [.insert 0, .assign 0 "k" (.int 1)]).contains hash Ex.sp1 0 = .ok false := by
  refine (C127_lost (t := (Ex.cfgInt.repr Ex.sp1).toOption.getD "")
    (t' := ((Ex.cfgInt.setItem Ex.sp1 "k" (.int 1)).1.repr Ex.sp1).toOption.getD "") ?_ ?_ (fun h => ?_)).1
  · decide +kernel
  · decide +kernel
  · have := hh h
    revert this
    decide +kernel

/-- `C127_lost_with_another` applies: the third one is equal to the first one. -/
example (hash : String → Nat) :
    ((St.mk exObjs []).run hash Ex.sp1 [.insert 0, .insert 2, .assign 0 "k" (.int 1)]).contains hash Ex.sp1 2 = .ok false := by
  refine (C127_lost_with_another (t := (Ex.cfgInt.repr Ex.sp1).toOption.getD "") (by decide) ?_ ?_ ?_ ?_).2
  all_goals decide +kernel

end Examples

end Verif.Keyed
