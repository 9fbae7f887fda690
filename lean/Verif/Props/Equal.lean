import Verif.Model.Equal
import Verif.Spec.Equal
import Verif.Lemmas.Subst
import Verif.Props.Impute

/-!
# C45: equality and hash of configurations
-/

set_option autoImplicit false

namespace Verif
open Verif.Spec

variable {calls : List Call} {s : Space}

theorem mapExcept_ok_iff {α β : Type} {f : α → Except Err β} : ∀ {xs : List α} {ys : List β},
    mapExcept f xs = .ok ys ↔ List.Forall₂ (fun x y => f x = .ok y) xs ys
  | [], ys => by
    simp only [mapExcept, Except.ok.injEq]
    constructor
    · rintro rfl; exact .nil
    · intro h; cases h; rfl
  | x :: xs, ys => by
    simp only [mapExcept]
    constructor
    · intro h
      cases hx : f x with
      | error e => rw [hx] at h; cases h
      | ok y =>
        rw [hx] at h
        simp only at h
        cases hm : mapExcept f xs with
        | error e => rw [hm] at h; cases h
        | ok zs =>
          rw [hm] at h
          simp only [Except.ok.injEq] at h
          subst h
          exact .cons hx (mapExcept_ok_iff.1 hm)
    · intro h
      cases h with
      | cons hx hm => simp only [hx, mapExcept_ok_iff.2 hm]

/-- What `dict` returns: the keys, with the values that are read. -/
theorem dict_ok {c : Config} {d : List (Name × Val)} (h : c.dict s = .ok d) :
    d.map Prod.fst = c.keys s ∧ ∀ kv ∈ d, (c.getItem s kv.1).1 = .ok kv.2 := by
  unfold Config.dict at h
  rw [mapExcept_ok_iff] at h
  generalize c.keys s = ks at h
  induction h with
  | nil => exact ⟨rfl, by simp⟩
  | @cons n kv ns kvs hx _ ih =>
    have : (c.getItem s n).1 = .ok kv.2 ∧ kv.1 = n := by
      cases hg : (c.getItem s n).1 with
      | error e => rw [hg] at hx; cases hx
      | ok w => rw [hg] at hx; cases hx; exact ⟨rfl, rfl⟩
    refine ⟨by simp [ih.1, this.2], ?_⟩
    intro kv' hkv'
    rcases List.mem_cons.1 hkv' with rfl | hkv'
    · rw [this.2]; exact this.1
    · exact ih.2 kv' hkv'

theorem dict_of {c : Config} (h : ∀ n ∈ c.keys s, ∃ w, (c.getItem s n).1 = .ok w) : ∃ d, c.dict s = .ok d := by
  unfold Config.dict
  generalize c.keys s = ks at h
  induction ks with
  | nil => exact ⟨[], rfl⟩
  | cons n ks ih =>
    obtain ⟨d, hd⟩ := ih fun m hm => h m (by simp [hm])
    obtain ⟨w, hw⟩ := h n (by simp)
    exact ⟨(n, w) :: d, by simp only [mapExcept, hw, hd]⟩

theorem lookup_of_nodup {d : List (Name × Val)} (hn : (d.map Prod.fst).Nodup) {kv : Name × Val} (h : kv ∈ d) :
    d.lookup kv.1 = some kv.2 := by
  induction d with
  | nil => cases h
  | cons x d ih =>
    rw [List.map_cons, List.nodup_cons] at hn
    obtain ⟨a, b⟩ := x
    rcases List.mem_cons.1 h with rfl | h
    · simp
    · have hne : kv.1 ≠ a := by
        intro e
        exact hn.1 (List.mem_map.2 ⟨kv, h, e⟩)
      rw [List.lookup_cons, beq_false_of_ne hne]
      exact ih hn.2 h

theorem keys_nodup (h : Reach calls s) (c : Config) : (c.keys s).Nodup :=
  (C02_names_index_bijection h).1.filter _

/-- `==` of two configurations of a space: the same names are set, with equal values. -/
theorem C45_eq_iff (h : Reach calls s) {c c' : Config} {d d' : List (Name × Val)} (hd : c.dict s = .ok d)
    (hd' : c'.dict s = .ok d') :
    Config.eq s c c' = .ok true ↔ c.keys s = c'.keys s ∧
      ∀ n w w', (c.getItem s n).1 = .ok w → (c'.getItem s n).1 = .ok w' → n ∈ c.keys s → w.pyEq w' = true := by
  obtain ⟨k1, k2⟩ := dict_ok hd
  obtain ⟨k1', k2'⟩ := dict_ok hd'
  have hn : (d.map Prod.fst).Nodup := k1 ▸ keys_nodup h c
  have hn' : (d'.map Prod.fst).Nodup := k1' ▸ keys_nodup h c'
  simp only [Config.eq, hd, hd', Except.ok.injEq, dictEq, Bool.and_eq_true, beq_iff_eq, List.all_eq_true]
  constructor
  · rintro ⟨hl, hall⟩
    have hsub : ∀ n, n ∈ c.keys s → n ∈ c'.keys s := by
      intro n hk
      rw [← k1] at hk
      obtain ⟨kv, hkv, rfl⟩ := List.mem_map.1 hk
      have := hall kv hkv
      split at this
      · rename_i w hw
        rw [← k1']
        exact List.mem_map.2 ⟨_, mem_of_lookup hw, rfl⟩
      · cases this
    have hlen : (c.keys s).length = (c'.keys s).length := by rw [← k1, ← k1', List.length_map, List.length_map, hl]
    have hkeys : c.keys s = c'.keys s := by
      have hperm : (c.keys s).Perm (c'.keys s) :=
        (List.subperm_of_subset (keys_nodup h c) hsub).perm_of_length_le (le_of_eq hlen.symm)
      have : c.keys s = s.names.filter (fun n => isSet (c'.vec.at (s.idx n))) := by
        unfold Config.keys
        refine List.filter_congr fun n hn => ?_
        have := hperm.mem_iff (a := n)
        simp only [Config.keys, List.mem_filter, hn, true_and] at this
        exact Bool.eq_iff_iff.2 this
      exact this
    refine ⟨hkeys, ?_⟩
    intro n w w' hw hw' hk
    rw [← k1] at hk
    obtain ⟨kv, hkv, rfl⟩ := List.mem_map.1 hk
    have := hall kv hkv
    split at this
    · rename_i u hu
      have e1 := k2 kv hkv
      rw [hw] at e1
      have e2 := k2' _ (mem_of_lookup hu)
      rw [hw'] at e2
      cases e1
      cases e2
      exact this
    · cases this
  · rintro ⟨hkeys, hall⟩
    refine ⟨?_, ?_⟩
    · rw [← List.length_map (f := Prod.fst), k1, hkeys, ← k1', List.length_map]
    · intro kv hkv
      have hk : kv.1 ∈ c.keys s := k1 ▸ List.mem_map.2 ⟨kv, hkv, rfl⟩
      have hk' : kv.1 ∈ d'.map Prod.fst := by rw [k1', ← hkeys]; exact hk
      obtain ⟨kv', hkv', e⟩ := List.mem_map.1 hk'
      rw [← e, lookup_of_nodup hn' hkv']
      exact hall kv.1 kv.2 kv'.2 (k2 kv hkv) (by rw [← e]; exact k2' kv' hkv') hk

/-- **C45.** Comparing a configuration with itself gives true, when it can be read. -/
theorem C45_eq_refl (h : Reach calls s) {c : Config} {d : List (Name × Val)} (hd : c.dict s = .ok d) :
    Config.eq s c c = .ok true :=
  (C45_eq_iff h hd hd).2 ⟨rfl, fun n w w' h1 h2 _ => by rw [h1] at h2; cases h2; exact Val.pyEq_refl _⟩

theorem eq_dict {c c' : Config} {b : Bool} (he : Config.eq s c c' = .ok b) :
    (∃ d, c.dict s = .ok d) ∧ ∃ d, c'.dict s = .ok d := by
  unfold Config.eq at he
  cases hd : c.dict s with
  | error e => rw [hd] at he; cases he
  | ok d =>
    rw [hd] at he
    cases hd' : c'.dict s with
    | error e => rw [hd'] at he; cases he
    | ok d' => exact ⟨⟨d, rfl⟩, ⟨d', rfl⟩⟩

theorem C45_eq_symm (h : Reach calls s) {c c' : Config} (he : Config.eq s c c' = .ok true) :
    Config.eq s c' c = .ok true := by
  obtain ⟨⟨d, hd⟩, d', hd'⟩ := eq_dict he
  obtain ⟨k1, k2⟩ := (C45_eq_iff h hd hd').1 he
  exact (C45_eq_iff h hd' hd).2 ⟨k1.symm, fun n w w' h1 h2 hk => Val.pyEq_symm (k2 n w' w h2 h1 (k1 ▸ hk))⟩

theorem C45_eq_trans (h : Reach calls s) {a b c : Config} (h1 : Config.eq s a b = .ok true)
    (h2 : Config.eq s b c = .ok true) : Config.eq s a c = .ok true := by
  obtain ⟨⟨d1, hd1⟩, d2, hd2⟩ := eq_dict h1
  obtain ⟨_, d3, hd3⟩ := eq_dict h2
  obtain ⟨k1, k2⟩ := (C45_eq_iff h hd1 hd2).1 h1
  obtain ⟨m1, m2⟩ := (C45_eq_iff h hd2 hd3).1 h2
  refine (C45_eq_iff h hd1 hd3).2 ⟨k1.trans m1, fun n w w' e1 e2 hk => ?_⟩
  obtain ⟨j1, j2⟩ := dict_ok hd2
  have hk' : n ∈ d2.map Prod.fst := by rw [j1, ← k1]; exact hk
  obtain ⟨kv, hkv, rfl⟩ := List.mem_map.1 hk'
  exact Val.pyEq_trans (k2 _ _ _ e1 (j2 kv hkv) hk) (m2 _ _ _ (j2 kv hkv) e2 (k1 ▸ hk))

theorem distinct_pyEq {cs : List Val} (hd : distinctVals cs = true) {a b : Val} (ha : a ∈ cs) (hb : b ∈ cs)
    (he : a.pyEq b = true) : a = b := by
  obtain ⟨i, hi⟩ := List.mem_iff_getElem?.1 ha
  obtain ⟨j, hj⟩ := List.mem_iff_getElem?.1 hb
  have e := (seqIndex_eq_iff (seqIndex_getElem hd hi) (seqIndex_getElem hd hj)).1 he
  subst e
  rw [hi] at hj
  exact Option.some.inj hj

/-- Native values that compare equal are the same. -/
theorem native_pyEq {x : HP} (hw : x.wf = true) {a b : Val} (ha : Native x.kind a) (hb : Native x.kind b)
    (he : a.pyEq b = true) : a = b := by
  cases hk : x.kind with
  | cat cs => rw [hk] at ha hb; exact distinct_pyEq (HP.wf_distinct hw (.inl hk)).2 ha hb he
  | ord cs => rw [hk] at ha hb; exact distinct_pyEq (HP.wf_distinct hw (.inr hk)).2 ha hb he
  | const c => rw [hk] at ha hb; exact Eq.trans ha (Eq.symm hb)
  | int l u =>
    rw [hk] at ha hb
    obtain ⟨n, rfl⟩ := ha
    obtain ⟨m, rfl⟩ := hb
    simp only [Val.pyEq, Val.num?, beq_iff_eq, Option.some.injEq] at he
    have : n = m := by exact_mod_cast he
    rw [this]
  | flt l u =>
    rw [hk] at ha hb
    obtain ⟨n, rfl⟩ := ha
    obtain ⟨m, rfl⟩ := hb
    simp only [Val.pyEq, Val.num?, beq_iff_eq, Option.some.injEq] at he
    rw [he]

/-- **C45** (partial: for configurations whose values are native).  Configurations that compare equal have the same
hash, for any hash function of strings. -/
theorem C45_equal_hash_partial (h : Reach calls s) {c c' : Config} (he : Config.eq s c c' = .ok true)
    (hc : ReadsNative calls s c) (hc' : ReadsNative calls s c') :
    ∃ t, c.repr s = .ok t ∧ c'.repr s = .ok t := by
  obtain ⟨⟨d, hd⟩, d', hd'⟩ := eq_dict he
  obtain ⟨k1, k2⟩ := (C45_eq_iff h hd hd').1 he
  obtain ⟨j1, j2⟩ := dict_ok hd
  obtain ⟨j1', j2'⟩ := dict_ok hd'
  have hdd : d = d' := by
    have hmap : d.map Prod.fst = d'.map Prod.fst := by rw [j1, j1', k1]
    refine List.ext_getElem (by simpa using congrArg List.length hmap) fun i h1 h2 => ?_
    have e : d[i].1 = d'[i].1 := by
      have := congrArg (fun l => l[i]?) hmap
      simpa [List.getElem?_eq_getElem h1, List.getElem?_eq_getElem h2] using this
    have r1 := j2 _ (List.getElem_mem h1)
    have r2 := j2' _ (List.getElem_mem h2)
    have hk : d[i].1 ∈ c.keys s := j1 ▸ List.mem_map.2 ⟨_, List.getElem_mem h1, rfl⟩
    obtain ⟨x, hx, hxn⟩ := (C02_names_index_bijection h).2.1 _ |>.1 (keys_mem.1 hk).1
    rw [← e] at r2
    have hv := k2 _ _ _ r1 r2 hk
    rw [← hxn] at r1 r2
    exact Prod.ext e (native_pyEq ((reach_wf h).1 x hx) (hc x hx _ r1) (hc' x hx _ r2) hv)
  subst hdd
  refine ⟨"\n".intercalate ("Configuration(values={" ::
      d.map (fun kv => "  '" ++ kv.1 ++ "': " ++ kv.2.repr ++ ",") ++ ["})"]), ?_, ?_⟩
  · simp only [Config.repr, hd]
  · simp only [Config.repr, hd']

/-- Decoded values are native. -/
theorem native_decoded {x : HP} {q : Rat} {u : Val} (hu : x.kind.toVal q = some u) : Native x.kind (roundVal x.kind u) := by
  cases hk : x.kind with
  | cat cs =>
    rw [hk] at hu
    simp only [Kind.toVal] at hu
    split at hu
    · unfold Kind.pyIndex at hu
      split at hu
      · exact List.mem_of_getElem? hu
      · split at hu
        · exact List.mem_of_getElem? hu
        · cases hu
    · cases hu
  | ord cs =>
    rw [hk] at hu
    simp only [Kind.toVal] at hu
    split at hu
    · unfold Kind.pyIndex at hu
      split at hu
      · exact List.mem_of_getElem? hu
      · split at hu
        · exact List.mem_of_getElem? hu
        · cases hu
    · cases hu
  | const c =>
    rw [hk] at hu
    cases hu
    rfl
  | int l u' =>
    rw [hk] at hu
    cases hu
    exact ⟨_, rfl⟩
  | flt l u' =>
    rw [hk] at hu
    cases hu
    exact ⟨_, rfl⟩

/-- All cached values are native. -/
def CacheNative (s : Space) (c : Config) : Prop :=
  ∀ n w, (c.vals.getD []).lookup n = some w → ∀ x ∈ s.com, x.name = n → Native x.hp.kind w

theorem lookup_dictSet {d : List (Name × Val)} {n m : Name} {w u : Val} (h : (dictSet d n w).lookup m = some u) :
    (m = n ∧ u = w) ∨ d.lookup m = some u := by
  induction d with
  | nil =>
    simp only [dictSet, List.lookup_cons] at h
    split at h
    · rename_i e
      exact .inl ⟨by simpa using e, by simpa using h.symm⟩
    · cases h
  | cons x d ih =>
    obtain ⟨a, b⟩ := x
    simp only [dictSet] at h
    split at h
    · rename_i e
      subst e
      rw [List.lookup_cons] at h
      split at h
      · rename_i e
        exact .inl ⟨by simpa using e, by simpa using h.symm⟩
      · rename_i e
        right
        rw [List.lookup_cons, e]
        exact h
    · rw [List.lookup_cons] at h ⊢
      split at h
      · exact .inr h
      · exact ih h

/-- **C45.** Configurations that come from a vector (samples, neighbours, and after assignments and reads) have native
values, so `C45_equal_hash_partial` applies to them. -/
theorem C45_from_vector_native (h : Reach calls s) {c : Config} (hc : FromVector s c) : ReadsNative calls s c := by
  have hi := sinv_of_reach h
  have hn := reach_ninv h
  have key : CacheNative s c := by
    induction hc with
    | vector hc =>
      unfold Config.ofVector at hc
      split at hc
      · cases hc
      · cases hc
        intro n w hw
        cases hw
    | @set c n w _ ih =>
      cases hs : c.setItem s n w with
      | mk c' e =>
        cases e with
        | some e => rw [setItem_err hs]; exact ih
        | none =>
          obtain ⟨x, q, h1, h2, h3, h4, h5, h6⟩ := setItem_ok hs
          intro m u hu
          simp [h5] at hu
    | @get c n _ ih =>
      intro m u hu x hx hxm
      unfold Config.getItem at hu
      split at hu
      · exact ih m u hu x hx hxm
      · split at hu
        · exact ih m u hu x hx hxm
        · rename_i y hy
          split at hu
          · exact ih m u hu x hx hxm
          · split at hu
            · exact ih m u hu x hx hxm
            · rename_i w hw
              simp only [Option.getD_some] at hu
              rcases lookup_dictSet hu with ⟨e, e'⟩ | hu
              · subst e
                rw [hi.com] at hy
                have : x = y := by
                  have h1 := findNode_of_mem hn.nodup hx
                  rw [hxm, hy] at h1
                  exact (Option.some.inj h1).symm
                subst this
                rw [e']
                exact native_decoded hw
              · exact ih m u hu x hx hxm
  intro x hx w hw
  obtain ⟨y, hy, rfl⟩ := node_of_hp h hx
  unfold Config.getItem at hw
  split at hw
  · rename_i u hu
    cases hw
    exact key _ _ hu y hy rfl
  · split at hw
    · cases hw
    · rename_i z hz
      rw [hi.com] at hz
      have : y = z := by
        have h1 := findNode_of_mem hn.nodup hy
        rw [show y.hp.name = y.name from rfl, h1] at hz
        exact Option.some.inj hz
      subst this
      split at hw
      · cases hw
      · split at hw
        · cases hw
        · rename_i u hu
          cases hw
          exact native_decoded hu

/-- **C45** (partial: for configurations that read integers as integers).  Configurations with the same vector compare
equal, when one of them can be read. -/
theorem C45_same_vector_partial (h : Reach calls s) {c c' : Config} (hc : CfgReach s c) (hc' : CfgReach s c')
    (hv : c.vec = c'.vec) {d : List (Name × Val)} (hd : c.dict s = .ok d) (he : ReadsExact calls s c)
    (he' : ReadsExact calls s c') : Config.eq s c c' = .ok true := by
  have hk := cacheOk h hc
  have hk' := cacheOk h hc'
  have hkeys : c.keys s = c'.keys s := by unfold Config.keys; rw [hv]
  obtain ⟨j1, j2⟩ := dict_ok hd
  have hval : ∀ n w, (c.getItem s n).1 = .ok w → n ∈ c.keys s → ∃ x ∈ s.com, x.name = n ∧ ∃ q,
      c.vec.at (s.idx n) = some q ∧ ∃ u, x.hp.kind.toVal q = some u ∧ (roundVal x.hp.kind u).pyEq w = true := by
    intro n w hw hn
    obtain ⟨x, hx, rfl⟩ := List.mem_map.1 (keys_mem.1 hn).1
    rcases getItem_cases h hk hx with ⟨_, e⟩ | ⟨q, hq, ⟨w', e, hcf⟩ | ⟨_, e⟩⟩
    · rw [hw] at e; cases e
    · rw [hw] at e
      cases e
      exact ⟨x, hx, rfl, q, hq, cachedFor_decode (node_wf h hx) hcf (he x.hp (node_hp h hx) w hw)⟩
    · rw [hw] at e; cases e
  have hread : ∀ n ∈ c'.keys s, ∃ w, (c'.getItem s n).1 = .ok w := by
    intro n hn
    rw [← hkeys] at hn
    have hn' := hn
    rw [← j1] at hn'
    obtain ⟨kv, hkv, rfl⟩ := List.mem_map.1 hn'
    obtain ⟨x, hx, hxn, q, hq, u, hu, _⟩ := hval _ _ (j2 kv hkv) hn
    rw [← hxn] at hq ⊢
    rcases getItem_cases h hk' hx with ⟨e, _⟩ | ⟨q', hq', ⟨w', e, hcf⟩ | ⟨e, _⟩⟩
    · rw [← hv, hq] at e; cases e
    · exact ⟨w', e⟩
    · rw [← hv, hq] at hq'
      cases hq'
      rw [hu] at e
      cases e
  obtain ⟨d', hd'⟩ := dict_of hread
  refine (C45_eq_iff h hd hd').2 ⟨hkeys, ?_⟩
  intro n w w' hw hw' hn
  obtain ⟨x, hx, hxn, q, hq, u, hu, hp⟩ := hval n w hw hn
  subst hxn
  rcases getItem_cases h hk' hx with ⟨e, _⟩ | ⟨q', hq', ⟨w2, e, hcf⟩ | ⟨_, e⟩⟩
  · rw [← hv, hq] at e; cases e
  · rw [hw'] at e
    cases e
    rw [← hv, hq] at hq'
    cases hq'
    obtain ⟨u', hu', hp'⟩ := cachedFor_decode (node_wf h hx) hcf (he' x.hp (node_hp h hx) w' hw')
    rw [hu] at hu'
    cases hu'
    exact Val.pyEq_trans (Val.pyEq_symm hp) hp'
  · rw [hw'] at e; cases e

namespace Ex
/-- `cfgA` with `k = 3` given as an `int` instead of a `float`. -/
def dictI : Dict := [("alg", some (.str "a")), ("c", some (.int 7)), ("k", some (.int 3)),
  ("o", some (.str "lo")), ("x", some (.flt (12345678901234567 / 100000000000000000)))]
def cfgInt : Config := ⟨[some 0, some 1, some (2/9), some 0, some (1234567890123 / 20000000000000)],
  some [("alg", .str "a"), ("c", .int 7), ("k", .int 3), ("o", .str "lo"),
    ("x", .flt (1234567890123 / 10000000000000))], false⟩
theorem cfgInt_eq : Config.ofValues sp1 dictI = .ok cfgInt :=
  ofValues_stages _ _ (by decide +kernel) (by decide +kernel) (by decide +kernel)

/-- `cfgA` with `k = 3.00001`. -/
def dictN : Dict := [("alg", some (.str "a")), ("c", some (.int 7)), ("k", some (.flt (300001 / 100000))),
  ("o", some (.str "lo")), ("x", some (.flt (12345678901234567 / 100000000000000000)))]
def cfgNear : Config := ⟨[some 0, some 1, some (200001/900000), some 0, some (1234567890123 / 20000000000000)],
  some [("alg", .str "a"), ("c", .int 7), ("k", .flt (300001 / 100000)), ("o", .str "lo"),
    ("x", .flt (1234567890123 / 10000000000000))], false⟩
theorem cfgNear_eq : Config.ofValues sp1 dictN = .ok cfgNear :=
  ofValues_stages _ _ (by decide +kernel) (by decide +kernel) (by decide +kernel)
end Ex

/-- **C45** is false in general: `{"k": 3, ...}` and `{"k": 3.0, ...}` compare equal, and different strings are
hashed. -/
theorem C45_equal_but_different_hash : ∃ (calls : List Call) (s : Space) (d d' : Dict) (c c' : Config) (t t' : String),
    Reach calls s ∧ Config.ofValues s d = .ok c ∧ Config.ofValues s d' = .ok c' ∧ Config.eq s c c' = .ok true ∧
    c.repr s = .ok t ∧ c'.repr s = .ok t' ∧ t ≠ t' := by
  refine ⟨_, _, _, _, _, _, _, _, Ex.reach1, Ex.cfgA_eq, Ex.cfgInt_eq, ?_, rfl, rfl, ?_⟩
  · decide +kernel
  · decide +kernel

/-- **C45** is false in general: a configuration built from the value `3.00001` of an integer hyperparameter is not
equal to the one built from its vector. -/
theorem C45_same_vector_not_equal : ∃ (calls : List Call) (s : Space) (d : Dict) (c c' : Config),
    Reach calls s ∧ Config.ofValues s d = .ok c ∧ Config.ofVector s c.vec = .ok c' ∧ Config.eq s c c' = .ok false :=
  ⟨_, _, _, _, _, Ex.reach1, Ex.cfgNear_eq, rfl, by decide +kernel⟩

/-- `C45_same_vector_partial` and `C45_equal_hash_partial` apply to a configuration and the one made from its vector. -/
example : Config.eq Ex.sp1 Ex.cfgInt { vec := Ex.cfgInt.vec } = .ok true := by
  refine C45_same_vector_partial Ex.reach1 (.values Ex.cfgInt_eq) (.vector (v := Ex.cfgInt.vec) (al := false) rfl) rfl
    (d := [("alg", .str "a"), ("c", .int 7), ("k", .int 3), ("o", .str "lo"),
    ("x", .flt (1234567890123 / 10000000000000))]) (by decide +kernel) ?_ ?_
  · intro x hx w hw
    have hx : x ∈ Ex.call1.hps := by simpa [allHps] using hx
    simp only [Ex.call1, List.mem_cons, List.not_mem_nil, or_false] at hx
    intro l u hk
    rcases hx with rfl | rfl | rfl | rfl | rfl <;> cases hk
    have : (Ex.cfgInt.getItem Ex.sp1 Ex.hpK.name).1 = .ok (.int 3) := by decide +kernel
    rw [this] at hw
    cases hw
    exact ⟨3, rfl⟩
  · intro x hx w hw l u hk
    have := C45_from_vector_native Ex.reach1 (.vector (v := Ex.cfgInt.vec) (al := false) rfl) x hx w hw
    rw [hk] at this
    obtain ⟨n, rfl⟩ := this
    exact ⟨n, rfl⟩

/-- The three configurations with `k = 3`, with `k = 3.0` and from the vector are equal to each other, by symmetry and transitivity. -/
example : Config.eq Ex.sp1 Ex.cfgA Ex.cfgA = .ok true ∧ Config.eq Ex.sp1 Ex.cfgInt Ex.cfgA = .ok true ∧
    Config.eq Ex.sp1 Ex.cfgA { vec := Ex.cfgInt.vec } = .ok true :=
  ⟨C45_eq_refl Ex.reach1 (d := [("alg", .str "a"), ("c", .int 7), ("k", .flt 3), ("o", .str "lo"),
      ("x", .flt (1234567890123 / 10000000000000))]) (by decide +kernel),
    C45_eq_symm Ex.reach1 (by decide +kernel), C45_eq_trans Ex.reach1 (b := Ex.cfgInt) (by decide +kernel) (by decide +kernel)⟩

/-- Two configurations made from vectors that are equal print alike. -/
example : ∃ t, (⟨Ex.cfgInt.vec, none, false⟩ : Config).repr Ex.sp1 = .ok t ∧ (⟨Ex.cfgInt.vec, none, true⟩ : Config).repr Ex.sp1 = .ok t :=
  C45_equal_hash_partial Ex.reach1 (by decide +kernel)
    (C45_from_vector_native Ex.reach1 (.vector (v := Ex.cfgInt.vec) (al := false) rfl))
    (C45_from_vector_native Ex.reach1 (.vector (v := Ex.cfgInt.vec) (al := true) rfl))

end Verif
