import Verif.Lemmas.Size
import Verif.Props.Impute

/-!
# C28: the estimated number of configurations
-/

set_option autoImplicit false

namespace Verif
open Verif.Spec

variable {calls : List Call} {s : Space}

/-- Unset entries filled with the default. -/
def fillEntries (s : Space) (v : Vec) : List Rat := List.zipWith (fun e x => e.getD x.hp.defVec) v s.com

theorem defVec_entry {h : HP} (hw : h.wf = true) : EntryOf h h.defVec := by
  have hl := HP.wf_legal hw
  have he : ExactInt h.kind h.default := by
    intro l u hk
    unfold HP.wf at hw
    rw [hk] at hw
    simp only [Bool.and_eq_true] at hw
    cases hd : h.default with
    | int n => exact ⟨n, rfl⟩
    | flt q => rw [hd] at hw; simp at hw
    | str t => rw [hd] at hw; simp at hw
  obtain ⟨x, hx⟩ := legal_toVec hl
  exact ⟨h.default, hl, he, by simp [HP.defVec, hx]⟩

theorem at_getElem {v : Vec} {i : Nat} (hi : i < v.length) : v.at i = v[i] := by
  simp [Vec.at, hi]

/-- What is set is determined, position by position, by the entries before. -/
theorem fill_inj_of (P : Nat → Vec → Prop) (hP : ∀ i, i < s.com.length → ∀ u u' : Vec, (∀ j, j < i → u.at j = u'.at j) →
    (P i u ↔ P i u')) {v v' : Vec} (hl : v.length = s.com.length) (hl' : v'.length = s.com.length)
    (hv : ∀ i, i < s.com.length → ((∃ q, v.at i = some q) ↔ P i v))
    (hv' : ∀ i, i < s.com.length → ((∃ q, v'.at i = some q) ↔ P i v'))
    (he : fillEntries s v = fillEntries s v') : v = v' := by
  have key : ∀ i, i < s.com.length → v.at i = v'.at i := by
    intro i
    induction i using Nat.strong_induction_on with
    | _ i ih =>
      intro hi
      have hfill : (v.at i).getD s.com[i].hp.defVec = (v'.at i).getD s.com[i].hp.defVec := by
        have h1 : (fillEntries s v)[i]? = some ((v.at i).getD s.com[i].hp.defVec) := by
          simp [fillEntries, List.getElem?_zipWith, List.getElem?_eq_getElem hi,
            List.getElem?_eq_getElem (hl ▸ hi : i < v.length), at_getElem (hl ▸ hi : i < v.length)]
        have h2 : (fillEntries s v')[i]? = some ((v'.at i).getD s.com[i].hp.defVec) := by
          simp [fillEntries, List.getElem?_zipWith, List.getElem?_eq_getElem hi,
            List.getElem?_eq_getElem (hl' ▸ hi : i < v'.length), at_getElem (hl' ▸ hi : i < v'.length)]
        rw [he, h2] at h1
        exact (Option.some.inj h1).symm
      have hset : (∃ q, v.at i = some q) ↔ (∃ q, v'.at i = some q) := by
        rw [hv i hi, hv' i hi]
        exact hP i hi v v' fun j hj => ih j hj (by omega)
      cases h1 : v.at i with
      | none =>
        cases h2 : v'.at i with
        | none => rfl
        | some q => exact absurd (hset.2 ⟨q, h2⟩) (by simp [h1])
      | some q =>
        cases h2 : v'.at i with
        | none => exact absurd (hset.1 ⟨q, h1⟩) (by simp [h2])
        | some q' =>
          rw [h1, h2] at hfill
          exact congrArg some hfill
  refine List.ext_getElem (by rw [hl, hl']) fun i h1 h2 => ?_
  have := key i (hl ▸ h1)
  rwa [at_getElem h1, at_getElem h2] at this

theorem at_com (h : Reach calls s) {i : Nat} (hi : i < s.com.length) : At s.names i s.com[i].name ∧ s.idx s.com[i].name = i := by
  have hat : At s.names i s.com[i].name := by simp [At, Space.names, List.getElem?_eq_getElem hi]
  exact ⟨hat, (C02_names_index_bijection h).2.2.2.2.2 i _ hat⟩

theorem len_com (h : Reach calls s) : s.len = s.com.length := by
  rw [(C02_names_index_bijection h).2.2.2.1, Space.names, List.length_map]

/-- The parents of a condition of the child at a position stand before it. -/
theorem parent_before (h : Reach calls s) {i : Nat} (hi : i < s.com.length) {c : Cond} (hc : c ∈ allConds calls)
    (hch : childName c = some s.com[i].name) {p : Name} (hp : p ∈ c.parents) : s.idx p < i := by
  have hpc : ParentOf calls p s.com[i].name := ⟨c, hc, hch, by simpa [Cond.parents] using hp⟩
  obtain ⟨j, k, hj, hk', hjk, e1, e2⟩ := C01_parents_before_children h hpc
  rw [(at_com h hi).2] at e2
  omega

/-- The vector of a valid configuration is determined by the filled entries: what is set is determined by the values
of the parents. -/
theorem fill_inj (h : Reach calls s) {v v' : Vec} (hv : ValidVec calls s v) (hv' : ValidVec calls s v')
    (he : fillEntries s v = fillEntries s v') : v = v' := by
  have main : ∀ u, ValidVec calls s u → u.length = s.com.length ∧ ∀ i, (hi : i < s.com.length) →
      ((∃ q, u.at i = some q) ↔ ∀ c ∈ allConds calls, childName c = some (s.names.getD i "") → Holds (asg s.idx u) c) := by
    rintro u ⟨a, ha, hva, _⟩
    refine ⟨ha.1.trans (len_com h), fun i hi => ?_⟩
    obtain ⟨hat, hidx⟩ := at_com h hi
    have hnm : s.names.getD i "" = s.com[i].name := by
      unfold At at hat
      rw [List.getD_eq_getElem?_getD, hat]; rfl
    have hh : ∀ c ∈ allConds calls, Holds (asg s.idx u) c ↔ Holds a c := by
      intro c hc
      exact holds_congr c fun p hp => asg_of_represents ha (cond_parents_known h hc hp)
    rw [hnm, ha.2 i _ hat]
    constructor
    · intro hq c hc hch
      rw [hh c hc]
      exact (hva.active c hc _ hch).1 hq
    · intro hall
      by_cases hc : Conditional calls s.com[i].name
      · obtain ⟨c, hc, hch⟩ := hc
        exact (hva.active c hc _ hch).2 ((hh c hc).1 (hall c hc hch))
      · exact hva.roots _ ((C02_names_index_bijection h).2.1 _ |>.1 (List.mem_of_getElem? hat)) hc
  refine fill_inj_of (fun i u => ∀ c ∈ allConds calls, childName c = some (s.names.getD i "") → Holds (asg s.idx u) c)
    ?_ (main v hv).1 (main v' hv').1 (main v hv).2 (main v' hv').2 he
  intro i hi u u' hu
  have hnm : s.names.getD i "" = s.com[i].name := by
    have hat := (at_com h hi).1
    unfold At at hat
    rw [List.getD_eq_getElem?_getD, hat]; rfl
  rw [hnm]
  refine forall_congr' fun c => forall_congr' fun hc => forall_congr' fun hch => ?_
  exact holds_congr c fun p hp => hu _ (parent_before h hi hc hch hp)

/-- Accepted vectors are determined by the filled entries, also when the code groups conditions of different
meanings. -/
theorem fill_inj_accepted (h : Reach calls s) {v v' : Vec} (hv : AcceptedVec calls s v) (hv' : AcceptedVec calls s v')
    (he : fillEntries s v = fillEntries s v') : v = v' := by
  have hi' := sinv_of_reach h
  have hg := groupsOk_sorted s.com
  rw [← hi'.mins] at hg
  have main : ∀ u, AcceptedVec calls s u → u.length = s.com.length ∧ ∀ i, (hi : i < s.com.length) →
      ((∃ q, u.at i = some q) ↔ ∀ g ∈ s.minConds, s.names.getD i "" ∈ g.kids → g.cond.satVec s.idx u = true) := by
    rintro u ⟨hlen, hchk, _⟩
    refine ⟨hlen.trans (len_com h), fun i hi => ?_⟩
    obtain ⟨hat, hidx⟩ := at_com h hi
    have hnm : s.names.getD i "" = s.com[i].name := by
      unfold At at hat
      rw [List.getD_eq_getElem?_getD, hat]; rfl
    have hm : s.com[i] ∈ s.com := List.getElem_mem hi
    unfold Space.check at hchk
    split at hchk
    · cases hchk
    · rename_i hroots
      split at hchk
      · cases hchk
      · rename_i hconds
        rw [checkConds_none] at hconds
        rw [hnm]
        constructor
        · rintro ⟨q, hq⟩ g hgm hk
          cases hs : g.cond.satVec s.idx u with
          | true => rfl
          | false =>
            have := (hconds g hgm).2 hs _ hk
            rw [hidx, hq] at this
            cases this
        · intro hall
          cases hc : s.com[i].cond with
          | some c =>
            obtain ⟨g, hgm, hk, _⟩ := hg.covers _ hm c hc
            have := (hconds g hgm).1 (hall g hgm hk) _ hk
            have hrep := represents_asg h hlen
            obtain ⟨q, hq⟩ := ((legalAt_iff h hrep (mem_names hm)).1 this).1
            rw [← at_idx hrep (mem_names hm), hidx] at hq
            exact ⟨q, hq⟩
          | none =>
            have hnc : ¬ Conditional calls s.com[i].name := by
              rintro ⟨d, hd, hdn⟩
              obtain ⟨x, hx, e, c, hc'⟩ := node_of_child h hd hdn
              have : x = s.com[i] := by
                have hnd := (reach_ninv h).nodup
                exact List.inj_on_of_nodup_map hnd hx hm e
              rw [this, hc] at hc'
              cases hc'
            have hrep := represents_asg h hlen
            obtain ⟨q, hq⟩ := (rootsSet_iff h hrep).1 hroots _
              ((C02_names_index_bijection h).2.1 _ |>.1 (List.mem_of_getElem? hat)) hnc
            rw [← at_idx hrep (mem_names hm), hidx] at hq
            exact ⟨q, hq⟩
  refine fill_inj_of (fun i u => ∀ g ∈ s.minConds, s.names.getD i "" ∈ g.kids → g.cond.satVec s.idx u = true)
    ?_ (main v hv).1 (main v' hv').1 (main v hv).2 (main v' hv').2 he
  intro i hi u u' hu
  have hnm : s.names.getD i "" = s.com[i].name := by
    have hat := (at_com h hi).1
    unfold At at hat
    rw [List.getD_eq_getElem?_getD, hat]; rfl
  rw [hnm]
  refine forall_congr' fun g => forall_congr' fun hgm => forall_congr' fun hk => ?_
  rw [satVec_congr (s := s) (v := u) (w := u')]
  intro p hp
  obtain ⟨x, hx, e, c, hc, hec⟩ := hg.members g hgm _ hk
  obtain ⟨k1, k2, _⟩ := node_cond h hx hc
  have hp' : p ∈ c.parents := by
    rcases hec with hec | hec
    · rw [← hec]; exact hp
    · exact equiv_parents _ _ hec p hp
  rw [e] at k2
  exact hu _ (parent_before h hi k1 k2 hp')

theorem sizes_of (h : Reach calls s) (hne : allHps calls ≠ []) : s.estimateSize =
    if ∃ x ∈ s.com, x.hp.kind.size = none then none
    else some (s.com.map (fun x => x.hp.kind.size.getD 0)).prod := by
  have hc : s.com ≠ [] := by
    intro e
    have := hps_perm h
    rw [e] at this
    exact hne this.symm.eq_nil
  unfold Space.estimateSize
  simp only [List.length_map]
  rw [if_neg (by simpa using hc), foldl_size]
  simp [Function.comp_def]

theorem forall₂_fill (h : Reach calls s) (N : Nat) (hfin : ∀ x ∈ s.com, ∃ n, x.hp.kind.size = some n) {v : Vec}
    (hl : v.length = s.len) (hex : ∀ x ∈ allHps calls, ∀ q, v.at (s.idx x.name) = some q → EntryOf x q) :
    fillEntries s v ∈ prods (s.com.map (fun x => entries N x.hp.kind)) := by
  have hl := hl.trans (len_com h)
  rw [mem_prods, List.forall₂_iff_get]
  refine ⟨by simp [fillEntries, hl], ?_⟩
  intro i h1 h2
  have hi : i < s.com.length := by simpa using h2
  obtain ⟨hat, hidx⟩ := at_com h hi
  have hm : s.com[i] ∈ s.com := List.getElem_mem hi
  have hw := (reach_wf h).1 _ (node_hp h hm)
  obtain ⟨n, hn⟩ := hfin _ hm
  simp only [List.get_eq_getElem, List.getElem_map, fillEntries, List.getElem_zipWith]
  rw [mem_entries hw N hn, ← at_getElem]
  cases hq : v.at i with
  | none => exact defVec_entry hw
  | some q => exact hex _ (node_hp h hm) q (by rw [show s.com[i].hp.name = s.com[i].name from rfl, hidx, hq])

theorem exact_at (h : Reach calls s) {v : Vec} (hv : ValidVec calls s v) :
    v.length = s.len ∧ ∀ x ∈ allHps calls, ∀ q, v.at (s.idx x.name) = some q → EntryOf x q := by
  obtain ⟨a, ha, _, hex⟩ := hv
  refine ⟨ha.1, fun x hx q hq => hex x hx q ?_⟩
  rw [← hq, at_idx ha ((C02_names_index_bijection h).2.1 _ |>.2 ⟨x, hx, rfl⟩)]

theorem finite_of (h : Reach calls s) (hne : allHps calls ≠ []) {n : Nat} (hn : s.estimateSize = some n) :
    (∀ x ∈ s.com, ∃ n, x.hp.kind.size = some n) ∧ (prods (s.com.map (fun x => entries 0 x.hp.kind))).length = n := by
  rw [sizes_of h hne] at hn
  split at hn
  · cases hn
  · rename_i hfin
    have hfin : ∀ x ∈ s.com, ∃ n, x.hp.kind.size = some n := by
      intro x hx
      cases hs : x.hp.kind.size with
      | some n => exact ⟨n, rfl⟩
      | none => exact absurd ⟨x, hx, hs⟩ hfin
    refine ⟨hfin, ?_⟩
    cases hn
    rw [length_prods, List.map_map]
    congr 1
    refine List.map_congr_left fun x hx => ?_
    obtain ⟨n, hn⟩ := hfin x hx
    simp [length_entries 0 hn, hn]

theorem bound_of (h : Reach calls s) (hne : allHps calls ≠ []) {n : Nat} (hn : s.estimateSize = some n)
    {vs : List Vec} (hd : vs.Nodup) (hl : ∀ v ∈ vs, v.length = s.len)
    (hex : ∀ v ∈ vs, ∀ x ∈ allHps calls, ∀ q, v.at (s.idx x.name) = some q → EntryOf x q)
    (hinj : ∀ v ∈ vs, ∀ v' ∈ vs, fillEntries s v = fillEntries s v' → v = v') : vs.length ≤ n := by
  obtain ⟨hfin, hlen⟩ := finite_of h hne hn
  have hd' : (vs.map (fillEntries s)).Nodup := List.Nodup.map_on hinj hd
  have hsub : vs.map (fillEntries s) ⊆ prods (s.com.map (fun x => entries 0 x.hp.kind)) := by
    intro w hw
    obtain ⟨v, hv1, rfl⟩ := List.mem_map.1 hw
    exact forall₂_fill h 0 hfin (hl v hv1) (hex v hv1)
  have := (List.Nodup.subperm hd' hsub).length_le
  rwa [List.length_map, hlen] at this

/-- **C28.** The estimate of a space with a hyperparameter is an upper bound for the number of vectors that are
accepted, whatever conditions and clauses it has. -/
theorem C28_upper_bound_accepted (h : Reach calls s) (hne : allHps calls ≠ []) {n : Nat} (hn : s.estimateSize = some n)
    {vs : List Vec} (hd : vs.Nodup) (hv : ∀ v ∈ vs, AcceptedVec calls s v) : vs.length ≤ n :=
  bound_of h hne hn hd (fun v hv' => (hv v hv').1) (fun v hv' => (hv v hv').2.2)
    fun v hv1 v' hv2 => fill_inj_accepted h (hv v hv1) (hv v' hv2)

/-- **C28.** The estimate of a space with a hyperparameter is an upper bound for the number of valid configurations,
whatever conditions and clauses it has. -/
theorem C28_upper_bound (h : Reach calls s) (hne : allHps calls ≠ []) {n : Nat} (hn : s.estimateSize = some n)
    {vs : List Vec} (hd : vs.Nodup) (hv : ∀ v ∈ vs, ValidVec calls s v) : vs.length ≤ n :=
  bound_of h hne hn hd (fun v hv' => (exact_at h (hv v hv')).1) (fun v hv' => (exact_at h (hv v hv')).2)
    fun v hv1 v' hv2 => fill_inj h (hv v hv1) (hv v' hv2)

/-- In a space without conditions and clauses, the choices of entries are valid configurations. -/
theorem plain_valid (h : Reach calls s) (hc : allConds calls = []) (hf : allForbs calls = []) (N : Nat) {w : List Rat}
    (hw : w ∈ prods (s.com.map (fun x => entries N x.hp.kind))) : ValidVec calls s (w.map some) := by
  obtain ⟨hnd, hknown, _, hlen, _, _⟩ := C02_names_index_bijection h
  rw [mem_prods, List.forall₂_iff_get] at hw
  obtain ⟨hl, hw⟩ := hw
  simp only [List.length_map] at hl
  have hlv : (w.map some).length = s.len := by rw [List.length_map, hl, hlen, Space.names, List.length_map]
  have hrep := represents_asg h hlv
  have hent : ∀ x ∈ allHps calls, ∃ q, asg s.idx (w.map some) x.name = some q ∧ EntryOf x q := by
    intro x hx
    obtain ⟨y, hy, rfl⟩ := node_of_hp h hx
    obtain ⟨i, hi, rfl⟩ := List.getElem_of_mem hy
    have hat : At s.names i s.com[i].name := by simp [At, Space.names, List.getElem?_eq_getElem hi]
    have hi' : i < w.length := hl ▸ hi
    have e := hrep.2 i _ hat
    refine ⟨w[i], ?_, ?_⟩
    · rw [show s.com[i].hp.name = s.com[i].name from rfl, ← e]
      simp [Vec.at, hi']
    · have := hw i hi' (by simpa using hi)
      simp only [List.get_eq_getElem, List.getElem_map] at this
      exact entries_entryOf ((reach_wf h).1 _ hx) this
  refine ⟨_, hrep, ⟨?_, ?_, ?_, ?_⟩, ?_⟩
  · rintro n ⟨x, hx, rfl⟩ _
    obtain ⟨q, hq, _⟩ := hent x hx
    exact ⟨q, hq⟩
  · intro c hc'
    rw [hc] at hc'
    cases hc'
  · intro x hx q hq
    obtain ⟨q', hq', he⟩ := hent x hx
    rw [hq] at hq'
    cases hq'
    exact entryOf_legal ((reach_wf h).1 _ hx) he
  · intro f hf'
    rw [hf] at hf'
    cases hf'
  · intro x hx q hq
    obtain ⟨q', hq', he⟩ := hent x hx
    rw [hq] at hq'
    cases hq'
    exact he

theorem accepted_of_plain (h : Reach calls s) (hc : allConds calls = []) (hf : allForbs calls = []) {v : Vec}
    (hv : ValidVec calls s v) : s.check v = none := by
  obtain ⟨a, h1, h2, _⟩ := hv
  refine C17_valid_is_accepted_partial h ?_ ?_ h1 h2
  · intro c hc'
    rw [hc] at hc'
    cases hc'
  · intro f hf'
    rw [hf] at hf'
    cases hf'

theorem nodup_choices (h : Reach calls s) (N : Nat) :
    ((prods (s.com.map (fun x => entries N x.hp.kind))).map (List.map some)).Nodup := by
  refine List.Nodup.map ?_ (nodup_prods ?_)
  · intro a b e
    exact List.map_injective_iff.2 (fun x y e => Option.some.inj e) e
  · intro p hp
    obtain ⟨x, hx, rfl⟩ := List.mem_map.1 hp
    exact nodup_entries ((reach_wf h).1 _ (node_hp h hx)) N

/-- **C28.** Without conditions and clauses the estimate is the number of valid configurations: there is a list without
duplicates of exactly the valid ones, of this length, and all of them are accepted. -/
theorem C28_exact (h : Reach calls s) (hne : allHps calls ≠ []) (hc : allConds calls = []) (hf : allForbs calls = [])
    {n : Nat} (hn : s.estimateSize = some n) :
    ∃ vs : List Vec, vs.Nodup ∧ vs.length = n ∧ (∀ v, v ∈ vs ↔ ValidVec calls s v) ∧ ∀ v ∈ vs, s.check v = none := by
  obtain ⟨hfin, hlen⟩ := finite_of h hne hn
  have hval : ∀ v, v ∈ (prods (s.com.map (fun x => entries 0 x.hp.kind))).map (List.map some) → ValidVec calls s v := by
    intro v hv
    obtain ⟨w, hw, rfl⟩ := List.mem_map.1 hv
    exact plain_valid h hc hf 0 hw
  refine ⟨(prods (s.com.map (fun x => entries 0 x.hp.kind))).map (List.map some), nodup_choices h 0, ?_, ?_, ?_⟩
  · rw [List.length_map, hlen]
  · intro v
    refine ⟨hval v, fun hv => ?_⟩
    have hm := forall₂_fill h 0 hfin (exact_at h hv).1 (exact_at h hv).2
    have hv' := plain_valid h hc hf 0 hm
    refine List.mem_map.2 ⟨_, hm, ?_⟩
    refine fill_inj h hv' hv ?_
    unfold fillEntries
    refine List.ext_getElem (by simp) ?_
    intro i h1 h2
    simp
  · exact fun v hv => accepted_of_plain h hc hf (hval v hv)

/-- **C28.** If the estimate is infinite and there are no conditions and clauses, there are as many valid
configurations as one likes. -/
theorem C28_infinite (h : Reach calls s) (hne : allHps calls ≠ []) (hc : allConds calls = []) (hf : allForbs calls = [])
    (hn : s.estimateSize = none) (N : Nat) :
    ∃ vs : List Vec, vs.Nodup ∧ N ≤ vs.length ∧ ∀ v ∈ vs, ValidVec calls s v ∧ s.check v = none := by
  rw [sizes_of h hne] at hn
  split at hn
  · rename_i hinf
    obtain ⟨x, hx, hs⟩ := hinf
    have hval : ∀ v, v ∈ (prods (s.com.map (fun x => entries (N + 1) x.hp.kind))).map (List.map some) →
        ValidVec calls s v := by
      intro v hv
      obtain ⟨w, hw, rfl⟩ := List.mem_map.1 hv
      exact plain_valid h hc hf _ hw
    refine ⟨(prods (s.com.map (fun x => entries (N + 1) x.hp.kind))).map (List.map some), nodup_choices h _, ?_,
      fun v hv => ⟨hval v hv, accepted_of_plain h hc hf (hval v hv)⟩⟩
    rw [List.length_map, length_prods, List.map_map]
    have hpos : ∀ y ∈ s.com, 0 < (entries (N + 1) y.hp.kind).length := by
      intro y hy
      cases hs : y.hp.kind.size with
      | some n => rw [length_entries _ hs]; exact size_pos ((reach_wf h).1 _ (node_hp h hy)) hs
      | none => cases hk : y.hp.kind <;> rw [hk] at hs <;> first | (cases hs; done) | simp [entries]
    have hx' : (entries (N + 1) x.hp.kind).length = N + 1 := by
      cases hk : x.hp.kind <;> rw [hk] at hs <;> first | (cases hs; done) | simp [entries]
    have key : ∀ ns : Nodes, (∀ y ∈ ns, 0 < (entries (N + 1) y.hp.kind).length) → x ∈ ns →
        N + 1 ≤ (ns.map (List.length ∘ fun x => entries (N + 1) x.hp.kind)).prod := by
      intro ns hp hm
      have h1 : ∀ y ∈ ns.map (List.length ∘ fun x => entries (N + 1) x.hp.kind), 1 ≤ y := by
        intro y hy
        obtain ⟨z, hz, rfl⟩ := List.mem_map.1 hy
        exact hp z hz
      have := List.single_le_prod h1 _ (List.mem_map.2 ⟨x, hm, rfl⟩)
      simpa [hx'] using this
    have := key s.com hpos hx
    omega
  · cases hn

/-- **C28** for configurations built from values: any number of different ones is at most the estimate. -/
theorem C28_configurations (h : Reach calls s) (hne : allHps calls ≠ []) {n : Nat} (hn : s.estimateSize = some n)
    {cs : List Config} (hd : (cs.map Config.vec).Nodup)
    (hv : ∀ c ∈ cs, ∃ d, Config.ofValues s d = .ok c ∧
      ∀ x ∈ allHps calls, ∀ w, d.lookup x.name = some (some w) → ExactInt x.kind w) : cs.length ≤ n := by
  have := C28_upper_bound_accepted h hne hn hd (by
    intro v hv'
    obtain ⟨c, hc, rfl⟩ := List.mem_map.1 hv'
    obtain ⟨d, h1, h2⟩ := hv c hc
    refine ⟨(ofValues_ok h h1).2.1, (C21_values_kept h h1).1, ?_⟩
    intro x hx q hq
    have hw := (reach_wf h).1 x hx
    rcases (C21_values_kept h h1).2.2 x hx with ⟨w, e1, e2, e3, _⟩ | ⟨_, e3, _⟩
    · rw [e3] at hq
      exact ⟨_, roundVal_legal hw e2, roundVal_exact (h2 x hx w e1), hq⟩
    · rw [e3] at hq
      cases hq)
  simpa using this

/-- **C28** is false for the empty space: the estimate is zero, and the empty configuration is valid and accepted. -/
theorem C28_empty_space : ∃ calls s, Reach calls s ∧ s.estimateSize = some 0 ∧ ValidVec calls s [] ∧ s.check [] = none := by
  refine ⟨[], {}, .nil, rfl, plain_valid .nil rfl rfl 0 (w := []) (by decide), by decide⟩

namespace Ex

/-- The estimate of the space without floats of these examples. -/
def callSz : Call := ⟨[hpAlg, hpC, hpO], [], []⟩
def spSz : Space := committed {} callSz
theorem reachSz : Reach [callSz] spSz :=
  Reach.snoc (calls := []) .nil (by decide +kernel)
    (add_of_stages [("alg", some hpAlg.default), ("c", some hpC.default), ("o", some hpO.default)]
      [some 0, some 1, some 1] [("alg", hpAlg.default), ("c", hpC.default), ("o", hpO.default)]
      (by decide +kernel) (by decide +kernel) (by decide +kernel) (by decide +kernel) (by decide +kernel)
      (by decide +kernel))

example : ∃ vs : List Vec, vs.Nodup ∧ vs.length = 6 ∧ ∀ v ∈ vs, spSz.check v = none := by
  obtain ⟨vs, h1, h2, _, h4⟩ := C28_exact reachSz (by simp [allHps, callSz]) (by simp [allConds, callSz])
    (by simp [allForbs, callSz]) (n := 6) (by decide +kernel)
  exact ⟨vs, h1, h2, h4⟩

/-- `{"p": "a", "x": "b"}` in the chain. -/
def cfgA8 : Config := ⟨[some 0, some 1, none], some [("p", .str "a"), ("x", .str "b")], false⟩
theorem cfgA8_eq : Config.ofValues spL [("p", some (.str "a")), ("x", some (.str "b"))] = .ok cfgA8 :=
  ofValues_stages _ _ (by decide +kernel) (by decide +kernel) (by decide +kernel)

/-- Two configurations of the chain, whose estimated size is 8; `x` and `y` are unset in the first. -/
example : [cfgB, cfgA8].length ≤ 8 :=
  C28_configurations reachL (by simp [allHps, callL])
    (by decide +kernel) (by decide +kernel) (by
      intro c hc
      simp only [List.mem_cons, List.not_mem_nil, or_false] at hc
      have he : ∀ x ∈ allHps [callL], ∀ w, ExactInt x.kind w := by
        intro x hx w l u hk
        have : ∀ x ∈ allHps [callL], x.kind = .cat [.str "a", .str "b"] := by decide +kernel
        rw [this x hx] at hk
        cases hk
      rcases hc with rfl | rfl
      · exact ⟨_, cfgB_eq, fun x hx w _ => he x hx w⟩
      · exact ⟨_, cfgA8_eq, fun x hx w _ => he x hx w⟩)

end Ex

/-- A space with a float has no bound, and as many valid vectors as wanted. -/
def Ex.callFl : Call := ⟨[Ex.hpAlg, Ex.hpX], [], []⟩
def Ex.spFl : Space := Ex.committed {} Ex.callFl
theorem Ex.reachFl : Reach [Ex.callFl] Ex.spFl :=
  Reach.snoc (calls := []) .nil (by decide +kernel)
    (Ex.add_of_stages [("alg", some Ex.hpAlg.default), ("x", some Ex.hpX.default)] [some 0, some (1 / 2)]
      [("alg", Ex.hpAlg.default), ("x", Ex.hpX.default)]
      (by decide +kernel) (by decide +kernel) (by decide +kernel) (by decide +kernel) (by decide +kernel) (by decide +kernel))

example : ∃ vs : List Vec, vs.Nodup ∧ 1000 ≤ vs.length ∧ ∀ v ∈ vs, Ex.spFl.check v = none := by
  obtain ⟨vs, h1, h2, h3⟩ := C28_infinite Ex.reachFl (by simp [allHps, Ex.callFl]) rfl rfl (by decide +kernel) 1000
  exact ⟨vs, h1, h2, fun v hv => (h3 v hv).2⟩

/-- The vectors of `C28_exact` meet the hypotheses of `C28_upper_bound`. -/
example : ∃ vs : List Vec, vs.Nodup ∧ vs.length = 6 ∧ vs.length ≤ 6 := by
  obtain ⟨vs, h1, h2, h3, _⟩ := C28_exact Ex.reachSz (by simp [allHps, Ex.callSz]) (by simp [allConds, Ex.callSz])
    (by simp [allForbs, Ex.callSz]) (n := 6) (by decide +kernel)
  exact ⟨vs, h1, h2, C28_upper_bound Ex.reachSz (by simp [allHps, Ex.callSz]) (by decide +kernel) h1 (fun v hv => (h3 v).1 hv)⟩

end Verif
