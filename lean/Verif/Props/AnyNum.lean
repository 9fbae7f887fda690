import Verif.Lemmas.AnyNumChange

/-!
# C105: spaces over any arithmetic

The theorems quantify over the type of entries and over all conversions and comparisons.
-/

set_option autoImplicit false
set_option linter.unusedSectionVars false

namespace Verif.AnyNum
open Verif Verif.Spec.Any
open Verif.Spec (Known Conditional childName At clauseHps clauseHpsL OwnClauses Tight WeaklyLayered Layered ParentOf Path OwnConds)

variable {α β : Type} [DecidableEq α] {A : Arith α β}

variable {calls : List Call} {s : Space}

/-! ## The validators -/

/-- **C105, merged clauses**: whatever the arithmetic, the clauses that the check evaluates forbid exactly what the clauses that were
added forbid. -/
theorem C105_merged_clauses (h : Reach calls s) (hown : OwnClauses calls) (hl : LegalClauses A calls) {v : AVec α} {a : Entries α}
    (hv : Represents s v a) :
    ((fast A s).any (fun f => onVec A s.idx v f)) = true ↔ ∃ f ∈ allForbs calls, Forbids A a f := merged_iff h hown hl hv

/-- **C105, the check** (partial: grouped conditions must have the same meaning): whatever the arithmetic, `check_configuration` accepts
a vector exactly if the unconditional hyperparameters are set, the conditional ones exactly when their condition holds and then with
a legal entry, and no clause forbids it. -/
theorem C105_check_partial (h : Reach calls s) (hsep : Separable A calls) (hown : OwnClauses calls) (hl : LegalClauses A calls)
    {v : AVec α} {a : Entries α} (hv : Represents s v a) :
    check A s v = none ↔ RootsSet calls a ∧ ActivityOk A calls a ∧ LegalConditional A calls a ∧ NotForbidden A calls a :=
  check_iff h hsep hown hl hv

/-- **C105, the slow validator** (partial: also, an unset parent must not satisfy a condition): it accepts exactly the valid
configurations. -/
theorem C105_rigorous_partial (h : Reach calls s) (hsep : Separable A calls) (htight : ∀ c ∈ allConds calls, Tight calls c)
    {v : AVec α} {a : Entries α} (hv : Represents s v a) : checkRigorous A s v = none ↔ Valid A calls a := by
  have hi := sinv_of_reach h
  have hn := reach_ninv h
  unfold checkRigorous
  have hforb : (s.forbs.any (fun f => onVec A s.idx v f)) = true ↔ ∃ f ∈ allForbs calls, Forbids A a f := by
    rw [forb_any_iff]
    have hm : ∀ f, f ∈ s.forbs ↔ f ∈ allForbs calls := fun f => hi.hist.forbs.mem_iff
    constructor
    · rintro ⟨f, hf, hfa⟩
      exact ⟨f, (hm f).1 hf, (forbids_represents h hv ((hm f).1 hf)).1 hfa⟩
    · rintro ⟨f, hf, hfa⟩
      exact ⟨f, (hm f).2 hf, (forbids_represents h hv hf).2 hfa⟩
  have hloop : rigorousLoop A s v false s.dag.nodes = none ↔
      RootsSet calls a ∧ ActivityOk A calls a ∧ LegalAll A calls a := by
    rw [rigorousLoop_none, hi.com]
    have hhp : ∀ x ∈ s.com, x.hp ∈ allHps calls := fun x hx => by
      rw [← hi.com] at hx
      exact hi.hist.hps.mem_iff.1 (List.mem_map.2 ⟨x, hx, rfl⟩)
    have hnode : ∀ y ∈ allHps calls, ∃ x ∈ s.com, x.hp = y := fun y hy => by
      obtain ⟨x, hx, e⟩ := List.mem_map.1 (hi.hist.hps.mem_iff.2 hy)
      exact ⟨x, by rw [← hi.com]; exact hx, e⟩
    constructor
    · intro hall
      have hrs : RootsSet calls a := by
        rintro n ⟨y, hy, rfl⟩ hc
        obtain ⟨x, hx, rfl⟩ := hnode y hy
        have hxc : x.cond = none := by
          cases e : x.cond with
          | none => rfl
          | some c => exact absurd ⟨c, (node_cond h hx e).1, (node_cond h hx e).2.1⟩ hc
        have : x.name ∈ activeNames A s v := (mem_active h hx).2 (by simp [isActive, hxc])
        have := ((hall x hx).2).1 this
        rw [at_idx hv (mem_names hx)] at this
        exact this
      refine ⟨hrs, ?_, ?_⟩
      · intro d hd n hdn
        obtain ⟨x, hx, rfl, c, hc⟩ := node_of_child h hd hdn
        obtain ⟨m1, m2, m3⟩ := node_cond h hx hc
        have hcd := holds_pyEq hsep m1 hd (m3 d hd hdn) a
        have := (hall x hx).2
        rw [mem_active h hx, isActive_iff h hv htight hrs hx, at_idx hv (mem_names hx)] at this
        rw [← hcd, ← this, hc]
        simp
      · intro y hy q hq
        obtain ⟨x, hx, rfl⟩ := hnode y hy
        exact (hall x hx).1 q (by rw [at_idx hv (mem_names hx)]; exact hq)
    · rintro ⟨hrs, hact, hleg⟩ x hx
      rw [at_idx hv (mem_names hx), mem_active h hx, isActive_iff h hv htight hrs hx]
      constructor
      · intro q hq
        exact hleg x.hp (hhp x hx) q hq
      · cases hc : x.cond with
        | none =>
          simp only [reduceCtorEq, false_implies, implies_true, true_iff]
          refine hrs x.name ⟨x.hp, hhp x hx, rfl⟩ ?_
          rintro ⟨d, hd, hdn⟩
          obtain ⟨x', hx', e, c, hc'⟩ := node_of_child h hd hdn
          have h3 := findNode_of_mem hn.nodup hx'
          have h4 := findNode_of_mem hn.nodup hx
          rw [e, h4] at h3
          cases h3
          rw [hc] at hc'; cases hc'
        | some c =>
          obtain ⟨m1, m2, m3⟩ := node_cond h hx hc
          simp only [Option.some.injEq, forall_eq']
          exact (hact c m1 _ m2).symm
  cases hr : rigorousLoop A s v false s.dag.nodes with
  | some e =>
    rw [hr] at hloop
    simp only [reduceCtorEq, false_iff] at hloop ⊢
    exact fun k => hloop ⟨k.roots, k.active, k.legal⟩
  | none =>
    rw [hr] at hloop
    obtain ⟨k1, k2, k3⟩ := hloop.1 rfl
    simp only
    by_cases hb : (s.forbs.any (fun f => onVec A s.idx v f)) = true
    · rw [if_pos hb]
      obtain ⟨f, hfm, hff⟩ := hforb.1 hb
      simp only [reduceCtorEq, false_iff]
      exact fun k => k.allowed f hfm hff
    · rw [if_neg hb]
      simp only [true_iff]
      exact ⟨k1, k2, k3, fun f hfm hff => hb (hforb.2 ⟨f, hfm, hff⟩)⟩

/-- Equal literals on hyperparameters of the space have the same meaning. -/
theorem C105_literals_separable (h : Reach calls s) (ho : OwnConds calls) (he : EqualEntries A calls)
    (hlit : ∀ c ∈ allConds calls, ∃ l, c = .lit l) : Separable A calls := by
  intro c hc d hd hcd a
  obtain ⟨l, rfl⟩ := hlit c hc
  obtain ⟨m, rfl⟩ := hlit d hd
  have hl := (ho _ hc l (by simp [Cond.dlcs])).1
  have hm := (ho _ hd m (by simp [Cond.dlcs])).1
  simp only [Cond.equivOnParent, Lit.equivOnParent, Bool.and_eq_true] at hcd
  obtain ⟨h1, h2⟩ := hcd
  have hn : l.parent.name = m.parent.name := by
    unfold HP.pyEq at h1
    simp only [Bool.and_eq_true, decide_eq_true_eq] at h1
    exact h1.1.1
  have hp : l.parent = m.parent := reach_hp_inj h _ hl _ hm hn
  rw [holds_lit, holds_lit]
  unfold LitHolds
  cases h3 : l.test with
  | bin o v x =>
    cases h4 : m.test with
    | bin o' v' x' =>
      rw [h3, h4] at h2
      simp only [Test.pyEq, Bool.and_eq_true, decide_eq_true_eq] at h2
      obtain ⟨rfl, h2⟩ := h2
      have e := he _ hm _ _ h2
      cases o <;> simp only [hp, e]
    | isIn vs xs => rw [h3, h4] at h2; simp [Test.pyEq] at h2
  | isIn vs xs =>
    cases h4 : m.test with
    | bin o' v' x' => rw [h3, h4] at h2; simp [Test.pyEq] at h2
    | isIn vs' xs' =>
      rw [h3, h4] at h2
      simp only [Test.pyEq] at h2
      rw [hp]
      have : vs.map (A.toVec m.parent) = vs'.map (A.toVec m.parent) := by
        clear h3 h4
        induction vs generalizing vs' with
        | nil => cases vs' with
          | nil => rfl
          | cons w ws => simp [valsEq] at h2
        | cons v vs ih => cases vs' with
          | nil => simp [valsEq] at h2
          | cons w ws =>
            simp only [valsEq, Bool.and_eq_true] at h2
            rw [List.map_cons, List.map_cons, he _ hm _ _ h2.1, ih _ h2.2]
      have key : ∀ us : List Val, (∃ w ∈ us, a m.parent.name = some (A.toVec m.parent w)) ↔
          ∃ q ∈ us.map (A.toVec m.parent), a m.parent.name = some q := fun us => by simp
      simp only [key, this]

/-! ## Sampling -/

theorem sample_mem {rng : Nat → Nat → AMat α} {fuel size : Nat} {vs : List (AVec α)} (hs : sample A s rng fuel size = some vs) :
    ∀ v ∈ vs, ∃ b w, v ∈ sampleBatch A s w (rng b w) := by
  unfold sample at hs
  cases hl : sampleLoop A s rng size fuel 0 size [] with
  | none => rw [hl] at hs; cases hs
  | some acc =>
    rw [hl] at hs
    cases hs
    obtain ⟨h1, _⟩ := sampleLoop_ok (P := fun v => ∃ b w, v ∈ sampleBatch A s w (rng b w)) (fun b w v hv => ⟨b, w, hv⟩) _ _ _ _ _
      (by simp) hl
    exact fun v hv => h1 v (List.mem_of_mem_take hv)

/-- **C105, sampling**: as many configurations as were asked for. -/
theorem C105_sample_count {rng : Nat → Nat → AMat α} {fuel size : Nat} {vs : List (AVec α)} (hs : sample A s rng fuel size = some vs) :
    vs.length = size := by
  unfold sample at hs
  cases hl : sampleLoop A s rng size fuel 0 size [] with
  | none => rw [hl] at hs; cases hs
  | some acc =>
    rw [hl] at hs
    cases hs
    obtain ⟨_, h2⟩ := sampleLoop_ok (P := fun _ => True) (fun _ _ _ _ => trivial) _ _ _ _ _ (by simp) hl
    rw [List.length_take]
    omega

/-- **C105, sampling**: whatever the arithmetic and the generator, no returned configuration is forbidden by a clause. -/
theorem C105_samples_not_forbidden (h : Reach calls s) {rng : Nat → Nat → AMat α} (hd : Draws s rng) {fuel size : Nat}
    {vs : List (AVec α)} (hs : sample A s rng fuel size = some vs) :
    ∀ v ∈ vs, ∃ a, Represents s v a ∧ NotForbidden A calls a := by
  intro v hv
  obtain ⟨b, w, hm⟩ := sample_mem hs v hv
  obtain ⟨h1, h2⟩ := batch_allowed h (hd b w).2 (hd b w).1 hm
  exact ⟨_, represents_asg h h1, h2⟩

/-- **C105, sampling** (partial: the conditions must be weakly layered): whatever the arithmetic, if the generator only gives legal
entries then every returned configuration passes `check_configuration`. -/
theorem C105_samples_pass_check_partial (h : Reach calls s) (hw : WeaklyLayered calls) (hown : OwnClauses calls)
    {rng : Nat → Nat → AMat α} (hd : LegalDraws A calls s rng) {fuel size : Nat} {vs : List (AVec α)}
    (hs : sample A s rng fuel size = some vs) : ∀ v ∈ vs, check A s v = none := by
  intro v hv
  obtain ⟨b, w, hm⟩ := sample_mem hs v hv
  obtain ⟨hlen, hnf⟩ := batch_allowed h (hd.1 b w).2 (hd.1 b w).1 hm
  obtain ⟨u, hu, rfl, _, _⟩ := (batch_mem h (hd.1 b w).2 (hd.1 b w).1).1 hm
  have hrep := represents_asg h hlen
  have hroots : firstWith (fun e => !e.isSome) s (maskCol A s u) s.dag.roots = none := by
    rw [firstWith_none]
    intro n hn
    obtain ⟨hk, hc⟩ := (C06_roots_no_condition h n).1 hn
    obtain ⟨x, hx, rfl⟩ := hk
    obtain ⟨q, hq, _⟩ := legal_column h hd hu hx
    rw [maskCol_root h ((reach_isNode h x.name).2 ⟨x, hx, rfl⟩) hc, hq]
    rfl
  have hconds : checkConds A s (maskCol A s u) false s.minConds = none := by
    rw [checkConds_none]
    intro c hc
    refine ⟨fun hsat n hn => ?_, fun hsat n hn => ?_⟩
    · obtain ⟨x, hx, rfl⟩ := (reach_isNode h n).1 (kids_known h hc n hn)
      obtain ⟨q, hq, hlq⟩ := legal_column h hd hu hx
      have := maskCol_group (A := A) h hw u hc hn
      rw [if_pos hsat, hq] at this
      unfold legalAt
      rw [(hp_of h).2 ⟨hx, rfl⟩, this]
      exact hlq
    · rw [maskCol_group h hw u hc hn, if_neg (by rw [hsat]; simp)]
  unfold check
  rw [hroots]
  simp only
  rw [hconds]
  simp only
  rw [if_neg]
  intro hf
  obtain ⟨f, hf, hff⟩ := merged_sound h hown hrep hf
  exact hnf f hf hff

/-- **C105, sampling** (partial: also, grouped conditions must have the same meaning): every returned configuration is valid. -/
theorem C105_samples_valid_partial (h : Reach calls s) (hsep : Separable A calls) (hw : WeaklyLayered calls)
    {rng : Nat → Nat → AMat α} (hd : LegalDraws A calls s rng) {fuel size : Nat} {vs : List (AVec α)}
    (hs : sample A s rng fuel size = some vs) : ∀ v ∈ vs, ∃ a, Represents s v a ∧ Valid A calls a := by
  intro v hv
  obtain ⟨a, ha, hnf⟩ := C105_samples_not_forbidden h hd.1 hs v hv
  refine ⟨a, ha, ?_⟩
  obtain ⟨b, w, hm⟩ := sample_mem hs v hv
  obtain ⟨u, hu, he, _, _⟩ := (batch_mem h (hd.1 b w).2 (hd.1 b w).1).1 hm
  refine ⟨?_, ?_, ?_, hnf⟩
  · intro n hn hcn
    obtain ⟨x, hx, rfl⟩ := hn
    have hxn := (reach_isNode h x.name).2 ⟨x, hx, rfl⟩
    obtain ⟨q, hq, _⟩ := legal_column h hd hu hx
    refine ⟨q, ?_⟩
    rw [← at_idx ha hxn, he, maskCol_root h hxn hcn, hq]
  · rw [activity_iff h hsep ha]
    intro i g hg m hmk
    have hgm := List.mem_of_getElem? hg
    have hmn := kids_known h hgm m hmk
    obtain ⟨x, hx, rfl⟩ := (reach_isNode h m).1 hmn
    obtain ⟨q, hq, _⟩ := legal_column h hd hu hx
    rw [he, maskCol_group h hw u hgm hmk, hq]
    cases satVec A s.idx (maskCol A s u) g.cond <;> rfl
  · intro x hx q hq
    have hxn := (reach_isNode h x.name).2 ⟨x, hx, rfl⟩
    obtain ⟨p, hp, hlp⟩ := legal_column h hd hu hx
    rw [← at_idx ha hxn, he] at hq
    rcases maskFold_values h hxn s.minConds u (fun _ hc => hc) with k | k
    · rw [show (maskCol A s u).at (s.idx x.name) = none from k] at hq; cases hq
    · rw [show (maskCol A s u).at (s.idx x.name) = _ from k, hp] at hq
      cases hq
      exact hlp

/-- A generator that always gives the same column. -/
def constDraws (s : Space) (u : AVec α) : Nat → Nat → AMat α := fun _ w => ofCols s.len (List.replicate w u)

theorem constDraws_legal (h : Reach calls s) {u : AVec α}
    (hu : ∀ x ∈ allHps calls, ∃ q, u.at (s.idx x.name) = some q ∧ A.legalVec x q = true) :
    LegalDraws A calls s (constDraws s u) := by
  refine ⟨fun b w => ⟨ofCols_length, ?_⟩, ?_⟩
  · have := ofCols_rect (n := s.len) (vs := List.replicate w u)
    rwa [List.length_replicate] at this
  · intro b w x hx i row hin hrow e he
    have hidx : s.idx x.name = i := idx_unique (reach_ninv h).nodup hin
    unfold constDraws ofCols at hrow
    rw [List.getElem?_map] at hrow
    have hrow' : (List.replicate w u).map (fun v => v.at i) = row := by
      cases hr : (List.range s.len)[i]? with
      | none => rw [hr] at hrow; cases hrow
      | some j =>
        rw [hr] at hrow
        have : j = i := by
          obtain ⟨_, k⟩ := List.getElem?_eq_some_iff.1 hr
          simpa using k.symm
        subst this
        simpa using hrow
    subst hrow'
    simp only [List.map_replicate, List.mem_replicate] at he
    rw [he.2, ← hidx]
    exact hu x hx


/-- The column that leads to the vector `v`: its values, and defaults for what is not set. -/
def preimage (A : Arith α β) (s : Space) (v : AVec α) : AVec α :=
  s.com.map (fun x => some ((v.at (s.idx x.name)).getD (A.toVec x.hp x.hp.default)))

theorem preimage_at (h : Reach calls s) (v : AVec α) {x : HP} (hx : x ∈ allHps calls) :
    (preimage A s v).at (s.idx x.name) = some ((v.at (s.idx x.name)).getD (A.toVec x x.default)) := by
  have hn := reach_ninv h
  obtain ⟨y, hy, e⟩ := node_of_hp h hx
  have hyn : y.name = x.name := by rw [← e]; rfl
  obtain ⟨i, hyi⟩ := List.getElem?_of_mem hy
  have hat : At s.names i y.name := by
    unfold At Space.names
    rw [List.getElem?_map, hyi]
    rfl
  have hidx : s.idx y.name = i := idx_unique hn.nodup hat
  unfold preimage AVec.at
  rw [← hyn, hidx, List.getD_eq_getElem?_getD, List.getElem?_map, hyi]
  simp [hidx, e]

/-- Two vectors that agree on the unconditional hyperparameters and follow the same rule on the conditional
ones are equal. -/
theorem groups_unique (h : Reach calls s) {u v w : AVec α} (hv : v.length = s.len) (hw : w.length = s.len)
    (hroot : ∀ n, Known calls n → ¬ Conditional calls n → v.at (s.idx n) = w.at (s.idx n))
    (h1 : ∀ c ∈ s.minConds, ∀ m ∈ c.kids, v.at (s.idx m) = if satVec A s.idx v c.cond then u.at (s.idx m) else none)
    (h2 : ∀ c ∈ s.minConds, ∀ m ∈ c.kids, w.at (s.idx m) = if satVec A s.idx w c.cond then u.at (s.idx m) else none) :
    v = w := by
  have hi := sinv_of_reach h
  have hg := groupsOk_sorted s.com
  rw [← hi.mins] at hg
  have key : ∀ (k : Nat) (n : Name), n ∈ s.names → s.idx n < k → v.at (s.idx n) = w.at (s.idx n) := by
    intro k
    induction k with
    | zero => intro n _ hlt; omega
    | succ k ih =>
      intro n hn hlt
      by_cases hc : Conditional calls n
      · obtain ⟨d, hd, hdn⟩ := hc
        obtain ⟨x, hx, rfl, c, hcx⟩ := node_of_child h hd hdn
        obtain ⟨g, hgm, hk, _⟩ := hg.covers x hx c hcx
        obtain ⟨i, hgi⟩ := List.getElem?_of_mem hgm
        rw [h1 g hgm _ hk, h2 g hgm _ hk]
        have : satVec A s.idx v g.cond = satVec A s.idx w g.cond := by
          refine satVec_congr (fun p hp => ih p (parents_known h hgm p hp) ?_)
          have := idx_edge_lt h (group_edge h ⟨g, hgi, hp⟩ ⟨g, hgi, hk⟩)
          omega
        rw [this]
      · exact hroot n ((reach_isNode h n).1 hn) hc
  refine vec_ext hv hw ?_
  intro i hi'
  have hlt : i < s.names.length := by
    have : s.names.length = s.com.length := by simp [Space.names]
    rw [this, ← hi.len]; exact hi'
  have hidx : s.idx s.names[i] = i := idx_unique (reach_ninv h).nodup (List.getElem?_eq_getElem hlt)
  have := key (i + 1) s.names[i] (List.getElem_mem hlt) (by rw [hidx]; omega)
  rw [hidx] at this
  exact this


/-- **C105, sampling** (partial: the guards of the previous theorem): every valid configuration is returned for some outcome of the
generator with legal entries, in the first batch. -/
theorem C105_every_valid_sampled_partial (h : Reach calls s) (hsep : Separable A calls) (hw : WeaklyLayered calls)
    (hle : LegalDefaults A calls) (hwd : 0 < A.width s 1) {v : AVec α} {a : Entries α} (hv : Represents s v a) (hval : Valid A calls a) :
    ∃ rng, LegalDraws A calls s rng ∧ sample A s rng 1 1 = some [v] := by
  have hi := sinv_of_reach h
  have hlenp : (preimage A s v).length = s.len := by simp [preimage, hi.len]
  have hmask : maskCol A s (preimage A s v) = v := by
    refine groups_unique h (u := preimage A s v) (by rw [maskCol_length, hlenp]) hv.1 ?_
      (fun c hc m hm => maskCol_group h hw _ hc hm) ?_
    · rintro n ⟨x, hx, rfl⟩ hc
      have hxn := (reach_isNode h x.name).2 ⟨x, hx, rfl⟩
      rw [maskCol_root h hxn hc, preimage_at h v hx]
      obtain ⟨q, hq⟩ := hval.roots _ ⟨x, hx, rfl⟩ hc
      rw [at_idx hv hxn, hq]
      rfl
    · intro c hc m hm
      obtain ⟨i, hci⟩ := List.getElem?_of_mem hc
      have := (activity_iff h hsep hv).1 hval.active i c hci m hm
      obtain ⟨x, hx, rfl⟩ := (reach_isNode h m).1 (kids_known h hc m hm)
      rw [preimage_at h v hx]
      cases hs : satVec A s.idx v c.cond with
      | false =>
        rw [hs] at this
        rw [if_neg (by simp)]
        simpa using this
      | true =>
        rw [hs, Option.isSome_iff_exists] at this
        obtain ⟨q, hq⟩ := this
        rw [if_pos rfl, hq]
        rfl
  refine ⟨constDraws s (preimage A s v), constDraws_legal h ?_, ?_⟩
  · intro x hx
    have hxn := (reach_isNode h x.name).2 ⟨x, hx, rfl⟩
    rw [preimage_at h v hx, at_idx hv hxn]
    refine ⟨_, rfl, ?_⟩
    cases ha : a x.name with
    | none => exact hle x hx
    | some q => exact hval.legal x hx q ha
  · have hbatch : ∃ l, sampleBatch A s (A.width s 1) (constDraws s (preimage A s v) 0 (A.width s 1)) = v :: l := by
      unfold constDraws
      have hrect := ofCols_rect (n := s.len) (vs := List.replicate (A.width s 1) (preimage A s v))
      rw [List.length_replicate] at hrect
      have hcols := cols_ofCols (n := s.len) (vs := List.replicate (A.width s 1) (preimage A s v))
        (fun u' hu' => by rw [(List.mem_replicate.1 hu').2, hlenp])
      rw [List.length_replicate] at hcols
      have hmem : v ∈ sampleBatch A s (A.width s 1) (ofCols s.len (List.replicate (A.width s 1) (preimage A s v))) := by
        rw [batch_mem h hrect ofCols_length, hcols]
        refine ⟨preimage A s v, List.mem_replicate.2 ⟨by omega, rfl⟩, hmask.symm, ?_, ?_⟩
        · intro f hf
          rw [← uncond_mask h hf, hmask,
            forbids_represents h hv (hi.hist.forbs.mem_iff.1 (List.mem_append.2 (.inl hf)))]
          exact hval.allowed f (hi.hist.forbs.mem_iff.1 (List.mem_append.2 (.inl hf)))
        · intro f hf
          rw [forbids_represents h hv (hi.hist.forbs.mem_iff.1 (List.mem_append.2 (.inr hf)))]
          exact hval.allowed f (hi.hist.forbs.mem_iff.1 (List.mem_append.2 (.inr hf)))
      have hall : ∀ v' ∈ sampleBatch A s (A.width s 1) (ofCols s.len (List.replicate (A.width s 1) (preimage A s v))), v' = v := by
        intro v' hv'
        rw [batch_mem h hrect ofCols_length, hcols] at hv'
        obtain ⟨p, hp, rfl, _⟩ := hv'
        rw [(List.mem_replicate.1 hp).2, hmask]
      cases hb : sampleBatch A s (A.width s 1) (ofCols s.len (List.replicate (A.width s 1) (preimage A s v))) with
      | nil => rw [hb] at hmem; cases hmem
      | cons v' l => exact ⟨l, by rw [hall v' (by rw [hb]; simp)]⟩
    obtain ⟨l, hl⟩ := hbatch
    unfold sample
    have hloop : sampleLoop A s (constDraws s (preimage A s v)) 1 1 0 1 [] = some (v :: l) := by
      unfold sampleLoop
      rw [if_neg (by simp)]
      simp only [List.nil_append, hl]
      unfold sampleLoop
      rw [if_pos (by simp)]
    rw [hloop]
    rfl

/-! ## Assignment -/

/-- **C105, assignment** (partial: the conditions must be weakly layered).  Changing a hyperparameter that is set, in an
assignment in which exactly the active hyperparameters are set, gives such an assignment again. The changed
hyperparameter has the new value; what does not depend on it is as before; every other hyperparameter
is unset, keeps its value, or has its default. -/
theorem C105_change_partial (h : Reach calls s) (hsep : Separable A calls)
    (hw : WeaklyLayered calls) {v : AVec α} {a : Entries α} (hv : Represents s v a) (ha : ActivityOk A calls a)
    {n : Name} (hn : Known calls n) (hset : ∃ q, a n = some q) (x : α) :
    ∃ b, Represents s (changeHp A s v n x (s.idx n)) b ∧ b n = some x ∧ ActivityOk A calls b ∧
      (RootsSet calls a → RootsSet calls b) ∧
      (∀ m, Known calls m → m ≠ n → ¬ Path (ParentOf calls) n m → b m = a m) ∧
      (∀ y ∈ allHps calls, y.name ≠ n → ∀ q, b y.name = some q → a y.name = some q ∨ q = A.toVec y y.default) := by
  have hnn := (reach_isNode h n).2 hn
  have hlen : (changeHp A s v n x (s.idx n)).length = s.len := by rw [changeHp_length]; exact hv.1
  have hother : ∀ m, Known calls m → m ≠ n → ¬ Path (ParentOf calls) n m →
      asg s.idx (changeHp A s v n x (s.idx n)) m = a m := by
    intro m hm hne hp
    have hmn := (reach_isNode h m).2 hm
    rw [← at_idx hv hmn]
    exact changeHp_other h hv.1 hnn hmn hne hp
  refine ⟨_, represents_asg h hlen, changeHp_at h hv.1 hnn, changeHp_activity h hsep hw hv ha hnn hset x, ?_,
    hother, ?_⟩
  · intro hr m hm hc
    by_cases e : m = n
    · subst e; exact ⟨x, changeHp_at h hv.1 hnn⟩
    · rw [hother m hm e]
      · exact hr m hm hc
      · intro hp
        obtain ⟨p, _, d, hd, hdn, _⟩ := Path.last hp
        exact hc ⟨d, hd, hdn⟩
  · intro y hy hne q hq
    have hyn := (reach_isNode h y.name).2 ⟨y, hy, rfl⟩
    have := changeLoop_values (A := A) h hyn ((s.lookup.lookup n).getD []) (v.set (s.idx n) (some x)) (by simp [hv.1])
    rw [← changeHp_eq, at_set_ne (fun e => hne (idx_inj h hyn hnn e.symm)), at_idx hv hyn, defE_eq h hy] at this
    have hq' : (changeHp A s v n x (s.idx n)).at (s.idx y.name) = some q := hq
    rw [hq'] at this
    rcases this with k | k | k
    · cases k
    · exact .inl k.symm
    · exact .inr (Option.some.inj k)

/-- **C105, assignment** (partial: the conditions must be layered).  What is active before and after the change keeps
its value; what becomes active gets its default. -/
theorem C105_change_keeps_partial (h : Reach calls s) (hl : Layered calls)
    {v : AVec α} {a b : Entries α} (hv : Represents s v a) {n : Name} (hn : Known calls n) {x : α} (hb : Represents s (changeHp A s v n x (s.idx n)) b) :
    ∀ y ∈ allHps calls, y.name ≠ n → ∀ q, b y.name = some q →
      (∀ p, a y.name = some p → q = p) ∧ (a y.name = none → q = A.toVec y y.default) := by
  intro y hy hne q hq
  have hnn := (reach_isNode h n).2 hn
  have hyn := (reach_isNode h y.name).2 ⟨y, hy, rfl⟩
  rw [← at_idx hb hyn] at hq
  rw [← at_idx hv hyn]
  have hv' : (v.set (s.idx n) (some x)).length = s.len := by simp [hv.1]
  by_cases hk : ∃ i ∈ (s.lookup.lookup n).getD [], KidOf s.minConds i y.name
  · obtain ⟨i, hi, c, hc, hm⟩ := hk
    have := changeLoop_noBack (A := A) h _ _ hv' (lookup_noBack h hl n) i hi c hc y.name hm
    rw [← changeHp_eq, hq, at_set_ne (fun e => hne (idx_inj h hyn hnn e.symm)), defE_eq h hy] at this
    split at this
    · split at this
      · exact ⟨fun p hp => by rw [hp] at this; exact Option.some.inj this,
          fun e => by rw [e] at this; cases this⟩
      · rename_i hs
        refine ⟨fun p hp => ?_, fun _ => Option.some.inj this⟩
        rw [hp] at hs; exact absurd rfl hs
    · cases this
  · have := changeLoop_other (A := A) h hyn ((s.lookup.lookup n).getD []) _ hv' (fun j hj hkj => hk ⟨j, hj, hkj⟩)
    rw [← changeHp_eq, hq, at_set_ne (fun e => hne (idx_inj h hyn hnn e.symm))] at this
    exact ⟨fun p hp => by rw [hp] at this; exact Option.some.inj this, fun e => by rw [e] at this; cases this⟩

/-- **C105, assignment and check** (partial: weakly layered conditions).  After changing an active hyperparameter of an
accepted vector to a legal entry, only a forbidden clause can make the check fail. -/
theorem C105_change_forbidden_partial (h : Reach calls s) (hsep : Separable A calls)
    (hown : OwnClauses calls) (hl : LegalClauses A calls) (hle : LegalDefaults A calls) (hw : WeaklyLayered calls) {v : AVec α} {a b : Entries α} (hv : Represents s v a)
    (hchk : check A s v = none) {y : HP} (hy : y ∈ allHps calls) (hset : ∃ q, a y.name = some q) {x : α}
    (hx : A.legalVec y x = true) (hb : Represents s (changeHp A s v y.name x (s.idx y.name)) b) :
    check A s (changeHp A s v y.name x (s.idx y.name)) = none ↔ NotForbidden A calls b := by
  obtain ⟨h1, h2, h3, _⟩ := (check_iff h hsep hown hl hv).1 hchk
  obtain ⟨b', k1, k2, k3, k4, k5, k6⟩ :=
    C105_change_partial h hsep hw hv h2 ⟨y, hy, rfl⟩ hset x
  have hbb : ∀ m, Known calls m → b m = b' m := by
    intro m hm
    have hmn := (reach_isNode h m).2 hm
    rw [← at_idx hb hmn, at_idx k1 hmn]
  rw [check_iff h hsep hown hl hb]
  have hroots : RootsSet calls b := by
    intro m hm hc
    rw [hbb m hm]
    exact k4 h1 m hm hc
  have hact : ActivityOk A calls b := by
    have := k3
    rw [activity_iff h hsep k1] at this
    exact (activity_iff h hsep hb).2 this
  have hleg : LegalConditional A calls b := by
    intro z hz hc q hq
    rw [hbb _ ⟨z, hz, rfl⟩] at hq
    by_cases e : z.name = y.name
    · rw [e, k2] at hq
      cases hq
      rw [reach_hp_inj h z hz y hy e]
      exact hx
    · rcases k6 z hz e q hq with k | rfl
      · exact h3 z hz hc q k
      · exact hle z hz
  exact ⟨fun k => k.2.2.2, fun k => ⟨hroots, hact, hleg, k⟩⟩



theorem check_only_forbidden {v : AVec α} {e : Err} (h1 : firstWith (fun e => !e.isSome) s v s.dag.roots = none)
    (h2 : checkConds A s v false s.minConds = none) (h : check A s v = some e) : e = .forbidden := by
  unfold check at h
  rw [h1] at h
  simp only at h
  rw [h2] at h
  simp only at h
  split at h
  · cases h; rfl
  · cases h

/-- **C105, assignment** (partial: weakly layered conditions, grouped conditions with the same meaning): whatever the arithmetic,
`config[name] = value` for a set hyperparameter of an accepted configuration refuses illegal values, otherwise stores the entry of
the value in a configuration that is accepted and has exactly the active hyperparameters set, or raises because the result is
forbidden.  After an exception the configuration is as before. -/
theorem C105_assign_partial (h : Reach calls s) (hsep : Separable A calls) (hown : OwnClauses calls) (hl : LegalClauses A calls)
    (hle : LegalDefaults A calls) (hw : WeaklyLayered calls) {v : AVec α} {a : Entries α} (hv : Represents s v a)
    (hchk : check A s v = none) {y : HP} (hy : y ∈ allHps calls) (hset : ∃ q, a y.name = some q) {w : Val}
    (hwl : A.legalValue y w = true → A.legalVec y (A.toVec y w) = true) :
    (A.legalValue y w = false ∧ setItem A s v y.name w = (v, some (.illegalValue y.name))) ∨
    (A.legalValue y w = true ∧ ∃ v' b, Represents s v' b ∧ b y.name = some (A.toVec y w) ∧ ActivityOk A calls b ∧
      (∀ m, Known calls m → m ≠ y.name → ¬ Path (ParentOf calls) y.name m → b m = a m) ∧
      ((NotForbidden A calls b ∧ check A s v' = none ∧ setItem A s v y.name w = (v', none)) ∨
        (¬ NotForbidden A calls b ∧ setItem A s v y.name w = (v, some .forbidden)))) := by
  have hi := sinv_of_reach h
  have hn : ∃ x, findNode s.dag.nodes y.name = some x ∧ x.hp = y := by
    have hp := (hp_of h).2 ⟨hy, rfl⟩
    unfold Space.hp? at hp
    rw [← hi.com] at hp
    cases hf : findNode s.dag.nodes y.name with
    | none => simp [hf] at hp
    | some x => exact ⟨x, rfl, by simpa [hf] using hp⟩
  obtain ⟨x, hx, rfl⟩ := hn
  cases hlv : A.legalValue x.hp w with
  | false =>
    left
    refine ⟨rfl, ?_⟩
    unfold setItem
    rw [hx]
    simp [hlv]
  | true =>
    right
    refine ⟨rfl, ?_⟩
    obtain ⟨h1, h2, h3, _⟩ := (check_iff h hsep hown hl hv).1 hchk
    obtain ⟨b, k1, k2, k3, k4, k5, k6⟩ := C105_change_partial h hsep hw hv h2 ⟨x.hp, hy, rfl⟩ hset (A.toVec x.hp w)
    have hiff := C105_change_forbidden_partial h hsep hown hl hle hw hv hchk hy hset (hwl hlv) k1
    have hset' : setItem A s v x.hp.name w = match check A s (changeHp A s v x.hp.name (A.toVec x.hp w) (s.idx x.hp.name)) false with
        | some e => (v, some e)
        | none => (changeHp A s v x.hp.name (A.toVec x.hp w) (s.idx x.hp.name), none) := by
      unfold setItem
      rw [hx]
      simp only [hlv]
      cases check A s (changeHp A s v x.hp.name (A.toVec x.hp w) (s.idx x.hp.name)) false <;> rfl
    refine ⟨_, b, k1, k2, k3, k5, ?_⟩
    by_cases hnf : NotForbidden A calls b
    · left
      have hc := hiff.2 hnf
      refine ⟨hnf, hc, ?_⟩
      rw [hset', hc]
    · right
      refine ⟨hnf, ?_⟩
      have hc : check A s (changeHp A s v x.hp.name (A.toVec x.hp w) (s.idx x.hp.name)) ≠ none := fun e => hnf (hiff.1 e)
      cases he : check A s (changeHp A s v x.hp.name (A.toVec x.hp w) (s.idx x.hp.name)) with
      | none => exact absurd he hc
      | some e =>
        have hroots := (rootsSet_iff h k1).2 (k4 h1)
        have hconds : checkConds A s (changeHp A s v x.hp.name (A.toVec x.hp w) (s.idx x.hp.name)) false s.minConds = none := by
          refine (checkConds_iff h hsep k1).2 ⟨k3, ?_⟩
          intro z hz hzc q hq
          by_cases ez : z.name = x.hp.name
          · rw [ez, k2] at hq
            cases hq
            rw [reach_hp_inj h z hz x.hp hy ez]
            exact hwl hlv
          · rcases k6 z hz ez q hq with k | rfl
            · exact h3 z hz hzc q k
            · exact hle z hz
        rw [hset', he, check_only_forbidden hroots hconds he]

end Verif.AnyNum
