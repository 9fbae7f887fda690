import Verif.Lemmas.Connected

/-!
# What may be proposed for a single value
-/

set_option autoImplicit false

namespace Verif.Conn
open Verif Verif.Spec Relation

/-- The moves of a single value: to any other value; for ordinals, to an adjacent one. -/
def Move (y : HP) (q q' : Rat) : Prop :=
  EntryOf y q' ∧ q ≠ q' ∧ ∀ cs, y.kind = .ord cs → q' = q + 1 ∨ q = q' + 1

theorem entry_seq {h : HP} (hw : h.wf = true) {cs : List Val} (hk : h.kind = .cat cs ∨ h.kind = .ord cs) {q : Rat} :
    EntryOf h q ↔ ∃ i : Nat, i < cs.length ∧ q = i := by
  rw [← entryOf_seq hw hk]
  simp only [List.mem_map, List.mem_range]
  exact ⟨fun ⟨i, h1, h2⟩ => ⟨i, h1, h2.symm⟩, fun ⟨i, h1, h2⟩ => ⟨i, h1, h2.symm⟩⟩

theorem entry_int {h : HP} (hw : h.wf = true) {l u : Int} (hk : h.kind = .int l u) {q : Rat} :
    EntryOf h q ↔ ∃ i : Nat, i < (u - l + 1).toNat ∧ q = (i : Rat) / (((u - l + 1).toNat : Rat) - 1) := by
  have hlt := wf_int_lt hw hk
  rw [← mem_entries hw 0 (n := (u - l + 1).toNat) (by rw [hk]; rfl), hk]
  simp only [entries, List.mem_map, List.mem_range]
  have e : ∀ i : Nat, normalizeQ ((l + i : Int) : Rat) l u = (i : Rat) / (((u - l + 1).toNat : Rat) - 1) := by
    intro i
    rw [normalize_eq]
    have : (((u - l + 1).toNat : Nat) : Rat) = (u : Rat) - l + 1 := by
      have : (((u - l + 1).toNat : Nat) : Int) = u - l + 1 := by omega
      exact_mod_cast congrArg (fun z : Int => (z : Rat)) this
    rw [this]
    push_cast
    congr 1 <;> ring
  constructor
  · rintro ⟨i, h1, h2⟩; exact ⟨i, h1, by rw [← h2, e]⟩
  · rintro ⟨i, h1, h2⟩; exact ⟨i, h1, by rw [h2, e]⟩

theorem entry_flt {h : HP} (hw : h.wf = true) {l u : Rat} (hk : h.kind = .flt l u) {q : Rat} (hq : EntryOf h q) :
    0 ≤ q ∧ q ≤ 1 := by
  have := entryOf_legal hw hq
  rw [hk] at this
  simpa [Kind.legalVec] using this

/-- A hyperparameter with a move has more than one value. -/
theorem size_of_ne {y : HP} (hw : y.wf = true) {q q' : Rat} (h1 : EntryOf y q) (h2 : EntryOf y q') (hne : q ≠ q') :
    y.kind.size ≠ some 1 := by
  intro hs
  have hl := length_entries 0 hs
  have e1 := (mem_entries hw 0 hs).2 h1
  have e2 := (mem_entries hw 0 hs).2 h2
  obtain ⟨x, hx⟩ := List.length_eq_one_iff.1 hl
  rw [hx, List.mem_singleton] at e1 e2
  exact hne (e1.trans e2.symm)

/-- All values are connected by moves. -/
theorem move_connected {y : HP} (hw : y.wf = true) {q q' : Rat} (h1 : EntryOf y q) (h2 : EntryOf y q') :
    ReflTransGen (Move y) q q' := by
  by_cases hord : ∃ cs, y.kind = .ord cs
  · obtain ⟨cs, hk⟩ := hord
    obtain ⟨i, hi, rfl⟩ := (entry_seq hw (.inr hk)).1 h1
    obtain ⟨j, hj, rfl⟩ := (entry_seq hw (.inr hk)).1 h2
    have up : ∀ d i : Nat, i + d < cs.length → ReflTransGen (Move y) (i : Rat) ((i + d : Nat) : Rat) := by
      intro d
      induction d with
      | zero => intro i _; exact .refl
      | succ d ih =>
        intro i hi
        refine (ih i (by omega)).tail ⟨(entry_seq hw (.inr hk)).2 ⟨_, hi, rfl⟩, ?_, fun _ _ => .inl ?_⟩
        · intro e
          have : i + d = i + (d + 1) := by exact_mod_cast e
          omega
        · push_cast; ring
    have down : ∀ d i : Nat, i + d < cs.length → ReflTransGen (Move y) ((i + d : Nat) : Rat) (i : Rat) := by
      intro d
      induction d with
      | zero => intro i _; exact .refl
      | succ d ih =>
        intro i hi
        refine ReflTransGen.head ⟨(entry_seq hw (.inr hk)).2 ⟨i + d, by omega, rfl⟩, ?_, fun _ _ => .inr ?_⟩ (ih i (by omega))
        · intro e
          have : i + (d + 1) = i + d := by exact_mod_cast e
          omega
        · push_cast; ring
    rcases Nat.le_total i j with hij | hij
    · obtain ⟨d, rfl⟩ := Nat.exists_eq_add_of_le hij
      exact up d i hj
    · obtain ⟨d, rfl⟩ := Nat.exists_eq_add_of_le hij
      exact down d j hi
  · by_cases e : q = q'
    · rw [e]
    · exact .single ⟨h2, e, fun cs hk => absurd ⟨cs, hk⟩ hord⟩

/-! ## Proposals for choices are complete -/

theorem prop_cat {num i : Nat} {cs : List Val} (hi : i < cs.length) {l : List Rat} (hp : MayPropose num (.cat cs) i l) :
    l.length = cs.length - 1 ∧ ∀ j : Nat, j < cs.length → j ≠ i → (j : Rat) ∈ l := by
  obtain ⟨sh, r, h1, h2, h3⟩ := hp
  obtain ⟨r', q1, q2, q3, q4, q5⟩ := Num.C35_categorical_partial (n := cs.length - 1) hi h1
  rw [h2] at q1
  cases q1
  constructor
  · rw [h3.length_eq, List.length_map, q4]; split <;> omega
  · intro j hj hne
    rw [h3.mem_iff]
    exact List.mem_map.2 ⟨j, (q5 (Nat.le_refl _) j).2 ⟨hj, hne⟩, rfl⟩

theorem toVal_seq {cs : List Val} {i : Nat} {w : Val} (hw : cs[i]? = some w) : (Kind.ord cs).toVal i = some w := by
  simp [Kind.toVal, closeToInt_nat, rint_nat, pyIndex_nat, hw]

theorem ord_num {cs : List Val} (hd : distinctVals cs = true) {i : Nat} {w : Val} (hw : cs[i]? = some w)
    (h2 : cs.length ≠ 1) : Num.ordNumNeighbors cs (some w) = some (if i = 0 ∨ i = cs.length - 1 then 1 else 2) := by
  simp only [Num.ordNumNeighbors, if_neg h2, seqIndex_getElem hd hw, Option.map_some]

theorem ord_ends {size i n : Nat} (hi : i < size) (hn : n = if i = 0 ∨ i = size - 1 then 1 else 2) (pick : Bool) :
    Num.ordNeighbors size i n pick = Num.ordNeighbors size i 2 pick := by
  by_cases hc : i = 0 ∨ i = size - 1
  · unfold Num.ordNeighbors
    simp only [rint_nat]
    rcases hc with rfl | hc
    · simp
    · have : (((i : Int)) : Rat) = (size : Rat) - 1 := by
        have : (i : Rat) + 1 = size := by exact_mod_cast (show i + 1 = size by omega)
        push_cast; linarith
      simp only [if_pos this]
  · rw [hn, if_neg hc]

theorem prop_ord {num i : Nat} {cs : List Val} (hd : distinctVals cs = true) (hi : i < cs.length) (h2 : cs.length ≠ 1)
    {l : List Rat} (hp : MayPropose num (.ord cs) i l) :
    Num.ordNumNeighbors cs (some cs[i]) = some l.length ∧
    ∀ j : Nat, j < cs.length → (j + 1 = i ∨ j = i + 1) → (j : Rat) ∈ l := by
  obtain ⟨w, n, pick, r, k1, k2, k3, k4⟩ := hp
  have hw : cs[i]? = some cs[i] := List.getElem?_eq_getElem hi
  rw [toVal_seq hw] at k1
  cases k1
  have hn := ord_num hd hw h2
  rw [hn] at k2
  have e : n = if i = 0 ∨ i = cs.length - 1 then 1 else 2 := (Option.some.inj k2).symm
  rw [ord_ends hi e] at k3
  obtain ⟨-, r', c1, c2⟩ := Num.C37_ordinal hd hw (Nat.le_refl 2) pick
  rw [k3] at c1
  cases c1
  obtain ⟨r', o1, o2, o3, o4, o5⟩ := Num.C35_ordinal_partial (n := 2) hi pick
  rw [k3] at o1
  cases o1
  refine ⟨by rw [c2, k4.length_eq], ?_⟩
  intro j hj ha
  rw [k4.mem_iff]
  exact o4 (Nat.le_refl 2) j hj ha

/-! ## Proposals exist -/

theorem perm_front {l : List Rat} {x : Rat} (h : x ∈ l) : ∃ m, (x :: m).Perm l :=
  ⟨l.erase x, (List.perm_cons_erase h).symm⟩

theorem int_first {bins i j n : Nat} (hb : 2 ≤ bins) (hi : i < bins) (hj : j < bins) (hne : i ≠ j) (hn : n ≠ 0) :
    ∃ draws r, Num.quantizedNeighborhood ((i : Rat) / ((bins : Rat) - 1)) n 0 1 bins draws = some r ∧
      (j : Rat) / ((bins : Rat) - 1) ∈ r := by
  have hb1 : (0 : Rat) < (bins : Rat) - 1 := by
    have : (2 : Rat) ≤ bins := by exact_mod_cast hb
    linarith
  by_cases hle : bins - 1 ≤ n
  · obtain ⟨c1, c2⟩ := Num.C36_integer_neighbors (K := Rat) (n := n) hb hi []
    obtain ⟨r, hr⟩ := c1 hle
    exact ⟨[], r, hr, (c2 r hr).2.2.2 hle j hj (Ne.symm hne)⟩
  · obtain ⟨q1, _, q3, _, _⟩ := Num.C32_quantize (show (0 : Rat) < 1 from zero_lt_one) hb
    have eg : ∀ j : Nat, (0 : Rat) + j * ((1 - 0) / ((bins : Rat) - 1)) = j / ((bins : Rat) - 1) := by intro j; ring
    simp only [eg] at q1 q3
    have hinj : ∀ i j : Nat, (i : Rat) / ((bins : Rat) - 1) = (j : Rat) / ((bins : Rat) - 1) → i = j := by
      intro i j h
      rw [div_left_inj' hb1.ne'] at h
      exact_mod_cast h
    have hin : ∀ k : Nat, k < bins → (0 : Rat) ≤ (k : Rat) / ((bins : Rat) - 1) ∧ (k : Rat) / ((bins : Rat) - 1) ≤ 1 := by
      intro k hk
      refine ⟨by positivity, ?_⟩
      rw [div_le_one hb1]
      have : (k : Rat) + 1 ≤ bins := by exact_mod_cast hk
      linarith
    refine ⟨[[(j : Rat) / ((bins : Rat) - 1)], (List.range bins).map (fun k : Nat => (k : Rat) / ((bins : Rat) - 1))], ?_⟩
    unfold Num.quantizedNeighborhood
    simp only [if_neg hle, q3 i hi]
    have hnq : (j : Rat) / ((bins : Rat) - 1) ≠ (i : Rat) / ((bins : Rat) - 1) := fun e => hne (hinj _ _ e).symm
    have hfirst : (Num.unique (([(j : Rat) / ((bins : Rat) - 1)].filter
        (fun c => decide (0 ≤ c) && decide (c ≤ 1))).map (fun c => Num.quantize c 0 1 bins))).filter
        (fun c => decide (c ∉ [(i : Rat) / ((bins : Rat) - 1)])) = [(j : Rat) / ((bins : Rat) - 1)] := by
      have : [(j : Rat) / ((bins : Rat) - 1)].filter (fun c => decide (0 ≤ c) && decide (c ≤ 1)) =
          [(j : Rat) / ((bins : Rat) - 1)] := by
        rw [List.filter_eq_self]
        intro a ha
        rw [List.mem_singleton] at ha
        subst ha
        simp [(hin j hj).1, (hin j hj).2]
      rw [this]
      simp only [List.map_cons, List.map_nil, q3 j hj]
      simp [Num.unique, hnq]
    rw [Num.neighborLoop]
    simp only [hfirst, List.nil_append]
    by_cases h1 : n ≤ 1
    · have : n = 1 := by omega
      subst this
      exact ⟨_, if_pos (by simp), by simp⟩
    · rw [if_neg (by simpa using h1), Num.neighborLoop]
      generalize hnew : (Num.unique ((((List.range bins).map (fun k : Nat => (k : Rat) / ((bins : Rat) - 1))).filter
        (fun c => decide (0 ≤ c) && decide (c ≤ 1))).map (fun c => Num.quantize c 0 1 bins))).filter
        (fun c => decide (c ∉ [(i : Rat) / ((bins : Rat) - 1), (j : Rat) / ((bins : Rat) - 1)])) = new
      have hsub : ∀ k : Nat, k < bins → k ≠ i → k ≠ j → (k : Rat) / ((bins : Rat) - 1) ∈ new := by
        intro k hk h1 h2
        rw [← hnew, List.mem_filter, Num.mem_unique, List.mem_map]
        refine ⟨⟨(k : Rat) / ((bins : Rat) - 1), ?_, q3 k hk⟩, ?_⟩
        · rw [List.mem_filter]
          exact ⟨List.mem_map.2 ⟨k, List.mem_range.2 hk, rfl⟩, by simp [(hin k hk).1, (hin k hk).2]⟩
        · simp only [List.mem_cons, List.not_mem_nil, or_false, not_or, decide_eq_true_eq]
          exact ⟨fun e => h1 (hinj _ _ e), fun e => h2 (hinj _ _ e)⟩
      have hlen : bins - 2 ≤ new.length := by
        have hnd : (((List.range bins).filter (fun k => decide (k ≠ i) && decide (k ≠ j))).map
            (fun k : Nat => (k : Rat) / ((bins : Rat) - 1))).Nodup :=
          (List.nodup_range.filter _).map (fun a b e => hinj a b e)
        have hss : ((List.range bins).filter (fun k => decide (k ≠ i) && decide (k ≠ j))).map
            (fun k : Nat => (k : Rat) / ((bins : Rat) - 1)) ⊆ new := by
          intro x hx
          obtain ⟨k, hk, rfl⟩ := List.mem_map.1 hx
          rw [List.mem_filter] at hk
          simp only [Bool.and_eq_true, decide_eq_true_eq] at hk
          exact hsub k (List.mem_range.1 hk.1) hk.2.1 hk.2.2
        have h3 := (List.subperm_of_subset hnd hss).length_le
        rw [List.length_map] at h3
        have h4 : (List.range bins).Perm (i :: j :: (List.range bins).filter (fun k => decide (k ≠ i) && decide (k ≠ j))) := by
          rw [List.perm_ext_iff_of_nodup List.nodup_range]
          · intro k
            simp only [List.mem_range, List.mem_cons, List.mem_filter, Bool.and_eq_true, decide_eq_true_eq]
            constructor
            · intro hk
              by_cases e1 : k = i
              · exact .inl e1
              · by_cases e2 : k = j
                · exact .inr (.inl e2)
                · exact .inr (.inr ⟨hk, e1, e2⟩)
            · rintro (rfl | rfl | ⟨hk, _⟩) <;> assumption
          · rw [List.nodup_cons, List.nodup_cons]
            refine ⟨?_, ?_, List.nodup_range.filter _⟩
            · simp [hne]
            · simp
        have h5 := h4.length_eq
        simp only [List.length_range, List.length_cons] at h5
        omega
      refine ⟨_, if_pos (by simp only [List.cons_append, List.nil_append, List.length_cons]; omega), ?_⟩
      obtain ⟨m, rfl⟩ : ∃ m, n = m + 1 := ⟨n - 1, by omega⟩
      simp

/-- Every move may be proposed first. -/
theorem first {y : HP} (hw : y.wf = true) {num : Nat} (hn : num ≠ 0) {q q' : Rat} (hq : EntryOf y q)
    (hm : Move y q q') : ∃ l, MayPropose num y.kind q (q' :: l) := by
  obtain ⟨h2, hne, hord⟩ := hm
  have hsz := size_of_ne hw hq h2 hne
  cases hk : y.kind with
  | cat cs =>
    obtain ⟨i, hi, rfl⟩ := (entry_seq hw (.inl hk)).1 hq
    obtain ⟨j, hj, rfl⟩ := (entry_seq hw (.inl hk)).1 h2
    obtain ⟨r, q1, -, -, -, q5⟩ := Num.C35_categorical_partial (n := cs.length - 1) (shuffle := id) hi (fun l => List.Perm.refl _)
    have hmem : (j : Rat) ∈ r.map (fun j : Nat => (j : Rat)) :=
      List.mem_map.2 ⟨j, (q5 (Nat.le_refl _) j).2 ⟨hj, fun e => hne (by rw [e])⟩, rfl⟩
    obtain ⟨m, hm⟩ := perm_front hmem
    exact ⟨m, id, r, fun l => List.Perm.refl _, q1, hm⟩
  | ord cs =>
    obtain ⟨i, hi, rfl⟩ := (entry_seq hw (.inr hk)).1 hq
    obtain ⟨j, hj, rfl⟩ := (entry_seq hw (.inr hk)).1 h2
    rw [hk] at hsz
    have h1 : cs.length ≠ 1 := fun e => hsz (congrArg some e)
    have hwv : cs[i]? = some cs[i] := List.getElem?_eq_getElem hi
    have hd := (HP.wf_distinct hw (.inr hk)).2
    obtain ⟨r, o1, o2, o3, o4, o5⟩ := Num.C35_ordinal_partial (n := 2) hi true
    have hadj : j + 1 = i ∨ j = i + 1 := by
      rcases hord cs hk with e | e
      · exact .inr (by exact_mod_cast e)
      · exact .inl (by exact_mod_cast e.symm)
    obtain ⟨m, hm⟩ := perm_front (o4 (Nat.le_refl 2) j hj hadj)
    exact ⟨m, cs[i], _, true, r, toVal_seq hwv, ord_num hd hwv h1, (ord_ends hi rfl true).trans o1, hm⟩
  | const v =>
    rw [hk] at hsz
    exact absurd rfl hsz
  | int l u =>
    obtain ⟨i, hi, rfl⟩ := (entry_int hw hk).1 hq
    obtain ⟨j, hj, rfl⟩ := (entry_int hw hk).1 h2
    have hlt := wf_int_lt hw hk
    obtain ⟨draws, r, hr, hmem⟩ := int_first (bins := (u - l + 1).toNat) (i := i) (j := j)
      (n := min num ((u - l + 1).toNat - 1)) (by omega) hi hj (fun e => hne (by rw [e])) (by omega)
    obtain ⟨m, hm⟩ := perm_front hmem
    exact ⟨m, draws, r, hr, hm⟩
  | flt l u =>
    obtain ⟨g1, g2⟩ := entry_flt hw hk h2
    refine ⟨List.replicate (num * 5 - 1) q', [List.replicate (num * 5) q'], List.replicate (num * 5) q', ?_, ?_⟩
    · have : (List.replicate (num * 5) q').filter (fun c => decide (0 ≤ c) && decide (c ≤ 1)) = List.replicate (num * 5) q' := by
        rw [List.filter_eq_self]
        intro a ha
        rw [List.eq_of_mem_replicate ha]
        simp [g1, g2]
      unfold Num.continuousNeighborhood
      rw [Num.continuousLoop]
      simp [this]
    · rw [List.reverse_replicate, ← List.replicate_succ]
      congr 1
      omega

/-- Something may be proposed for every value of a hyperparameter with several values. -/
theorem some_proposal {y : HP} (hw : y.wf = true) {num : Nat} (hn : num ≠ 0) {q : Rat} (hq : EntryOf y q)
    (hs : y.kind.size ≠ some 1) : ∃ l, MayPropose num y.kind q l := by
  suffices h : ∃ q', Move y q q' by
    obtain ⟨q', h⟩ := h
    obtain ⟨l, hl⟩ := first hw hn hq h
    exact ⟨_, hl⟩
  cases hk : y.kind with
  | cat cs =>
    obtain ⟨i, hi, rfl⟩ := (entry_seq hw (.inl hk)).1 hq
    rw [hk] at hs
    have h1 : cs.length ≠ 1 := fun e => hs (congrArg some e)
    refine ⟨((if i = 0 then 1 else 0 : Nat) : Rat), (entry_seq hw (.inl hk)).2 ⟨_, by split <;> omega, rfl⟩, ?_, ?_⟩
    · intro e
      have : i = if i = 0 then 1 else 0 := by exact_mod_cast e
      split at this <;> omega
    · intro ds e; rw [hk] at e; cases e
  | ord cs =>
    obtain ⟨i, hi, rfl⟩ := (entry_seq hw (.inr hk)).1 hq
    rw [hk] at hs
    have h1 : cs.length ≠ 1 := fun e => hs (congrArg some e)
    by_cases h0 : i = 0
    · subst h0
      exact ⟨((1 : Nat) : Rat), (entry_seq hw (.inr hk)).2 ⟨1, by omega, rfl⟩, by norm_num, fun _ _ => .inl (by norm_num)⟩
    · obtain ⟨j, rfl⟩ : ∃ j, i = j + 1 := ⟨i - 1, by omega⟩
      refine ⟨(j : Rat), (entry_seq hw (.inr hk)).2 ⟨j, by omega, rfl⟩, ?_, fun _ _ => .inr (by push_cast; ring)⟩
      intro e
      have : j + 1 = j := by exact_mod_cast e
      omega
  | const v => rw [hk] at hs; exact absurd rfl hs
  | int l u =>
    have hlt := wf_int_lt hw hk
    obtain ⟨i, hi, rfl⟩ := (entry_int hw hk).1 hq
    refine ⟨((if i = 0 then 1 else 0 : Nat) : Rat) / (((u - l + 1).toNat : Rat) - 1),
      (entry_int hw hk).2 ⟨_, by split <;> omega, rfl⟩, ?_, ?_⟩
    · intro e
      have hb1 : (((u - l + 1).toNat : Rat) - 1) ≠ 0 := by
        have : (2 : Rat) ≤ ((u - l + 1).toNat : Rat) := by exact_mod_cast (show 2 ≤ (u - l + 1).toNat by omega)
        intro h; linarith
      rw [div_left_inj' hb1] at e
      have : i = if i = 0 then 1 else 0 := by exact_mod_cast e
      split at this <;> omega
    · intro ds e; rw [hk] at e; cases e
  | flt l u =>
    obtain ⟨g1, g2⟩ := entry_flt hw hk hq
    have hent : ∀ N : Nat, ∀ i, i < N → EntryOf y ((i : Rat) / N) := by
      intro N i hi
      refine entries_entryOf hw (N := N) ?_
      rw [hk]
      exact List.mem_map.2 ⟨i, List.mem_range.2 hi, rfl⟩
    by_cases h0 : q = 0
    · refine ⟨((1 : Nat) : Rat) / ((2 : Nat) : Rat), hent 2 1 (by omega), ?_, ?_⟩
      · rw [h0]; norm_num
      · intro ds e; rw [hk] at e; cases e
    · refine ⟨((0 : Nat) : Rat) / ((2 : Nat) : Rat), hent 2 0 (by omega), ?_, ?_⟩
      · simpa using h0
      · intro ds e; rw [hk] at e; cases e

/-- What is proposed is not empty. -/
theorem proposal_ne_nil {y : HP} (hw : y.wf = true) {num : Nat} (hn : num ≠ 0) {q : Rat} (hq : EntryOf y q)
    (hs : y.kind.size ≠ some 1) {l : List Rat} (hl : MayPropose num y.kind q l) : l ≠ [] := by
  cases hk : y.kind with
  | cat cs =>
    obtain ⟨i, hi, rfl⟩ := (entry_seq hw (.inl hk)).1 hq
    rw [hk] at hs hl
    have h1 : cs.length ≠ 1 := fun e => hs (congrArg some e)
    have := (prop_cat hi hl).1
    rintro rfl
    rw [List.length_nil] at this
    omega
  | ord cs =>
    obtain ⟨i, hi, rfl⟩ := (entry_seq hw (.inr hk)).1 hq
    rw [hk] at hs hl
    have h1 : cs.length ≠ 1 := fun e => hs (congrArg some e)
    have hd := (HP.wf_distinct hw (.inr hk)).2
    have := (prop_ord hd hi h1 hl).1
    rw [ord_num hd (List.getElem?_eq_getElem hi) h1] at this
    rintro rfl
    have := Option.some.inj this
    rw [List.length_nil] at this
    split at this <;> omega
  | const v => rw [hk] at hs; exact absurd rfl hs
  | int a b =>
    have hlt := wf_int_lt hw hk
    obtain ⟨i, hi, rfl⟩ := (entry_int hw hk).1 hq
    rw [hk] at hl
    obtain ⟨draws, r, h1, h2⟩ := hl
    have := ((Num.C36_integer_neighbors (K := Rat) (n := min num ((b - a + 1).toNat - 1)) (by omega) hi draws).2 r h1).2.2.1
    rintro rfl
    have h3 := h2.length_eq
    rw [List.length_nil] at h3
    omega
  | flt a b =>
    rw [hk] at hl
    obtain ⟨draws, r, h1, rfl⟩ := hl
    have := (Num.C53_float_neighbors h1).1
    intro e
    rw [List.reverse_eq_nil_iff] at e
    rw [e, List.length_nil] at this
    omega

end Verif.Conn
