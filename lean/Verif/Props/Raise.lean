import Verif.Lemmas.RaiseSpace

/-!
# C90: relations between values that cannot be compared

`<` between a text and a number raises `TypeError`.  The theorems say when evaluating clauses raises, and that the model without exceptions
(`Model/Forb.lean`) is the same where no relation compares such values.
-/

set_option autoImplicit false

namespace Verif
open Verif.Spec

variable {calls : List Call} {s : Space}

/-- **C90, single vectors.** If the relations of a clause are between values with an order, the clause can be evaluated on every vector
whose entries stand for values, and the answer is the one of the specification. -/
theorem C90_clause_evaluates (h : Reach calls s) (hown : OwnClauses calls) {f : Forb} (hf : f ∈ allForbs calls)
    (hc : Comparable f) {v : Vec} (hd : Decodable calls s v) :
    ∃ b, f.onVecE s.idx v = .ok b ∧ (b = true ↔ Forbids (asg s.idx v) f) :=
  ⟨_, (onVecE_cases f (decAt_of hd hown hf)).2 hc, onVec_iff f s.idx v⟩

/-- **C90, arrays.** The same for a matrix: the answer has one entry per column, that of the column. -/
theorem C90_clause_evaluates_array (h : Reach calls s) (hown : OwnClauses calls) {f : Forb} (hf : f ∈ allForbs calls)
    (hc : Comparable f) {vs : List Vec} (hl : ∀ v ∈ vs, v.length = s.len) (hd : ∀ v ∈ vs, Decodable calls s v) :
    f.onArrE s.idx vs.length (ofCols s.len vs) = .ok (vs.map (fun v => f.onVec s.idx v)) := by
  rw [(onArrE_cases f (decRows_ofCols h hown hd hf)).2.1 hc, onArr_ofCols h hf hl]

/-- **C90, other exceptions.** On such vectors and matrices a clause raises nothing but `TypeError`; if it does not raise, the answer is
the one of the specification. -/
theorem C90_only_type_error (h : Reach calls s) (hown : OwnClauses calls) {f : Forb} (hf : f ∈ allForbs calls)
    {v : Vec} (hd : Decodable calls s v) :
    f.onVecE s.idx v = .error .typeError ∨ ∃ b, f.onVecE s.idx v = .ok b ∧ (b = true ↔ Forbids (asg s.idx v) f) := by
  rcases (onVecE_cases f (decAt_of hd hown hf)).1 with e | e
  · exact .inl e
  · exact .inr ⟨_, e, onVec_iff f s.idx v⟩

theorem toValE_none {k : Kind} {q : Rat} (h : k.toVal q = none) :
    k.toValE q = .error (if closeToInt q then .indexError else .valueError) := by
  cases k with
  | cat cs =>
    simp only [Kind.toVal, Kind.toValE, choiceAt] at h ⊢
    split
    · rename_i hc
      rw [if_pos hc] at h
      rw [h]
    · rfl
  | ord cs =>
    simp only [Kind.toVal, Kind.toValE, choiceAt] at h ⊢
    split
    · rename_i hc
      rw [if_pos hc] at h
      rw [h]
    · rfl
  | const c => cases h
  | int l u => cases h
  | flt l u => cases h

/-- **C90, entries that stand for nothing.** If both entries of a relation are set and one of them stands for no value, the clause raises:
`ValueError` for an entry between two positions, `IndexError` for a position that does not exist.  The left entry is looked at first. -/
theorem C90_undecodable_entries {op : RelOp} {l r : HP} {idx : Name → Nat} {v : Vec} {x y : Rat} (hx : v.at (idx l.name) = some x)
    (hy : v.at (idx r.name) = some y) :
    (l.kind.toVal x = none → (Forb.rel op l r).onVecE idx v = .error (if closeToInt x then .indexError else .valueError)) ∧
    (∀ w, l.kind.toVal x = some w → r.kind.toVal y = none →
      (Forb.rel op l r).onVecE idx v = .error (if closeToInt y then .indexError else .valueError)) := by
  constructor
  · intro h
    simp only [Forb.onVecE, hx, hy, relOnEntriesE, toValE_none h]
    rfl
  · intro w hw h
    simp only [Forb.onVecE, hx, hy, relOnEntriesE, toValE_of hw, toValE_none h]
    rfl

/-- A relation between two hyperparameters with the choices `"a"` and `"b"`, with an entry between the two positions and with an entry
after the last position. -/
example : (Forb.rel .lt (Ex.ab "p") (Ex.ab "q")).onVecE (fun n => if n = "p" then 0 else 1) [some (1 / 2), some 0] = .error .valueError ∧
    (Forb.rel .lt (Ex.ab "p") (Ex.ab "q")).onVecE (fun n => if n = "p" then 0 else 1) [some 0, some 7] = .error .indexError := by
  constructor
  · exact (C90_undecodable_entries (x := 1 / 2) (y := 0) (by rfl) (by rfl)).1 (by decide +kernel) |>.trans (by rw [if_neg (by decide +kernel)])
  · exact (C90_undecodable_entries (x := 0) (y := 7) (by rfl) (by rfl)).2 (.str "a") (by decide +kernel) (by decide +kernel) |>.trans (by rw [if_pos (by decide +kernel)])

/-- **C90, checks.** If all relations of the space are between values with an order, both checks behave as in the model without
exceptions. -/
theorem C90_check (h : Reach calls s) (hown : OwnClauses calls) (hc : ∀ f ∈ allForbs calls, Comparable f) {v : Vec}
    (hd : Decodable calls s v) (al : Bool) :
    s.checkE v al = s.check v al ∧ s.checkRigorousE v al = s.checkRigorous v al := by
  have p := pre_of_reach h
  refine ⟨(checkE_cases (fun f hf => fast_dec p hd hown hf)).2 (fun f hf => fast_comparable p hc hf),
    (checkRigorousE_cases ?_).2 ?_⟩
  · exact fun f hf => decAt_of hd hown (p.hist.forbs.mem_iff.1 hf)
  · exact fun f hf => hc f (p.hist.forbs.mem_iff.1 hf)

/-- **C90, `Configuration(values=...)`.** The same for every dictionary, legal or not. -/
theorem C90_of_values (h : Reach calls s) (hown : OwnClauses calls) (hc : ∀ f ∈ allForbs calls, Comparable f) (d : Dict)
    (al : Bool) : Config.ofValuesE s d al = Config.ofValues s d al :=
  (ofValuesE_cases (pre_of_reach h) hown d al).2 hc

/-- **C90, `add`.** The same for a further call of `add`, whether it succeeds or not. -/
theorem C90_add (h : Reach calls s) {k : Call} (hk : k.wf) (hs : SameNamed (calls ++ [k]))
    (hc : ∀ f ∈ allForbs (calls ++ [k]), Comparable f) :
    s.addE k.hps k.conds k.forbs = s.add k.hps k.conds k.forbs :=
  (addE_cases h hk hs).2 hc

/-- **C90, histories.** Every space that can be built with exceptions can be built without, so all theorems about histories of calls apply
to it; conversely if all relations are between values with an order. -/
theorem C90_histories (hs : SameNamed calls) :
    (ReachE calls s → Reach calls s) ∧
    ((∀ f ∈ allForbs calls, Comparable f) → Reach calls s → ReachE calls s) := by
  constructor
  · intro h
    induction h with
    | nil => exact .nil
    | @snoc cs t t' k ht hk he ih =>
      have hr := ih (sameNamed_prefix hs)
      refine .snoc hr hk ?_
      rcases (addE_cases hr hk hs).1 with e | e
      · rw [e] at he
        simp at he
      · rw [← e]; exact he
  · intro hc h
    induction h with
    | nil => exact .nil
    | @snoc cs t t' k ht hk he ih =>
      refine .snoc (ih (sameNamed_prefix hs) (fun f hf => hc f ?_)) hk ?_
      · simp only [allForbs, List.flatMap_append, List.mem_append] at hf ⊢
        exact .inl hf
      · rw [(addE_cases ht hk hs).2 hc]; exact he

/-! ## Sampling -/

theorem sampleLoopE_of {rng : Nat → Nat → Mat} (hb : ∀ b w, s.sampleBatchE w (rng b w) = .ok (s.sampleBatch w (rng b w)))
    {size : Nat} : ∀ (fuel b need : Nat) (acc : List Vec),
    s.sampleLoopE rng size fuel b need acc = .ok (s.sampleLoop rng size fuel b need acc) := by
  intro fuel
  induction fuel with
  | zero => intro b need acc; rfl
  | succ k ih =>
    intro b need acc
    unfold Space.sampleLoopE Space.sampleLoop
    by_cases hle : size ≤ acc.length
    · rw [if_pos hle, if_pos hle]
    · rw [if_neg hle, if_neg hle]
      simp only [hb, bind, Except.bind]
      exact ih _ _ _

/-- **C90, sampling.** If all relations are between values with an order and the generator gives entries that stand for values, sampling
raises nothing and returns what it returns in the model without exceptions. -/
theorem C90_sampling (h : Reach calls s) (hown : OwnClauses calls) (hc : ∀ f ∈ allForbs calls, Comparable f)
    {rng : Nat → Nat → Mat} (hd : DecodableDraws calls s rng) (fuel : Nat) (size : Option Int) :
    s.sampleConfigurationE rng fuel size = .ok (s.sampleConfiguration rng fuel size) := by
  have hb : ∀ b w, s.sampleBatchE w (rng b w) = .ok (s.sampleBatch w (rng b w)) := fun b w =>
    (sampleBatchE_cases h hown (hd.1 b w).2 (hd.1 b w).1 (hd.2 b w)).2.1 hc
  unfold Space.sampleConfigurationE Space.sampleConfiguration
  by_cases h0 : s.len = 0
  · rw [if_pos h0, if_pos h0]
    cases size <;> rfl
  · rw [if_neg h0, if_neg h0]
    simp only
    by_cases hn : size.getD 1 < 1
    · rw [if_pos hn, if_pos hn]
    · rw [if_neg hn, if_neg hn, sampleLoopE_of hb]
      simp only [bind, Except.bind]
      cases s.sampleLoop rng (size.getD 1).toNat fuel 0 (size.getD 1).toNat [] with
      | none => rfl
      | some acc =>
        simp only
        by_cases h1 : size.getD 1 ≤ 1
        · rw [if_pos h1, if_pos h1]
        · rw [if_neg h1, if_neg h1]

theorem elemType_number {h : HP} (hw : h.wf = true) (hn : NumberRange h) : h.kind.elemType = .number := by
  have hch : ∀ cs, h.kind = .cat cs ∨ h.kind = .ord cs → choicesType cs = .number := by
    intro cs hk
    have hne : cs ≠ [] := by rintro rfl; rcases hk with e | e <;> simp [HP.wf, e] at hw
    have hall : ∀ v ∈ cs, v.num?.isSome = true := by
      intro v hv
      obtain ⟨i, hi, rfl⟩ := List.getElem_of_mem hv
      have hr : rint ((i : Nat) : Rat) = (i : Int) := by simpa using rint_int (i : Int)
      obtain ⟨q, hq⟩ := hn.1 cs[i] ⟨(i : Rat), by
        rcases hk with e | e <;> rw [e] <;> simp [Kind.toVal, closeToInt_nat, hr, Kind.pyIndex, hi]⟩
      rw [hq]; rfl
    unfold choicesType
    rw [if_neg, if_pos (List.all_eq_true.2 hall)]
    intro hz
    obtain ⟨v, hv⟩ := List.exists_mem_of_ne_nil cs hne
    have h1 := List.all_eq_true.1 hz v hv
    have h2 := hall v hv
    cases hnum : v.num? <;> simp [hnum] at h1 h2
  cases hk : h.kind with
  | cat cs => exact hch cs (.inl hk)
  | ord cs => exact hch cs (.inr hk)
  | const c => exact absurd hk (hn.2 c)
  | int l u => rfl
  | flt l u => rfl

theorem elemType_text {h : HP} (hn : TextChoices h) : h.kind.elemType = .text := by
  obtain ⟨cs, hk, ht⟩ := hn
  have hch : choicesType cs = .text := by
    unfold choicesType
    rw [if_pos]
    rw [List.all_eq_true]
    intro v hv
    obtain ⟨t, rfl⟩ := ht v hv
    rfl
  rcases hk with e | e <;> rw [e] <;> exact hch

/-- A clause with a relation `<` or `>` between a hyperparameter with numbers and one with texts. -/
def Mixed (f : Forb) : Prop :=
  ∃ op l r, HasRel op l r f ∧ op ≠ .eq ∧ (NumberRange l ∧ TextChoices r ∨ TextChoices l ∧ NumberRange r)

/-- **C90, sampling that cannot succeed.** If some clause has, at any depth, a relation `<` or `>` between a hyperparameter with numbers
and one with texts, then `sample_configuration` raises `TypeError`, whatever the generator gives, even if the two hyperparameters are never
active together. -/
theorem C90_sampling_raises (h : Reach calls s) (hown : OwnClauses calls) {f : Forb} (hf : f ∈ allForbs calls)
    (hm : Mixed f) {rng : Nat → Nat → Mat} (hd : DecodableDraws calls s rng) (fuel : Nat) {size : Option Int}
    (hs : 1 ≤ size.getD 1) : s.sampleConfigurationE rng (fuel + 1) size = .error .typeError := by
  obtain ⟨op, l, r, hr, ho, hlr⟩ := hm
  obtain ⟨hwl, hwr⟩ := hasRel_wf hr ((sinv_of_reach h).hist.forbWf f hf)
  have hcl : Clash op l r := by
    refine ⟨ho, hlr.imp ?_ ?_⟩
    · exact fun k => ⟨elemType_number hwl k.1, elemType_text k.2⟩
    · exact fun k => ⟨elemType_text k.1, elemType_number hwr k.2⟩
  have hl0 : s.len ≠ 0 := by
    have := idx_lt h (forb_known h hf (hasRel_mem hr).1)
    omega
  unfold Space.sampleConfigurationE
  rw [if_neg hl0]
  simp only
  rw [if_neg (by omega)]
  unfold Space.sampleLoopE
  rw [if_neg (by simp only [List.length_nil]; omega)]
  simp only
  rw [(sampleBatchE_cases h hown (hd.1 _ _).2 (hd.1 _ _).1 (hd.2 _ _)).2.2 op l r f hf hr hcl]
  rfl

/-- **C90, no configuration has both.** If a clause is a relation `<` or `>` between two hyperparameters without an order between their
values, no configuration that sets both is accepted. -/
theorem C90_both_set_rejected (h : Reach calls s) (hown : OwnClauses calls) {op : RelOp} {l r : HP}
    (hf : Forb.rel op l r ∈ allForbs calls) (ho : op ≠ .eq) (hu : Unordered l r) {v : Vec} (hd : Decodable calls s v)
    {x y : Rat} (hx : v.at (s.idx l.name) = some x) (hy : v.at (s.idx r.name) = some y) (al : Bool) :
    s.checkE v al ≠ none ∧ s.checkRigorousE v al ≠ none := by
  have p := pre_of_reach h
  have herr : (Forb.rel op l r).onVecE s.idx v = .error .typeError := by
    obtain ⟨a, ha⟩ := hd l (hown _ hf l (by simp [clauseHps])) x hx
    obtain ⟨b, hb⟩ := hd r (hown _ hf r (by simp [clauseHps])) y hy
    simp only [Forb.onVecE, hx, hy, relOnEntriesE, toValE_of ha, toValE_of hb]
    exact onValsE_none ho (hu a b ⟨x, ha⟩ ⟨y, hb⟩)
  have key : ∀ fs : List Forb, Forb.rel op l r ∈ fs → clausesE s v fs ≠ none := by
    intro fs
    induction fs with
    | nil => intro hm; cases hm
    | cons g gs ih =>
      intro hm
      rcases List.mem_cons.1 hm with e | hm
      · subst e
        simp [clausesE, herr]
      · unfold clausesE
        split
        · simp
        · simp
        · exact ih hm
  constructor
  · unfold Space.checkE
    split
    · simp
    · split
      · simp
      · exact key _ (rel_fast p.fast (p.hist.forbs.mem_iff.2 hf) rfl)
  · unfold Space.checkRigorousE
    split
    · simp
    · exact key _ (p.hist.forbs.mem_iff.2 hf)

/-! ## Examples -/

namespace ExJ
open Ex

/-- `k` is active if `alg == "b"`; by default it is not. -/
def hpAlg' : HP := ⟨"alg", .cat [.str "a", .str "b"], .str "a"⟩
def condJ : Cond := .lit ⟨hpK, hpAlg', .bin .eq (.str "b") 1⟩
/-- `k < o` is forbidden; the values of `o` are texts. -/
def relJ : Forb := .rel .lt hpK hpO
def callJ : Call := ⟨[hpAlg', hpK, hpO], [condJ], [relJ]⟩
def spJ : Space := committed {} callJ

/-- `x < k` is forbidden; both are numbers. -/
def relN : Forb := .and [.eq hpAlg' (.str "b") 1, .rel .lt hpX hpK]
def callN : Call := ⟨[hpAlg', hpK, hpX], [condJ], [relN]⟩
def spN : Space := committed {} callN

theorem addN : ({} : Space).add callN.hps callN.conds callN.forbs = (spN, none) :=
  add_of_stages [("alg", some (.str "a")), ("x", some (.flt 1)), ("k", none)] [some 0, some (1/2), none] [("alg", .str "a"), ("x", .flt 1)]
    (by decide +kernel) (by decide +kernel) (by decide +kernel) (by decide +kernel) (by decide +kernel)
    (by decide +kernel)

theorem reachN : Reach [callN] spN := Reach.snoc (calls := []) .nil (by decide +kernel) addN

theorem addJ : ({} : Space).add callJ.hps callJ.conds callJ.forbs = (spJ, none) :=
  add_of_stages [("alg", some (.str "a")), ("o", some (.str "mid")), ("k", none)] [some 0, some 1, none]
    [("alg", .str "a"), ("o", .str "mid")]
    (by decide +kernel) (by decide +kernel) (by decide +kernel) (by decide +kernel) (by decide +kernel)
    (by decide +kernel)

theorem reachJ : Reach [callJ] spJ := Reach.snoc (calls := []) .nil (by decide +kernel) addJ

theorem addJ_E : (({} : Space).addE callJ.hps callJ.conds callJ.forbs).2 = none := by decide +kernel

theorem sameJ : SameNamed [callJ] := by
  intro f hf x hx y hy e
  simp only [allForbs, callJ, List.flatMap_cons, List.flatMap_nil, List.append_nil, List.mem_singleton] at hf
  subst hf
  simp only [relJ, clauseHps, List.mem_cons, List.not_mem_nil, or_false] at hx
  simp only [allHps, callJ, List.flatMap_cons, List.flatMap_nil, List.append_nil, List.mem_cons, List.not_mem_nil,
    or_false] at hy
  rcases hx with rfl | rfl <;> rcases hy with rfl | rfl | rfl <;>
    first
    | rfl
    | exact absurd e (by decide +kernel)

theorem ownJ : OwnClauses [callJ] := by
  intro f hf x hx
  simp only [allForbs, callJ, List.flatMap_cons, List.flatMap_nil, List.append_nil, List.mem_singleton] at hf
  subst hf
  simp only [relJ, clauseHps, List.mem_cons, List.not_mem_nil, or_false] at hx
  rcases hx with rfl | rfl <;> simp [allHps, callJ]

theorem reachJ_E : ReachE [callJ] spJ := by
  refine ReachE.snoc (calls := []) .nil (by decide +kernel) ?_
  rcases (addE_cases (k := callJ) Reach.nil (by decide +kernel) sameJ).1 with e | e
  · have := addJ_E
    rw [e] at this
    cases this
  · rw [e]
    exact addJ

theorem numberK : NumberRange hpK :=
  ⟨by
    rintro v ⟨q, hq⟩
    simp only [hpK, Kind.toVal, Option.some.injEq] at hq
    subst hq
    exact ⟨_, rfl⟩, by intro c hc; cases hc⟩

theorem textO : TextChoices hpO := by
  refine ⟨_, .inr rfl, ?_⟩
  intro v hv
  simp only [List.mem_cons, List.not_mem_nil, or_false] at hv
  rcases hv with rfl | rfl | rfl <;> exact ⟨_, rfl⟩

theorem mixedJ : Mixed relJ := ⟨.lt, hpK, hpO, .here, by decide, .inl ⟨numberK, textO⟩⟩

/-- Columns for the two spaces. -/
def colJ : Vec := [some 1, some 2, some 0]

theorem dec_of_check {calls : List Call} {s : Space} {v : Vec}
    (hb : (allHps calls).all (fun h => match v.at (s.idx h.name) with
      | some q => (h.kind.toVal q).isSome
      | none => true) = true) : Decodable calls s v := by
  intro h hh q hq
  have := List.all_eq_true.1 hb h hh
  rw [hq] at this
  exact Option.isSome_iff_exists.1 this

theorem constDraws_decodable {calls : List Call} {s : Space} {u : Vec} (hu : u.length = s.len)
    (hd : Decodable calls s u) : DecodableDraws calls s (constDraws s u) := by
  refine ⟨fun b w => ⟨ofCols_length, ?_⟩, ?_⟩
  · have := ofCols_rect (n := s.len) (vs := List.replicate w u)
    rwa [List.length_replicate] at this
  · intro b w v hv
    have := cols_ofCols (n := s.len) (vs := List.replicate w u) (by
      intro v hv
      rw [(List.mem_replicate.1 hv).2, hu])
    rw [List.length_replicate] at this
    unfold constDraws at hv
    rw [this] at hv
    rw [(List.mem_replicate.1 hv).2]
    exact hd

theorem drawsJ : DecodableDraws [callJ] spJ (constDraws spJ colJ) :=
  constDraws_decodable (by decide +kernel) (dec_of_check (by decide +kernel))

end ExJ

/-- **C90: false of the code.** `add` accepts a space that can never be sampled: the relation is between an integer and a text, and the
integer is inactive by default, so that the check of the default configuration does not evaluate it. -/
theorem C90_accepted_but_never_sampled :
    ∃ calls s, ReachE calls s ∧ (∃ rng, DecodableDraws calls s rng) ∧ s.names = ["alg", "o", "k"] ∧
      ∀ rng, DecodableDraws calls s rng → ∀ fuel size, 1 ≤ size.getD 1 →
        s.sampleConfigurationE rng (fuel + 1) size = .error .typeError :=
  ⟨[ExJ.callJ], ExJ.spJ, ExJ.reachJ_E, ⟨_, ExJ.drawsJ⟩, by decide +kernel, fun _ hd fuel _ hs =>
    C90_sampling_raises ExJ.reachJ ExJ.ownJ (f := ExJ.relJ) (by simp [allForbs, ExJ.callJ]) ExJ.mixedJ hd fuel hs⟩

/-- **C90: false of the code.** The answer for an array is not made of the answers for its columns: a conjunction evaluates all its
components on an array and stops at the first one that does not hold on a vector. -/
theorem C90_array_raises_where_single_answers :
    ∃ (f : Forb) (idx : Name → Nat) (v : Vec), f.wf = true ∧ f.onVecE idx v = .ok false ∧
      f.onArrE idx 1 (ofCols v.length [v]) = .error .typeError :=
  ⟨.and [.eq Ex.hpAlg (.str "b") 1, .rel .lt Ex.hpK Ex.hpO], fun n => if n = "alg" then 0 else if n = "k" then 1 else 2,
    [some 0, some 0, some 0], by decide +kernel, by decide +kernel, by decide +kernel⟩

/-- The configuration with `k` and `o` is rejected. -/
example : ExJ.spJ.checkE [some 1, some 2, some 0] = some .typeError := by decide +kernel

example : ExJ.spJ.checkE [some 1, some 2, some 0] ≠ none :=
  (C90_both_set_rejected ExJ.reachJ ExJ.ownJ (op := .lt) (l := Ex.hpK) (r := Ex.hpO) (x := 0) (y := 2)
    (by simp [allForbs, ExJ.callJ, ExJ.relJ]) (by decide) (by
      rintro a b ⟨q, hq⟩ ⟨q', hq'⟩
      simp only [Ex.hpK, Kind.toVal, Option.some.injEq] at hq
      subst hq
      have hb : b ∈ [Val.str "lo", Val.str "mid", Val.str "hi"] := by
        simp only [Ex.hpO, Kind.toVal] at hq'
        split at hq'
        · unfold Kind.pyIndex at hq'
          split at hq'
          · exact List.mem_of_getElem? hq'
          · split at hq'
            · exact List.mem_of_getElem? hq'
            · cases hq'
        · cases hq'
      simp only [List.mem_cons, List.not_mem_nil, or_false] at hb
      rcases hb with rfl | rfl | rfl <;> rfl)
    (ExJ.dec_of_check (by decide +kernel)) (by decide +kernel) (by decide +kernel) false).1

namespace ExJ
open Ex

theorem orderedN : Ordered hpX hpK := by
  rintro a b ⟨q, hq⟩ ⟨q', hq'⟩
  simp only [hpX, hpK, Kind.toVal, Option.some.injEq] at hq hq'
  subst hq hq'
  rfl

theorem comparableN : ∀ f ∈ allForbs [callN], Comparable f := by
  intro f hf op l r hr
  simp only [allForbs, callN, List.flatMap_cons, List.flatMap_nil, List.append_nil, List.mem_singleton] at hf
  subst hf
  cases hr with
  | inside hc h =>
    simp only [List.mem_cons, List.not_mem_nil, or_false] at hc
    rcases hc with rfl | rfl
    · cases h
    · cases h
      exact .inr orderedN

theorem ownN : OwnClauses [callN] := by
  intro f hf x hx
  simp only [allForbs, callN, List.flatMap_cons, List.flatMap_nil, List.append_nil, List.mem_singleton] at hf
  subst hf
  simp only [relN, clauseHps, clauseHpsL, List.append_nil, List.cons_append, List.nil_append, List.mem_cons,
    List.not_mem_nil, or_false] at hx
  rcases hx with rfl | rfl | rfl <;> simp [allHps, callN]

theorem sameN : SameNamed [callN] := by
  intro f hf x hx y hy e
  simp only [allForbs, callN, List.flatMap_cons, List.flatMap_nil, List.append_nil, List.mem_singleton] at hf
  subst hf
  simp only [relN, clauseHps, clauseHpsL, List.append_nil, List.cons_append, List.nil_append, List.mem_cons,
    List.not_mem_nil, or_false] at hx
  simp only [allHps, callN, List.flatMap_cons, List.flatMap_nil, List.append_nil, List.mem_cons, List.not_mem_nil,
    or_false] at hy
  rcases hx with rfl | rfl | rfl <;> rcases hy with rfl | rfl | rfl <;>
    first
    | rfl
    | exact absurd e (by decide +kernel)

end ExJ

/-- The hypotheses are met by a space with a relation between numbers; its vectors are checked, forbidden and sampled as before. -/
example : ReachE [ExJ.callN] ExJ.spN := (C90_histories ExJ.sameN).2 ExJ.comparableN ExJ.reachN

example : ExJ.spN.checkE [some 1, some 0, some 1] = some .forbidden ∧ ExJ.spN.checkE [some 0, some 0, none] = none := by
  have h1 := (C90_check ExJ.reachN ExJ.ownN ExJ.comparableN (v := [some 1, some 0, some 1])
    (ExJ.dec_of_check (by decide +kernel)) false).1
  have h2 := (C90_check ExJ.reachN ExJ.ownN ExJ.comparableN (v := [some 0, some 0, none])
    (ExJ.dec_of_check (by decide +kernel)) false).1
  rw [h1, h2]
  exact ⟨by decide +kernel, by decide +kernel⟩

example : ExJ.spN.sampleConfigurationE (constDraws ExJ.spN [some 0, some 0, some 1]) 1 none =
    .ok (ExJ.spN.sampleConfiguration (constDraws ExJ.spN [some 0, some 0, some 1]) 1 none) :=
  C90_sampling ExJ.reachN ExJ.ownN ExJ.comparableN
    (ExJ.constDraws_decodable (by decide +kernel) (ExJ.dec_of_check (by decide +kernel))) 1 none

/-- The other theorems apply to this space, too. -/
example : ∃ b, ExJ.relN.onVecE ExJ.spN.idx [some 1, some 0, some 1] = .ok b ∧
    (b = true ↔ Forbids (asg ExJ.spN.idx [some 1, some 0, some 1]) ExJ.relN) :=
  C90_clause_evaluates ExJ.reachN ExJ.ownN (by simp [allForbs, ExJ.callN]) (ExJ.comparableN _ (by simp [allForbs, ExJ.callN]))
    (ExJ.dec_of_check (by decide +kernel))

example : ExJ.relN.onArrE ExJ.spN.idx 2 (ofCols ExJ.spN.len [[some 1, some 0, some 1], [some 0, some 0, none]]) =
    .ok [ExJ.relN.onVec ExJ.spN.idx [some 1, some 0, some 1], ExJ.relN.onVec ExJ.spN.idx [some 0, some 0, none]] :=
  C90_clause_evaluates_array ExJ.reachN ExJ.ownN (by simp [allForbs, ExJ.callN]) (ExJ.comparableN _ (by simp [allForbs, ExJ.callN]))
    (vs := [[some 1, some 0, some 1], [some 0, some 0, none]]) (by decide +kernel) (by
      intro v hv
      simp only [List.mem_cons, List.not_mem_nil, or_false] at hv
      rcases hv with rfl | rfl <;> exact ExJ.dec_of_check (by decide +kernel))

example : ∀ d al, Config.ofValuesE ExJ.spN d al = Config.ofValues ExJ.spN d al := C90_of_values ExJ.reachN ExJ.ownN ExJ.comparableN

example : ({} : Space).addE ExJ.callN.hps ExJ.callN.conds ExJ.callN.forbs = ({} : Space).add ExJ.callN.hps ExJ.callN.conds ExJ.callN.forbs :=
  C90_add (calls := []) .nil (by decide +kernel) ExJ.sameN ExJ.comparableN

/-- In the space with a relation between a number and a text, evaluating it raises a `TypeError` if both are set. -/
example : ExJ.relJ.onVecE ExJ.spJ.idx [some 1, some 2, some 0] = .error .typeError := by
  rcases C90_only_type_error ExJ.reachJ ExJ.ownJ (f := ExJ.relJ) (by simp [allForbs, ExJ.callJ]) (v := [some 1, some 2, some 0])
    (ExJ.dec_of_check (by decide +kernel)) with h | ⟨b, h, _⟩
  · exact h
  · exact absurd h (by cases b <;> decide +kernel)

end Verif
