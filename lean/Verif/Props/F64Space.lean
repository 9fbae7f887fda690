import Verif.Lemmas.F64Config
import Verif.Props.Check

/-!
# C76: spaces in double precision
-/

set_option autoImplicit false

namespace Verif.F64
open Verif Verif.Spec

variable {calls : List Call} {s : Space}

/-- **C76** (partial: numbers as one writes them, and clauses compare float ranges only with ranges of the same bounds).  Both validators and the
list of active hyperparameters give on the vector of the values, computed with every operation rounded, what they give
in exact arithmetic. -/
theorem C76_validators_partial (hr : Reach calls s) (hp : Precise calls) {a : NamedValues} (ha : GoodValues calls a) {v w : Vec}
    (hv : ExactVector calls s a v) (hw : DoubleVector calls s a w) (al : Bool) :
    check64 s w al = s.check v al ∧ checkRigorous64 s w al = s.checkRigorous v al ∧
    activeNames64 s w = s.activeNames v :=
  have hs := sameV_of ha hv hw
  ⟨check64_same hr hp hs al, checkRigorous64_same hr hp hs al, activeNames64_same hr hp hs⟩

/-- The exact entries are represented by the exact vector. -/
theorem represents_entries (hr : Reach calls s) {a : NamedValues} {v : Vec} (hv : ExactVector calls s a v) :
    Represents s v (entriesOf calls a) := by
  refine ⟨hv.1, fun i n hi => ?_⟩
  have hn : n ∈ s.names := List.mem_of_getElem? hi
  obtain ⟨h, hh, e⟩ := (reach_isNode hr n).1 hn
  subst e
  have hidx : s.idx h.name = i := idx_unique (reach_ninv hr).nodup hi
  rw [← hidx, hv.2 h hh]
  unfold entriesOf
  have hf : (allHps calls).find? (fun g => g.name == h.name) = some h := by
    cases hf : (allHps calls).find? (fun g => g.name == h.name) with
    | none =>
      have := List.find?_eq_none.1 hf h hh
      simp at this
    | some g =>
      have hg := List.mem_of_find?_eq_some hf
      have he := List.find?_some hf
      simp only [beq_iff_eq] at he
      rw [reach_hp_inj hr g hg h hh he]
  rw [hf]
  rfl

/-- There is a vector for all values. -/
theorem vector_exists (hr : Reach calls s) (a : NamedValues) (f : Kind → Val → Option Rat) :
    ∃ v : Vec, v.length = s.len ∧ ∀ h ∈ allHps calls, v.at (s.idx h.name) = (a h.name).bind (f h.kind) := by
  refine ⟨s.com.map (fun x => (a x.name).bind (f x.hp.kind)), ?_, fun h hh => ?_⟩
  · rw [List.length_map]; exact (sinv_of_reach hr).len.symm
  · have hp' := (hp_of hr).2 ⟨hh, rfl⟩
    unfold Space.hp? at hp'
    cases hf : findNode s.com h.name with
    | none => simp [hf] at hp'
    | some y =>
      simp [hf] at hp'
      obtain ⟨hy, e⟩ := findNode_some hf
      obtain ⟨i, hi⟩ := List.getElem?_of_mem hy
      have hidx : s.idx h.name = i := by
        refine idx_unique (reach_ninv hr).nodup ?_
        simp [namesOf, List.getElem?_map, hi, e]
      simp [Vec.at, hidx, List.getD_eq_getElem?_getD, List.getElem?_map, hi, hp', e]

/-- **C76** (partial, as above, and with the conditions of C16 and C17).  The values are accepted in double precision if
and only if they are a valid configuration. -/
theorem C76_accepted_iff_valid_partial (hr : Reach calls s) (hp : Precise calls) (hsep : Separable calls)
    (hown : OwnClauses calls) {a : NamedValues} (ha : GoodValues calls a) {w : Vec} (hw : DoubleVector calls s a w) :
    check64 s w = none ↔ Valid calls (entriesOf calls a) := by
  obtain ⟨v, hv⟩ : ∃ v, ExactVector calls s a v := vector_exists hr a Kind.toVec
  have hrep := represents_entries hr hv
  rw [(C76_validators_partial hr hp ha hv hw false).1]
  refine ⟨fun hc => C16_accepted_legal_roots_partial hr hsep hown hrep ?_ hc,
    fun hc => C17_valid_is_accepted_partial hr hsep hown hrep hc⟩
  intro h hh _ q hq
  have hn : h.name ∈ s.names := (reach_isNode hr _).2 ⟨h, hh, rfl⟩
  rw [← at_idx hrep hn, hv.2 h hh] at hq
  cases hw' : a h.name with
  | none => rw [hw'] at hq; cases hq
  | some u =>
    rw [hw'] at hq
    exact toVec_legal ((reach_wf hr).1 h hh) (ha h hh u hw').1 hq
      (exactInt_of (ha h hh u hw').1 (ha h hh u hw').2)

/-- **C76** (partial, as above).  A user who builds a configuration from values, then reads and assigns items, sees in double
precision what exact arithmetic says: the same exceptions at the same steps, and where a value is read, the double of the
exact value. -/
theorem C76_session_partial (hr : Reach calls s) (hp : Precise calls) {d : Dict} (hd : WrittenDict calls d) (al : Bool)
    {steps : List Step} (hs : WrittenSteps calls steps) :
    (∀ e, exactSession s d al steps = .error e → doubleSession s d al steps = .error e) ∧
    (∀ o, exactSession s d al steps = .ok o → ∃ o', doubleSession s d al steps = .ok o' ∧
      List.Forall₂ (Seen.double calls) o o') := by
  obtain ⟨h1, h2⟩ := ofValues64_same hr hp hd al
  unfold exactSession doubleSession
  cases hc : Config.ofValues s d al with
  | error e =>
    rw [h1 e hc]
    exact ⟨fun e' he => he, fun o ho => (by cases ho)⟩
  | ok c =>
    obtain ⟨c', hc', hsame⟩ := h2 c hc
    rw [hc']
    refine ⟨fun e' he => (by cases he), fun o ho => ?_⟩
    cases ho
    exact ⟨_, rfl, session_same hr hp hsame hs⟩

/-! ## Not vacuous -/

namespace ExS

theorem dec (n : Int) : Decimal (n : Rat) := ⟨n * 10 ^ 13, by push_cast; rw [mul_div_assoc]; norm_num⟩

/-- The space of the running example is precise. -/
theorem precise2 : Precise [Ex.call1, Ex.call2] where
  ranges := by
    intro h hh
    simp only [allHps, Ex.call1, Ex.call2, List.flatMap_cons, List.flatMap_nil, List.append_nil, List.mem_cons,
      List.not_mem_nil, or_false] at hh
    rcases hh with rfl | rfl | rfl | rfl | rfl
    · refine ⟨⟨by norm_num, ?_⟩, by norm_num, ?_⟩
      · exact_mod_cast dec 0
      · exact_mod_cast dec 2
    · exact ⟨by norm_num, by norm_num⟩
    all_goals trivial
  conds := by
    intro c hc
    simp only [allConds, Ex.call1, Ex.call2, List.flatMap_cons, List.flatMap_nil, List.append_nil, List.mem_cons,
      List.not_mem_nil, or_false] at hc
    rcases hc with rfl | rfl | rfl
    all_goals
      intro l hl
      simp only [Ex.condX, Ex.condK, Ex.condO, Cond.dlcs, Cond.dlcsL, List.mem_cons, List.append_nil, List.nil_append, List.cons_append,
        List.not_mem_nil, or_false] at hl
    · rcases hl with rfl | rfl
      · refine ⟨by simp [Ex.litX, allHps, Ex.call1], fun w hw => ?_⟩
        simp only [Ex.litX, testVals, List.mem_singleton] at hw
        subst hw
        exact fun _ _ => ⟨2, rfl⟩
      · exact ⟨by simp [Ex.litX', allHps, Ex.call1], fun w hw => trivial⟩
    · subst hl
      exact ⟨by simp [Ex.litK, allHps, Ex.call1], fun w hw => trivial⟩
    · subst hl
      exact ⟨by simp [Ex.litO, allHps, Ex.call1], fun w hw => trivial⟩
  clauses := by
    intro f hf
    simp only [allForbs, Ex.call1, Ex.call2, List.flatMap_cons, List.flatMap_nil, List.append_nil, List.mem_cons,
      List.cons_append, List.nil_append, List.not_mem_nil, or_false] at hf
    rcases hf with rfl | rfl | rfl
    all_goals
      refine ⟨fun h hh => ?_, fun p hp => ?_⟩
      · simp [Ex.forb1, Ex.forb2, Ex.forb3, clauseHps, clauseHpsL] at hh
        rcases hh with rfl | rfl <;> simp [allHps, Ex.call1]
      · simp [Ex.forb1, Ex.forb2, Ex.forb3, clauseVals, clauseValsL] at hp
        rcases hp with rfl | rfl <;> trivial
  rels := by
    intro f hf
    simp only [allForbs, Ex.call1, Ex.call2, List.flatMap_cons, List.flatMap_nil, List.append_nil, List.mem_cons,
      List.cons_append, List.nil_append, List.not_mem_nil, or_false] at hf
    rcases hf with rfl | rfl | rfl <;> intro h hh <;> simp [Ex.forb1, Ex.forb2, Ex.forb3, relPairs, relPairsL] at hh

/-- NamedValues of the example: `alg = "a"`, `k = 4`, `x = 0.3` and so on. -/
def vals2 : NamedValues := fun n =>
  if n = "alg" then some (.str "a") else if n = "c" then some (.int 7) else if n = "k" then some (.int 4)
  else if n = "o" then some (.str "mid") else if n = "x" then some (.flt (3 / 10)) else none

theorem good2 : GoodValues [Ex.call1, Ex.call2] vals2 := by
  intro h hh w hw
  simp only [allHps, Ex.call1, Ex.call2, List.flatMap_cons, List.flatMap_nil, List.append_nil, List.mem_cons,
    List.not_mem_nil, or_false] at hh
  rcases hh with rfl | rfl | rfl | rfl | rfl
  all_goals simp [vals2, Ex.hpX, Ex.hpK, Ex.hpO, Ex.hpAlg, Ex.hpC] at hw; subst hw
  · refine ⟨by decide +kernel, fun q hq => ?_⟩
    simp [Val.num?] at hq
    subst hq
    exact ⟨3000000000000, by norm_num⟩
  · exact ⟨by decide +kernel, fun _ _ => ⟨4, rfl⟩⟩
  all_goals exact ⟨by decide +kernel, trivial⟩

/-- The vector of these values has entries that are rounded: `k = 4` is the double next to one third. -/
example : ∃ w, DoubleVector [Ex.call1, Ex.call2] Ex.sp2 vals2 w ∧ check64 Ex.sp2 w = none ∧
    w.at (Ex.sp2.idx "k") = some (6004799503160661 / 2 ^ 54) ∧ Valid [Ex.call1, Ex.call2] (entriesOf [Ex.call1, Ex.call2] vals2) := by
  obtain ⟨w, hw⟩ : ∃ w, DoubleVector [Ex.call1, Ex.call2] Ex.sp2 vals2 w := vector_exists Ex.reach2 vals2 toVec64
  have hv : ExactVector [Ex.call1, Ex.call2] Ex.sp2 vals2 [some 0, some 1, some (1 / 3), some 1, some (3 / 20)] := by
    refine ⟨by decide +kernel, fun h hh => ?_⟩
    simp only [allHps, Ex.call1, Ex.call2, List.flatMap_cons, List.flatMap_nil, List.append_nil, List.mem_cons,
      List.not_mem_nil, or_false] at hh
    rcases hh with rfl | rfl | rfl | rfl | rfl <;> decide +kernel
  have hc : check64 Ex.sp2 w = none := by
    rw [(C76_validators_partial Ex.reach2 precise2 good2 hv hw false).1]
    decide +kernel
  refine ⟨w, hw, hc, ?_, (C76_accepted_iff_valid_partial Ex.reach2 precise2 Ex.sep2 Ex.own2 good2 hw).1 hc⟩
  have h := hw.2 Ex.hpK (by simp [allHps, Ex.call1])
  have e : vals2 Ex.hpK.name = some (.int 4) := by decide +kernel
  have e1 : rd (1 : Rat) = 1 := by exact_mod_cast rd_intCast (n := 1) (by norm_num)
  have e4 : rd (4 : Rat) = 4 := by exact_mod_cast rd_intCast (n := 4) (by norm_num)
  have e10 : rd (10 : Rat) = 10 := by exact_mod_cast rd_intCast (n := 10) (by norm_num)
  have e3 : rd (3 : Rat) = 3 := by exact_mod_cast rd_intCast (n := 3) (by norm_num)
  have e9 : rd (9 : Rat) = 9 := by exact_mod_cast rd_intCast (n := 9) (by norm_num)
  rw [e] at h
  have hn : Ex.hpK.name = "k" := rfl
  rw [hn] at h
  rw [h]
  norm_num [Ex.hpK, toVec64, Val.num?, normalize, e1, e4, e10, e3, e9]
  rw [rd_eval (-54) 6004799503160661 (by norm_num) (by norm_num) (by norm_num) (by norm_num [abs_lt])]
  norm_num

/-- A session with assignments and readings: `x` is read as the double of `0.7`, and taking `k` down to 2 removes it. -/
example : ∃ o', doubleSession Ex.sp2 Ex.dd1 false
      [.set "x" (.flt (7 / 10)), .get "x", .set "k" (.int 2), .get "x", .set "k" (.int 40)] = .ok o' ∧
    List.Forall₂ (Seen.double [Ex.call1, Ex.call2])
      [.done none, .read "x" (.ok (.flt (7 / 10))), .done none, .read "x" (.error .keyError),
        .done (some (.illegalValue "k"))] o' := by
  have hd : WrittenDict [Ex.call1, Ex.call2] Ex.dd1 := by
    intro h hh w hw
    simp only [allHps, Ex.call1, Ex.call2, List.flatMap_cons, List.flatMap_nil, List.append_nil, List.mem_cons,
      List.not_mem_nil, or_false] at hh
    rcases hh with rfl | rfl | rfl | rfl | rfl
    · simp [Ex.dd1, Ex.hpX, List.lookup] at hw
      subst hw
      exact fun q hq => by cases hq; exact ⟨10 ^ 13, by norm_num⟩
    · simp [Ex.dd1, Ex.hpK, List.lookup] at hw
      subst hw
      exact fun q hq => ⟨3, rfl⟩
    all_goals trivial
  have hs : WrittenSteps [Ex.call1, Ex.call2]
      [.set "x" (.flt (7 / 10)), .get "x", .set "k" (.int 2), .get "x", .set "k" (.int 40)] := by
    intro n w hm h hh e
    simp only [List.mem_cons, Step.set.injEq, reduceCtorEq, List.not_mem_nil, or_false, false_or] at hm
    simp only [allHps, Ex.call1, Ex.call2, List.flatMap_cons, List.flatMap_nil, List.append_nil, List.mem_cons,
      List.not_mem_nil, or_false] at hh
    rcases hh with rfl | rfl | rfl | rfl | rfl
    · rcases hm with ⟨rfl, rfl⟩ | ⟨rfl, rfl⟩ | ⟨rfl, rfl⟩
      · exact fun q hq => by cases hq; exact ⟨7 * 10 ^ 12, by norm_num⟩
      · simp [Ex.hpX] at e
      · simp [Ex.hpX] at e
    · rcases hm with ⟨rfl, rfl⟩ | ⟨rfl, rfl⟩ | ⟨rfl, rfl⟩
      · simp [Ex.hpK] at e
      · exact fun q hq => ⟨2, rfl⟩
      · exact fun q hq => ⟨40, rfl⟩
    all_goals trivial
  refine (C76_session_partial Ex.reach2 precise2 hd false hs).2 _ ?_
  decide +kernel

end ExS

/-! ## What goes wrong otherwise -/

namespace ExS

/-- Float in `[0, 1]`. -/
def hpA : HP := ⟨"a", .flt 0 1, .flt (1 / 2)⟩
/-- Float in `[0, 7]`. -/
def hpB : HP := ⟨"b", .flt 0 7, .flt (1 / 4)⟩
/-- Not `a == b`. -/
def callE : Call := ⟨[hpA, hpB], [], [.rel .eq hpA hpB]⟩
/-- Not `a < b`. -/
def callL : Call := ⟨[hpA, hpB], [], [.rel .lt hpA hpB]⟩
def spE : Space := Ex.committed {} callE
def spL : Space := Ex.committed {} callL

theorem reachE : Reach [callE] spE :=
  Reach.snoc (calls := []) .nil (by decide +kernel)
    (Ex.add_of_stages [("a", some (.flt (1 / 2))), ("b", some (.flt (1 / 4)))] [some (1 / 2), some (1 / 28)]
      [("a", .flt (1 / 2)), ("b", .flt (1 / 4))] (by decide +kernel) (by decide +kernel) (by decide +kernel)
      (by decide +kernel) (by decide +kernel) (by decide +kernel))

theorem reachL : Reach [callL] spL :=
  Reach.snoc (calls := []) .nil (by decide +kernel)
    (Ex.add_of_stages [("a", some (.flt (1 / 2))), ("b", some (.flt (1 / 4)))] [some (1 / 2), some (1 / 28)]
      [("a", .flt (1 / 2)), ("b", .flt (1 / 4))] (by decide +kernel) (by decide +kernel) (by decide +kernel)
      (by decide +kernel) (by decide +kernel) (by decide +kernel))

/-- `{"a": 0.9, "b": 0.9}` -/
def dictE : Dict := [("a", some (.flt (9 / 10))), ("b", some (.flt (9 / 10)))]

theorem rd0 : rd (0 : Rat) = 0 := by exact_mod_cast rd_intCast (n := 0) (by norm_num)
theorem rd1 : rd (1 : Rat) = 1 := by exact_mod_cast rd_intCast (n := 1) (by norm_num)
theorem rd7 : rd (7 : Rat) = 7 := by exact_mod_cast rd_intCast (n := 7) (by norm_num)

/-- The double next to 0.9. -/
def d9 : Rat := 8106479329266893 / 2 ^ 53

theorem rd9 : rd (9 / 10 : Rat) = d9 := by
  unfold d9
  rw [rd_eval (-53) 8106479329266893 (by norm_num) (by norm_num) (by norm_num) (by norm_num [abs_lt])]
  norm_num

theorem rdd9 : rd d9 = d9 := by rw [← rd9, rd_rd]

/-- `0.9 / 7` in double precision. -/
def d7 : Rat := 4632273902438225 / 2 ^ 55

theorem seventh : rd (d9 / 7) = d7 := by
  unfold d9 d7
  rw [rd_eval (-55) 4632273902438225 (by norm_num) (by norm_num) (by norm_num) (by norm_num [abs_lt])]
  norm_num

/-- `0.9 / 7 * 7` in double precision: `0.9000000000000001`. -/
def d97 : Rat := 4053239664633447 / 2 ^ 52

theorem back : rd (d7 * 7) = d97 := by
  unfold d7 d97
  rw [rd_eval (-53) 8106479329266894 (by norm_num) (by norm_num) (by norm_num) (by norm_num [abs_lt])]
  norm_num

theorem vecA : toVec64 hpA.kind (.flt d9) = some d9 := by
  simp [toVec64, hpA, Val.num?, toVecFlt, normalize, rd0, rd1, rdd9]

theorem vecB : toVec64 hpB.kind (.flt d9) = some d7 := by
  simp [toVec64, hpB, Val.num?, toVecFlt, normalize, rd0, rd7, rdd9, seventh]

theorem valA : toVal64 hpA.kind d9 = some (.flt d9) := by
  have : Num.clip d9 0 1 = d9 := by norm_num [Num.clip, d9]
  simp [toVal64, hpA, toValFlt, scale, rd0, rd1, rdd9, this]

theorem valB : toVal64 hpB.kind d7 = some (.flt d97) := by
  have h : rd d97 = d97 := by rw [← back, rd_rd]
  have : Num.clip d97 0 7 = d97 := by norm_num [Num.clip, d97]
  simp [toVal64, hpB, toValFlt, scale, rd0, rd7, back, h, this]

theorem round9 : round13 d9 = d9 := by
  rw [← rd9]
  exact round13_decimal ⟨9000000000000, by norm_num⟩ (by norm_num [abs_le])

theorem legalA : legalValue64 hpA.kind (.flt (9 / 10)) = true := by
  norm_num [legalValue64, hpA, Val.num?, rd0, rd1, rd9, d9]

theorem legalB : legalValue64 hpB.kind (.flt (9 / 10)) = true := by
  norm_num [legalValue64, hpB, Val.num?, rd0, rd7, rd9, d9]

theorem roundA : roundVal64 hpA.kind (.flt (9 / 10)) = .flt d9 := by
  simp [roundVal64, hpA, Kind.isFloat, Val.num?, rd9, round9]

theorem roundB : roundVal64 hpB.kind (.flt (9 / 10)) = .flt d9 := by
  simp [roundVal64, hpB, Kind.isFloat, Val.num?, rd9, round9]

theorem fillE (s : Space) (hn : s.dag.nodes = [⟨hpA, 1, [], [], none⟩, ⟨hpB, 1, [], [], none⟩])
    (hi : s.idx "a" = 0 ∧ s.idx "b" = 1 ∧ s.len = 2) (al : Bool) (h : check64 s [some d9, some d7] al = none) :
    ofValues64 s dictE al = .ok ⟨[some d9, some d7], some [("a", .flt d9), ("b", .flt d9)], al⟩ := by
  unfold ofValues64
  rw [hn, hi.2.2]
  have e : dictE.any (fun kv => decide (kv.1 ∉ [(⟨hpA, 1, [], [], none⟩ : Node), ⟨hpB, 1, [], [], none⟩].map Node.name) &&
      kv.1 != "") = false := by decide +kernel
  rw [e]
  have la : dictE.lookup (Node.name ⟨hpA, 1, [], [], none⟩) = some (some (.flt (9 / 10))) := by decide +kernel
  have lb : dictE.lookup (Node.name ⟨hpB, 1, [], [], none⟩) = some (some (.flt (9 / 10))) := by decide +kernel
  have ia : s.idx (Node.name ⟨hpA, 1, [], [], none⟩) = 0 := hi.1
  have ib : s.idx (Node.name ⟨hpB, 1, [], [], none⟩) = 1 := hi.2.1
  simp only [Bool.false_eq_true, if_false, fillValues64, la, lb, legalA, legalB, roundA, roundB, vecA, vecB, ia, ib,
    Bool.not_true, List.replicate, List.set, h]
  rfl

theorem modest {k : Call} (hk : k.hps = [hpA, hpB]) : ∀ h ∈ allHps [k], Modest h.kind := by
  intro h hh
  simp only [allHps, hk, List.flatMap_cons, List.flatMap_nil, List.append_nil, List.mem_cons, List.not_mem_nil,
    or_false] at hh
  rcases hh with rfl | rfl
  · refine ⟨⟨by norm_num, ?_⟩, by norm_num, ?_⟩
    · exact_mod_cast dec 0
    · exact_mod_cast dec 1
  · refine ⟨⟨by norm_num, ?_⟩, by norm_num, ?_⟩
    · exact_mod_cast dec 0
    · exact_mod_cast dec 7

theorem written {k : Call} (hk : k.hps = [hpA, hpB]) : WrittenDict [k] dictE := by
  intro h hh w hw
  simp only [allHps, hk, List.flatMap_cons, List.flatMap_nil, List.append_nil, List.mem_cons, List.not_mem_nil,
    or_false] at hh
  have e : w = .flt (9 / 10) := by
    rcases hh with rfl | rfl
    all_goals
      simp [dictE, hpA, hpB, List.lookup] at hw
      exact hw.symm
  subst e
  rcases hh with rfl | rfl
  all_goals exact fun q hq => by cases hq; exact ⟨9000000000000, by norm_num⟩

end ExS

/-- **C76 fails** for clauses that compare float ranges of different bounds: `ForbiddenEqualsRelation(a, b)` with `a` in `[0, 1]` and `b`
in `[0, 7]` accepts `{"a": 0.9, "b": 0.9}`, and both items read the same. -/
theorem C76_equal_floats_accepted :
    ∃ calls s d, Reach calls s ∧ (∀ h ∈ allHps calls, Modest h.kind) ∧ WrittenDict calls d ∧
      allForbs calls = [.rel .eq ExS.hpA ExS.hpB] ∧ exactSession s d false [.get "a", .get "b"] = .error .forbidden ∧
      ∃ w, doubleSession s d false [.get "a", .get "b"] = .ok [.read "a" (.ok w), .read "b" (.ok w)] := by
  refine ⟨[ExS.callE], ExS.spE, ExS.dictE, ExS.reachE, ExS.modest rfl, ExS.written rfl, rfl, by decide +kernel,
    .flt ExS.d9, ?_⟩
  unfold doubleSession
  rw [ExS.fillE ExS.spE rfl (by decide +kernel) false ?_]
  · rfl
  · have hroots : ExS.spE.dag.roots = ["a", "b"] := by decide +kernel
    have hmin : ExS.spE.minConds = [] := by rfl
    have hfast : fast64 ExS.spE = [.rel .eq ExS.hpA ExS.hpB] := by rfl
    have hi : ExS.spE.idx "a" = 0 ∧ ExS.spE.idx "b" = 1 := by decide +kernel
    have hrel : rel64 .eq ExS.hpA ExS.hpB (some ExS.d9) (some ExS.d7) = false := by
      simp only [rel64, ExS.valA, ExS.valB]
      decide +kernel
    have hrel' : onVec64 ExS.spE.idx [some ExS.d9, some ExS.d7] (.rel .eq ExS.hpA ExS.hpB) = false := by
      have ea : ExS.spE.idx ExS.hpA.name = 0 := hi.1
      have eb : ExS.spE.idx ExS.hpB.name = 1 := hi.2
      simp only [onVec64, ea, eb]
      exact hrel
    unfold check64
    rw [hroots, hmin, hfast]
    simp [firstWith, checkConds64, hi, Vec.at, isSet, hrel']

/-- ... and `ForbiddenLessThanRelation(a, b)` refuses the same values although neither is less. -/
theorem C76_equal_floats_less :
    ∃ calls s d c v, Reach calls s ∧ (∀ h ∈ allHps calls, Modest h.kind) ∧ WrittenDict calls d ∧
      allForbs calls = [.rel .lt ExS.hpA ExS.hpB] ∧ Config.ofValues s d = .ok c ∧
      DoubleVector calls s (fun n => (d.lookup n).join) v ∧ check64 s v = some .forbidden := by
  have hi : ExS.spL.idx "a" = 0 ∧ ExS.spL.idx "b" = 1 := by decide +kernel
  have ea : ExS.spL.idx ExS.hpA.name = 0 := hi.1
  have eb : ExS.spL.idx ExS.hpB.name = 1 := hi.2
  refine ⟨[ExS.callL], ExS.spL, ExS.dictE, ⟨[some (9 / 10), some (9 / 70)], some [("a", .flt (9 / 10)),
    ("b", .flt (9 / 10))], false⟩, [some ExS.d9, some ExS.d7], ExS.reachL,
    ExS.modest rfl, ExS.written rfl, rfl, Ex.ofValues_stages _ _ (by decide +kernel) (by decide +kernel) (by decide +kernel), ⟨by decide +kernel, fun h hh => ?_⟩, ?_⟩
  · simp only [allHps, ExS.callL, List.flatMap_cons, List.flatMap_nil, List.append_nil, List.mem_cons,
      List.not_mem_nil, or_false] at hh
    rcases hh with rfl | rfl
    · rw [ea]
      have e : (ExS.dictE.lookup ExS.hpA.name).join = some (.flt (9 / 10)) := by decide +kernel
      simp only [e, Option.bind_some]
      norm_num [toVec64, ExS.hpA, Val.num?, toVecFlt, normalize, ExS.rd0, ExS.rd1, ExS.rd9, Vec.at]
    · rw [eb]
      have e : (ExS.dictE.lookup ExS.hpB.name).join = some (.flt (9 / 10)) := by decide +kernel
      simp only [e, Option.bind_some]
      norm_num [toVec64, ExS.hpB, Val.num?, toVecFlt, normalize, ExS.rd0, ExS.rd7, ExS.rd9, ExS.rdd9, ExS.seventh, Vec.at]
  · have hroots : ExS.spL.dag.roots = ["a", "b"] := by decide +kernel
    have hmin : ExS.spL.minConds = [] := by rfl
    have hfast : fast64 ExS.spL = [.rel .lt ExS.hpA ExS.hpB] := by rfl
    have hrel : rel64 .lt ExS.hpA ExS.hpB (some ExS.d9) (some ExS.d7) = true := by
      simp only [rel64, ExS.valA, ExS.valB]
      decide +kernel
    have hrel' : onVec64 ExS.spL.idx [some ExS.d9, some ExS.d7] (.rel .lt ExS.hpA ExS.hpB) = true := by
      simp only [onVec64, ea, eb]
      exact hrel
    unfold check64
    rw [hroots, hmin, hfast]
    simp [firstWith, checkConds64, hi, Vec.at, isSet, hrel']

end Verif.F64
