import Verif.Props.Agree
import Verif.Props.AnyNumExchangeLink
import Verif.Props.F64Space
import Verif.Lemmas.AgreeInst

/-!
# C110: doubles on linear and logarithmic scales decide as exact numbers do
-/

set_option autoImplicit false

namespace Verif.AnyNum
open Verif Verif.Spec.Any
open Verif.Spec (OwnClauses NamedValues namesSession)

variable {calls : List Call} {s : Space}

/-! ## Over exact numbers the functions are those of `Model/Space.lean` -/

theorem exact_isActive (h : Reach calls s) (v : Vec) {x : Node} (hx : x ∈ s.com) : isActive exact s v x = Verif.isActive s v x := by
  unfold isActive Verif.isActive
  cases hc : x.cond with
  | none => rfl
  | some c =>
    simp only
    rw [exact_satVec c (Cond.wf_wf0 ((reach_wf h).2.1 c (node_cond h hx hc).1))]
    rfl

theorem exact_activeNames (h : Reach calls s) (v : Vec) : activeNames exact s v = s.activeNames v := by
  unfold activeNames Space.activeNames
  rw [List.filter_congr (fun x hx => exact_isActive h v hx)]

/-- `_check_configuration_rigorous` over exact numbers is that of `Model/Space.lean`. -/
theorem exact_checkRigorous (h : Reach calls s) (v : Vec) (al : Bool) : checkRigorous exact s v al = s.checkRigorous v al := by
  have hloop : ∀ xs : List Node, rigorousLoop exact s v al xs = Verif.rigorousLoop s v al xs := by
    intro xs
    induction xs with
    | nil => rfl
    | cons x xs ih =>
      simp only [rigorousLoop, Verif.rigorousLoop, exact_activeNames h, ih, at_same]
      cases v.at (s.idx x.name) <;> rfl
  unfold checkRigorous Space.checkRigorous
  rw [hloop]
  have hm : ∀ f ∈ s.forbs, onVec exact s.idx v f = f.onVec s.idx v := fun f hf =>
    exact_onVec f ((reach_wf h).2.2 f ((sinv_of_reach h).hist.forbs.mem_iff.1 hf))
  rw [any_congr hm]
  rfl

/-- Assignment over exact numbers is that of `Model/Space.lean`, on the vector. -/
theorem exact_setItem (h : Reach calls s) (hown : OwnClauses calls) (c : Config) (n : Name) (w : Val) :
    setItem exact s c.vec n w = ((c.setItem s n w).1.vec, (c.setItem s n w).2) := by
  unfold setItem Config.setItem
  cases findNode s.dag.nodes n with
  | none => rfl
  | some x =>
    simp only
    by_cases hl : x.hp.kind.legalValue w = true
    · obtain ⟨q, hq⟩ := legal_toVec hl
      have hl' : exact.legalValue x.hp w = true := hl
      have hq' : exact.toVec x.hp w = q := by simp [exact, hq]
      simp only [hl, hl', hq, hq', Bool.not_true, Bool.false_eq_true, if_false, exact_changeHp h, C105_exact_check h hown]
      cases s.check (s.changeHp c.vec n q (s.idx n)) <;> rfl
    · have hl1 : x.hp.kind.legalValue w = false := by simpa using hl
      have hl' : exact.legalValue x.hp w = false := hl1
      simp only [hl1, hl', Bool.not_false, if_true]

/-- `Configuration(space, values=d)` over exact numbers is that of `Model/Space.lean`, on the vector. -/
theorem exact_ofValues (h : Reach calls s) (hown : OwnClauses calls) (d : Dict) (al : Bool) :
    ofValues exact (fun x => roundVal x.kind) s d al = (Config.ofValues s d al).map Config.vec := by
  have hfill : ∀ (xs : List Node) (v : Vec) (vals : List (Name × Val)),
      fillVec exact (fun x => roundVal x.kind) s d xs v = (fillValues s d xs v vals).map Prod.fst := by
    intro xs
    induction xs with
    | nil => intro v vals; rfl
    | cons x xs ih =>
      intro v vals
      simp only [fillVec, fillValues]
      cases d.lookup x.name with
      | none => exact ih _ _
      | some o =>
        cases o with
        | none => exact ih _ _
        | some w =>
          simp only
          by_cases hl : x.hp.kind.legalValue w = true
          · have hl' : exact.legalValue x.hp w = true := hl
            have hq : ∃ q, x.hp.kind.toVec (roundVal x.hp.kind w) = some q := by
              cases hk : x.hp.kind with
              | cat cs => rw [hk] at hl; exact legal_toVec hl
              | ord cs => rw [hk] at hl; exact legal_toVec hl
              | const c => rw [hk] at hl; exact legal_toVec hl
              | int l u => rw [hk] at hl; exact legal_toVec hl
              | flt l u =>
                rw [hk] at hl
                cases hn : w.num? with
                | none => simp [Kind.legalValue, hn] at hl
                | some q =>
                  have e : roundVal (.flt l u) w = .flt (roundPlaces q) := by simp [roundVal, Kind.isFloat, hn]
                  rw [e]
                  exact ⟨_, rfl⟩
            obtain ⟨q, hq⟩ := hq
            have hq' : exact.toVec x.hp (roundVal x.hp.kind w) = q := by simp [exact, hq]
            simp only [hl, hl', hq, hq', Bool.not_true, Bool.false_eq_true, if_false]
            exact ih _ _
          · have hl1 : x.hp.kind.legalValue w = false := by simpa using hl
            have hl' : exact.legalValue x.hp w = false := hl1
            simp only [hl1, hl', Bool.not_false, if_true]
            rfl
  unfold ofValues Config.ofValues
  rw [hfill s.dag.nodes (List.replicate s.len none) []]
  split
  · rfl
  · cases fillValues s d s.dag.nodes (List.replicate s.len none) [] with
    | error e => rfl
    | ok p =>
      obtain ⟨v, vals⟩ := p
      simp only [Except.map, C105_exact_check h hown]
      cases s.check v al <;> rfl

/-- **C110**: over exact numbers a session is one of the configurations of `Model/Space.lean`. -/
theorem C110_exact_session (h : Reach calls s) (hown : OwnClauses calls) (d : Dict) (al : Bool) (steps : List (Name × Val)) :
    session exact (fun x => roundVal x.kind) s d al steps = namesSession s d al steps := by
  have go : ∀ (steps : List (Name × Val)) (c : Config), session.go exact s c.vec steps = namesSession.go s c steps := by
    intro steps
    induction steps with
    | nil => exact fun _ => rfl
    | cons p rest ih =>
      obtain ⟨n, w⟩ := p
      intro c
      simp only [session.go, namesSession.go, exact_setItem h hown, ih]
      rfl
  unfold session namesSession
  rw [exact_ofValues h hown]
  cases Config.ofValues s d al with
  | error e => rfl
  | ok c =>
    simp only [Except.map, go]
    rfl

end Verif.AnyNum

namespace Verif.F64
open Verif Verif.Spec Verif.AnyNum

variable {lg ex : ℝ → ℝ} {log : Scaled.Scales} {calls : List Call} {s : Space}

theorem own_of (hp : PreciseLog log calls) : OwnClauses calls := fun f hf => (hp.clauses f hf).1

theorem goodAll_of {a : NamedValues} (ha : GoodValues calls a) : Spec.Any.GoodAll exact (fun h w => Written h.kind w) calls a :=
  fun h hh w hw => ⟨(ha h hh w hw).2, (ha h hh w hw).1⟩

theorem vectorOf_exact {a : NamedValues} (ha : GoodValues calls a) {v : Vec} (hv : ExactVector calls s a v) :
    Spec.Any.VectorOf exact calls s a v := by
  refine ⟨hv.1, fun h hh => (hv.2 h hh).trans ?_⟩
  cases hw : a h.name with
  | none => rfl
  | some w =>
    obtain ⟨q, hq⟩ := legal_toVec (ha h hh w hw).1
    simp [exact, hq]

theorem vectorOf_double {a : NamedValues} (ha : GoodValues calls a) {v : List (Option ℝ)} (hv : DoubleVectorLog lg log calls s a v) :
    Spec.Any.VectorOf (doubles lg ex log) calls s a v := by
  refine ⟨hv.1, fun h hh => (hv.2 h hh).trans ?_⟩
  cases hw : a h.name with
  | none => rfl
  | some w =>
    obtain ⟨q, hq⟩ := isSome_vec (lg := lg) (ha h hh w hw).1 (log h)
    simp [doubles, hq]

/-- **C110, doubles on linear and logarithmic scales** (partial: numbers as one writes them, modest ranges, and clauses compare float ranges
only with the same range on the same scale).  With any accurate `np.log` and `np.exp`, both validators and the list of active
hyperparameters give on the vector of the values in double precision what they give in exact arithmetic on linear scales. -/
theorem C110_double_validators_partial (ha : Accurate lg ex) (hr : Reach calls s) (hp : PreciseLog log calls) {a : NamedValues}
    (hg : GoodValues calls a) {v : Vec} {w : List (Option ℝ)} (hv : ExactVector calls s a v) (hw : DoubleVectorLog lg log calls s a w) (al : Bool) :
    check (doubles lg ex log) s w al = s.check v al ∧ checkRigorous (doubles lg ex log) s w al = s.checkRigorous v al ∧
      activeNames (doubles lg ex log) s w = s.activeNames v := by
  obtain ⟨h1, h2, h3⟩ := C110_validators hr (agree_doubles ha hr hp) (goodAll_of hg) (vectorOf_double hg hw) (vectorOf_exact hg hv) al
  rw [C105_exact_check hr (own_of hp)] at h1
  rw [exact_checkRigorous hr] at h2
  rw [exact_activeNames hr] at h3
  exact ⟨h1, h2, h3⟩

/-- **C110, doubles on linear and logarithmic scales** (partial, as above, and with the conditions of C16 and C17).  The values are accepted in
double precision if and only if they are a valid configuration. -/
theorem C110_double_accepted_iff_valid_partial (ha : Accurate lg ex) (hr : Reach calls s) (hp : PreciseLog log calls) (hsep : Separable calls)
    {a : NamedValues} (hg : GoodValues calls a) {w : List (Option ℝ)} (hw : DoubleVectorLog lg log calls s a w) :
    check (doubles lg ex log) s w = none ↔ Valid calls (entriesOf calls a) := by
  obtain ⟨v, hv⟩ : ∃ v, ExactVector calls s a v := vector_exists hr a Kind.toVec
  have hrep := represents_entries hr hv
  rw [(C110_double_validators_partial ha hr hp hg hv hw false).1]
  refine ⟨fun hc => C16_accepted_legal_roots_partial hr hsep (own_of hp) hrep ?_ hc,
    fun hc => C17_valid_is_accepted_partial hr hsep (own_of hp) hrep hc⟩
  intro h hh _ q hq
  have hn : h.name ∈ s.names := (reach_isNode hr _).2 ⟨h, hh, rfl⟩
  rw [← at_idx hrep hn, hv.2 h hh] at hq
  cases hw' : a h.name with
  | none => rw [hw'] at hq; cases hq
  | some u =>
    rw [hw'] at hq
    exact toVec_legal ((reach_wf hr).1 h hh) (hg h hh u hw').1 hq
      (exactInt_of (hg h hh u hw').1 (hg h hh u hw').2)

/-- **C110, doubles on linear and logarithmic scales** (partial, as above).  A user who makes a configuration of values and then assigns
items sees in double precision, on the scales of the space, what exact arithmetic on linear scales says: the same exceptions at the same
steps, and the same names set after each. -/
theorem C110_double_session_partial (ha : Accurate lg ex) (hr : Reach calls s) (hp : PreciseLog log calls) {d : Dict} (hd : WrittenDict calls d)
    (al : Bool) {steps : List (Name × Val)} (hs : ∀ n w, (n, w) ∈ steps → ∀ h ∈ allHps calls, h.name = n → Written h.kind w) :
    Spec.Any.session (doubles lg ex log) (fun h => roundVal64 h.kind) s d al steps = namesSession s d al steps := by
  rw [← C110_exact_session hr (own_of hp)]
  exact C110_session hr (agree_doubles ha hr hp) (keeps_doubles hr hp) hd al hs

/-! ## Examples -/

namespace ExAg

/-- Two learning rates between `0.00001` and `0.1`, an optimiser, and a number of layers between 1 and 1000 if the first rate is above
`0.01`; the numbers have a logarithmic scale.  Forbidden are four layers with `sgd`, and a first rate below the second. -/
def hpLr : HP := ⟨"lr", .flt (1 / 100000) (1 / 10), .flt (1 / 10)⟩
def hpMin : HP := ⟨"min", .flt (1 / 100000) (1 / 10), .flt (1 / 1000)⟩
def hpOpt : HP := ⟨"opt", .cat [.str "adam", .str "sgd"], .str "adam"⟩
def hpN : HP := ⟨"n", .int 1 1000, .int 8⟩
def litN : Lit := ⟨hpN, hpLr, .bin .gt (.flt (1 / 100)) (111 / 1111)⟩
def forbS : Forb := .and [.eq hpOpt (.str "sgd") 1, .eq hpN (.int 4) (1 / 333)]
def forbL : Forb := .rel .lt hpLr hpMin
def call : Call := ⟨[hpLr, hpMin, hpOpt, hpN], [.lit litN], [forbS, forbL]⟩
def sp : Space := Ex.committed {} call

theorem reach : Reach [call] sp :=
  Reach.snoc (calls := []) .nil (by decide +kernel)
    (Ex.add_of_stages [("lr", some (.flt (1 / 10))), ("min", some (.flt (1 / 1000))), ("opt", some (.str "adam")), ("n", some (.int 8))]
      [some 1, some (1 / 101), some 0, some (7 / 999)]
      [("lr", .flt (1 / 10)), ("min", .flt (1 / 1000)), ("opt", .str "adam"), ("n", .int 8)] (by decide +kernel) (by decide +kernel)
      (by decide +kernel) (by decide +kernel) (by decide +kernel) (by decide +kernel))

def logs : Scaled.Scales := fun h => decide (h.name ≠ "opt")

theorem mem {h : HP} (hh : h ∈ allHps [call]) : h = hpLr ∨ h = hpMin ∨ h = hpOpt ∨ h = hpN := by
  simpa [allHps, call] using hh

theorem size : ((1 / 10 : Rat) : ℝ) * logSize ((1 / 100000 : Rat) : ℝ) ((1 / 10 : Rat) : ℝ) ≤ 3 := by
  have h10 : Real.log 10 ≤ 5 := by
    rw [show (10 : ℝ) = 2 * 5 by norm_num, Real.log_mul (by norm_num) (by norm_num)]
    have a := Real.log_le_sub_one_of_pos (x := (2 : ℝ)) (by norm_num)
    have b := Real.log_le_sub_one_of_pos (x := (5 : ℝ)) (by norm_num)
    linarith
  have h0 : 0 ≤ Real.log 10 := Real.log_nonneg (by norm_num)
  have e1 : Real.log ((1 / 10 : Rat) : ℝ) = - Real.log 10 := by
    rw [← Real.log_inv]
    norm_num
  have e2 : Real.log ((1 / 100000 : Rat) : ℝ) = - (5 * Real.log 10) := by
    rw [show 5 * Real.log 10 = Real.log (10 ^ 5) by rw [Real.log_pow]; norm_num, ← Real.log_inv]
    norm_num
  have : logSize ((1 / 100000 : Rat) : ℝ) ((1 / 10 : Rat) : ℝ) ≤ 30 := by
    unfold logSize
    rw [e1, e2, abs_neg, abs_neg, abs_of_nonneg h0, abs_of_nonneg (by linarith)]
    exact max_le (by norm_num) (max_le (by linarith) (by linarith))
  push_cast
  push_cast at this
  linarith

theorem modest : ModestLog true (.flt (1 / 100000) (1 / 10)) :=
  ⟨⟨100000000, by norm_num⟩, ⟨1000000000000, by norm_num⟩, by
    simp only [if_true]
    exact ⟨by norm_num, size.trans (by norm_num)⟩⟩

theorem precise : PreciseLog logs [call] where
  ranges := by
    intro h hh
    rcases mem hh with rfl | rfl | rfl | rfl
    · exact modest
    · exact modest
    · trivial
    · show if (true : Bool) = true then (1 : Int) ≤ 1 ∧ (1000 : Int) ≤ 2 ^ 39 else |(1 : Int)| < 2 ^ 49 ∧ |(1000 : Int)| < 2 ^ 49
      norm_num
  conds := by
    intro c hc l hl
    simp only [allConds, call, List.flatMap_cons, List.flatMap_nil, List.append_nil, List.mem_singleton] at hc
    subst hc
    simp only [Cond.dlcs, List.mem_singleton] at hl
    subst hl
    refine ⟨by simp [litN, allHps, call], fun w hw => ?_⟩
    simp only [litN, testVals, List.mem_singleton] at hw
    subst hw
    intro q hq
    cases hq
    exact ⟨100000000000, by norm_num⟩
  clauses := by
    intro f hf
    simp only [allForbs, call, List.flatMap_cons, List.flatMap_nil, List.append_nil, List.mem_cons, List.not_mem_nil, or_false] at hf
    rcases hf with rfl | rfl
    · refine ⟨fun h hh => ?_, fun p hp => ?_⟩
      · simp [forbS, clauseHps, clauseHpsL] at hh
        rcases hh with rfl | rfl <;> simp [allHps, call]
      · simp [forbS, clauseVals, clauseValsL] at hp
        rcases hp with rfl | rfl
        · trivial
        · exact fun _ _ => ⟨4, rfl⟩
    · refine ⟨fun h hh => ?_, fun p hp => ?_⟩
      · simp [forbL, clauseHps] at hh
        rcases hh with rfl | rfl <;> simp [allHps, call]
      · simp [forbL, clauseVals] at hp
  rels := by
    intro f hf p hp
    simp only [allForbs, call, List.flatMap_cons, List.flatMap_nil, List.append_nil, List.mem_cons, List.not_mem_nil, or_false] at hf
    rcases hf with rfl | rfl
    · simp [forbS, relPairs, relPairsL] at hp
    · simp only [forbL, relPairs, List.mem_singleton] at hp
      subst hp
      refine .inr ⟨rfl, rfl, fun lo hi hk _ => ?_⟩
      simp only [hpLr, Kind.flt.injEq] at hk
      rw [← hk.1, ← hk.2]
      exact size

/-- `{"lr": 0.05, "min": 0.001, "opt": "adam", "n": 4}`. -/
def dict : Dict := [("lr", some (.flt (1 / 20))), ("min", some (.flt (1 / 1000))), ("opt", some (.str "adam")), ("n", some (.int 4))]

theorem written : WrittenDict [call] dict := by
  intro h hh w hw
  rcases mem hh with rfl | rfl | rfl | rfl
  · simp [dict, hpLr, List.lookup] at hw
    subst hw
    exact fun q hq => by cases hq; exact ⟨500000000000, by norm_num⟩
  · simp [dict, hpMin, List.lookup] at hw
    subst hw
    exact fun q hq => by cases hq; exact ⟨10000000000, by norm_num⟩
  · trivial
  · simp [dict, hpN, List.lookup] at hw
    subst hw
    exact fun q hq => ⟨4, rfl⟩

/-- Setting the optimiser to `sgd` is forbidden; setting the rate to that of `min` removes the layers; setting it below is forbidden. -/
def steps : List (Name × Val) := [("opt", .str "sgd"), ("lr", .flt (1 / 1000)), ("lr", .flt (1 / 2000)), ("opt", .str "sgd")]

/-- In doubles, with the nearest double of the logarithm and of the exponential function. -/
example : Spec.Any.session (doubles (fun x => rd (Real.log x)) (fun y => rd (Real.exp y)) logs) (fun h => roundVal64 h.kind) sp dict false steps =
    .ok (["lr", "min", "opt", "n"], [(some .forbidden, ["lr", "min", "opt", "n"]), (none, ["lr", "min", "opt"]),
      (some .forbidden, ["lr", "min", "opt"]), (none, ["lr", "min", "opt"])]) := by
  rw [C110_double_session_partial accurate_rd reach precise written false]
  · decide +kernel
  · intro n w hm h hh e
    simp only [steps, List.mem_cons, List.not_mem_nil, or_false, Prod.mk.injEq] at hm
    rcases mem hh with rfl | rfl | rfl | rfl
    · rcases hm with ⟨rfl, rfl⟩ | ⟨rfl, rfl⟩ | ⟨rfl, rfl⟩ | ⟨rfl, rfl⟩
      · simp [hpLr] at e
      · exact fun q hq => by cases hq; exact ⟨10000000000, by norm_num⟩
      · exact fun q hq => by cases hq; exact ⟨5000000000, by norm_num⟩
      · simp [hpLr] at e
    · rcases hm with ⟨rfl, rfl⟩ | ⟨rfl, rfl⟩ | ⟨rfl, rfl⟩ | ⟨rfl, rfl⟩ <;> simp [hpMin] at e
    · trivial
    · rcases hm with ⟨rfl, rfl⟩ | ⟨rfl, rfl⟩ | ⟨rfl, rfl⟩ | ⟨rfl, rfl⟩ <;> simp [hpN] at e

def vals : NamedValues := fun n => (dict.lookup n).join

theorem good : GoodValues [call] vals := by
  intro h hh w hw
  refine ⟨?_, written h hh w ?_⟩
  · rcases mem hh with rfl | rfl | rfl | rfl
    all_goals simp [vals, dict, hpLr, hpMin, hpOpt, hpN, List.lookup, Option.join] at hw; subst hw; decide +kernel
  · rcases mem hh with rfl | rfl | rfl | rfl
    all_goals simp [vals, dict, hpLr, hpMin, hpOpt, hpN, List.lookup, Option.join] at hw; subst hw; decide +kernel

theorem sep : Separable [call] := by
  intro c hc d hd _ a
  simp only [allConds, List.flatMap_cons, List.flatMap_nil, List.append_nil, call, List.mem_cons, List.not_mem_nil, or_false] at hc hd
  subst hc; subst hd
  exact Iff.rfl

/-- The values are accepted in doubles, and valid; there is an exact vector and one in doubles. -/
example : ∃ v w, ExactVector [call] sp vals v ∧ DoubleVectorLog (fun x => rd (Real.log x)) logs [call] sp vals w ∧
    check (doubles (fun x => rd (Real.log x)) (fun y => rd (Real.exp y)) logs) sp w = none ∧ Valid [call] (entriesOf [call] vals) := by
  have hv : ExactVector [call] sp vals [some (4999 / 9999), some (1 / 101), some 0, some (1 / 333)] := by
    refine ⟨by decide +kernel, fun h hh => ?_⟩
    rcases mem hh with rfl | rfl | rfl | rfl <;> decide +kernel
  let w : List (Option ℝ) := sp.com.map (fun x => (vals x.name).bind (toVecD (fun x => rd (Real.log x)) (logs x.hp) x.hp.kind))
  have hw : DoubleVectorLog (fun x => rd (Real.log x)) logs [call] sp vals w := by
    have hcom : sp.com.map Node.hp = [hpLr, hpMin, hpOpt, hpN] := by decide +kernel
    have hnames : sp.com.map Node.name = ["lr", "min", "opt", "n"] := by decide +kernel
    have hlen : sp.len = 4 := by decide +kernel
    have hidx : sp.idx "lr" = 0 ∧ sp.idx "min" = 1 ∧ sp.idx "opt" = 2 ∧ sp.idx "n" = 3 := by decide +kernel
    obtain ⟨x0, x1, x2, x3, hx⟩ : ∃ x0 x1 x2 x3, sp.com = [x0, x1, x2, x3] := by
      have : sp.com.length = 4 := by decide +kernel
      match hc : sp.com, this with
      | [x0, x1, x2, x3], _ => exact ⟨x0, x1, x2, x3, rfl⟩
    rw [hx] at hcom hnames
    simp only [List.map_cons, List.map_nil, List.cons.injEq, and_true] at hcom hnames
    refine ⟨by simp [w, hx, hlen], fun h hh => ?_⟩
    rcases mem hh with rfl | rfl | rfl | rfl
    · show w.getD (sp.idx "lr") none = _
      rw [hidx.1]
      simp only [w, hx, List.map_cons, List.getD_cons_zero, hcom.1, hnames.1]
      rfl
    · show w.getD (sp.idx "min") none = _
      rw [hidx.2.1]
      simp only [w, hx, List.map_cons, List.getD_cons_succ, List.getD_cons_zero, hcom.2.1, hnames.2.1]
      rfl
    · show w.getD (sp.idx "opt") none = _
      rw [hidx.2.2.1]
      simp only [w, hx, List.map_cons, List.getD_cons_succ, List.getD_cons_zero, hcom.2.2.1, hnames.2.2.1]
      rfl
    · show w.getD (sp.idx "n") none = _
      rw [hidx.2.2.2]
      simp only [w, hx, List.map_cons, List.getD_cons_succ, List.getD_cons_zero, hcom.2.2.2, hnames.2.2.2]
      rfl
  have hc : check (doubles (fun x => rd (Real.log x)) (fun y => rd (Real.exp y)) logs) sp w = none := by
    rw [(C110_double_validators_partial accurate_rd reach precise good hv hw false).1]
    decide +kernel
  exact ⟨_, w, hv, hw, hc, (C110_double_accepted_iff_valid_partial accurate_rd reach precise sep good hw).1 hc⟩

end ExAg

end Verif.F64
