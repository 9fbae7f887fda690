import Verif.Lemmas.MadeAgain
import Verif.Props.Sample
import Verif.Props.F64Space

/-!
# C103: a configuration can be made again from its dictionary

A user stores `dict(config)` and later calls `Configuration(space, values=...)` with it.  In double precision, a configuration that was made
from a dictionary comes back as it was.  A drawn configuration comes back with the same values as long as no condition or clause looks at a
float hyperparameter; if one does, the rebuilt configuration can be refused.
-/

set_option autoImplicit false

namespace Verif.Rebuild
open Verif Verif.Spec Verif.F64

variable {calls : List Call} {s : Space}

/-- **C103**, rounding: rounding a double to thirteen decimals a second time changes nothing, whatever its size. -/
theorem C103_rounding_twice {x : Rat} (hx : IsF64 x) : round13 (round13 x) = round13 x := round13_idem hx

/-- **C103**, configurations made from dictionaries: `Configuration(space, values=dict(c))` is `c` again, vector and stored values. -/
theorem C103_created (hr : Reach calls s) (hb : KeptBounds calls) {d : Dict} {al : Bool} {c : Config}
    (h : ofValues64 s d al = .ok c) : rebuild64 s c al = .ok c := rebuild_created hr hb h

/-- **C103**, drawn configurations (the guard: no condition and no clause looks at a float hyperparameter): `dict(c)` can be read, a
configuration can be made from it, its dictionary is that dictionary, and its vector differs at most in the float entries. -/
theorem C103_drawn_partial (hr : Reach calls s) (hb : KeptBounds calls) (hi : SmallInts calls) (hff : FloatFree calls) {v : Vec}
    (hv : DrawnVector calls s v) {al : Bool} (hc : check64 s v al = none) :
    ∃ d c', dict64 s ⟨v, none, al⟩ = .ok d ∧ ofValues64 s d al = .ok c' ∧ dict64 s c' = .ok d ∧ SameButFloats calls s v c'.vec :=
  rebuild_drawn hr hb hi hff (fun f hf g hg => forb_known hr hf hg) hv hc rfl rfl

namespace ExZ

def hpF : HP := ⟨"f", .flt 0 1, .flt (1 / 4)⟩
def hpX : HP := ⟨"x", .cat [.str "u", .str "w"], .str "u"⟩
def callZ : Call := ⟨[hpF, hpX], [.lit ⟨hpX, hpF, .bin .gt (.flt (1 / 2)) (1 / 2)⟩], []⟩
def spZ : Space := Ex.committed {} callZ

theorem reachZ : Reach [callZ] spZ :=
  Reach.snoc (calls := []) .nil (by decide +kernel)
    (Ex.add_of_stages [("f", some (.flt (1 / 4))), ("x", none)] [some (1 / 4), none] [("f", .flt (1 / 4))]
      (by decide +kernel) (by decide +kernel) (by decide +kernel)
      (by decide +kernel) (by decide +kernel) (by decide +kernel))

/-- The double after one half. -/
def q : Rat := 1 / 2 + 1 / 2 ^ 53

theorem rdq : rd q = q := by
  unfold q
  rw [rd_eval (-53) 4503599627370497 (by norm_num) (by norm_num) (by norm_num) (by norm_num [abs_lt])]
  norm_num

theorem rdh : rd (1 / 2 : Rat) = 1 / 2 := by
  rw [rd_eval (-53) 4503599627370496 (by norm_num) (by norm_num) (by norm_num) (by norm_num [abs_lt])]
  norm_num

theorem kept_dec {d : Int} (h : |((d : Int) : Rat)| ≤ 32) : Kept (d : Rat) :=
  ⟨rd (d : Rat), isF64_rd _, (round13_decimal (ExS.dec d) h).symm⟩

theorem keptF : Kept 0 ∧ Kept 1 ∧ rd (0 : Rat) < rd 1 := by
  refine ⟨?_, ?_, by rw [ExS.rd0, ExS.rd1]; norm_num⟩
  · exact_mod_cast kept_dec (d := 0) (by norm_num)
  · exact_mod_cast kept_dec (d := 1) (by norm_num)

theorem mem {h : HP} (hh : h ∈ allHps [callZ]) : h = hpF ∨ h = hpX := by
  simpa [allHps, callZ] using hh

theorem keptZ : KeptBounds [callZ] := by
  intro h hh l u hk
  rcases mem hh with rfl | rfl
  · cases hk
    exact keptF
  · cases hk

theorem smallZ : SmallInts [callZ] := by
  intro h hh l u hk
  rcases mem hh with rfl | rfl <;> cases hk

theorem roundq : round13 q = 1 / 2 := by
  have e : ((5000000000000 : Int) : Rat) / 10 ^ 13 = 1 / 2 := by norm_num
  have := round13_near (K := Rat) (y := q) (d := 5000000000000) (by norm_num [abs_le]) (by rw [e, rdh]; norm_num [q, abs_le])
  rw [this, e, rdh]

theorem roundh : round13 (1 / 2 : Rat) = 1 / 2 := by
  have := round13_decimal (q := 1 / 2) ⟨5000000000000, by norm_num⟩ (by norm_num [abs_le])
  rwa [rdh] at this

theorem rootsZ : spZ.dag.roots = ["f"] := by decide +kernel
theorem idxZ : spZ.idx "f" = 0 ∧ spZ.idx "x" = 1 := by decide +kernel
theorem fastZ : fast64 spZ = [] := by rfl
theorem minZ : spZ.minConds = [⟨.lit ⟨hpX, hpF, .bin .gt (.flt (1 / 2)) (1 / 2)⟩, ["x"]⟩] := by rfl
theorem hpX? : spZ.hp? "x" = some hpX := by decide +kernel

theorem vech : toVec64 hpF.kind (.flt (1 / 2)) = some (1 / 2) := by
  simp only [toVec64, hpF, Val.num?, Option.map_some, toVecFlt, F64.normalize, ExS.rd0, ExS.rd1, rdh]
  norm_num

theorem satZ (x : Rat) (e : NV) : (cond64 (.lit ⟨hpX, hpF, .bin .gt (.flt (1 / 2)) (1 / 2)⟩)).satVec spZ.idx [some x, e] =
    decide ((1 / 2 : Rat) < x) := by
  have : spZ.idx hpF.name = 0 := idxZ.1
  simp only [cond64, test64, vech, Option.getD_some, Cond.satVec, this]
  rfl

/-- The vector that is drawn. -/
theorem checkZ : check64 spZ [some q, some 0] = none := by
  unfold check64
  rw [rootsZ, minZ, fastZ]
  have h0 : decide ((1 / 2 : Rat) < q) = true := by norm_num [q]
  have h1 : legalAt64 spZ [some q, some 0] "x" = true := by
    unfold legalAt64
    rw [hpX?, idxZ.2]
    decide +kernel
  have hi := idxZ
  simp only [checkConds64, satZ, h0, firstWith, Vec.at, isSet]
  simp [hi.1, hi.2, h1]

theorem checkh : check64 spZ [some (1 / 2), some 0] = some (.inactiveSet "x") := by
  unfold check64
  rw [rootsZ, minZ, fastZ]
  have h0 : decide ((1 / 2 : Rat) < 1 / 2) = false := by norm_num
  have h2 : toVal64 hpX.kind 0 = some (.str "u") := by decide +kernel
  have hi := idxZ
  simp only [checkConds64, satZ, h0, firstWith, Vec.at, isSet]
  simp [hi.1, hi.2, hpX?, h2]

theorem valq : toVal64 hpF.kind q = some (.flt q) := by
  have : Num.clip q 0 1 = q := by norm_num [Num.clip, q]
  simp [toVal64, hpF, toValFlt, scale, ExS.rd0, ExS.rd1, rdq, this]

theorem nodesZ : ∃ a b : Node, spZ.dag.nodes = [a, b] ∧ a.hp = hpF ∧ b.hp = hpX := ⟨_, _, rfl, rfl, rfl⟩

theorem dictZ : dict64 spZ ⟨[some q, some 0], none, false⟩ = .ok [("f", some (.flt (1 / 2))), ("x", some (.str "u"))] := by
  obtain ⟨a, b, hn, ha, hb⟩ := nodesZ
  have na : a.name = "f" := by unfold Node.name; rw [ha]; rfl
  have nb : b.name = "x" := by unfold Node.name; rw [hb]; rfl
  have fa : findNode spZ.dag.nodes "f" = some a := by rw [hn]; simp [findNode, na]
  have fb : findNode spZ.dag.nodes "x" = some b := by rw [hn]; simp [findNode, na, nb]
  have hk : Config.keys spZ ⟨[some q, some 0], none, false⟩ = ["f", "x"] := by
    have hn' : spZ.names = ["f", "x"] := by decide +kernel
    have hi := idxZ
    simp [Config.keys, hn', hi.1, hi.2, Vec.at, isSet]
  have h2 : toVal64 hpX.kind 0 = some (.str "u") := by decide +kernel
  have rq : roundVal64 hpF.kind (.flt q) = .flt (1 / 2) := by simp [roundVal64, hpF, Kind.isFloat, Val.num?, rdq, roundq]
  have rx : roundVal64 hpX.kind (.str "u") = .str "u" := rfl
  unfold dict64
  rw [hk]
  have hi := idxZ
  simp [items64, getItem64, fa, fb, hi.1, hi.2, ha, hb, Vec.at, valq, h2, rq, rx, List.lookup]

theorem ofZ : ofValues64 spZ [("f", some (.flt (1 / 2))), ("x", some (.str "u"))] = .error (.inactiveSet "x") := by
  obtain ⟨a, b, hn, ha, hb⟩ := nodesZ
  have na : a.name = "f" := by unfold Node.name; rw [ha]; rfl
  have nb : b.name = "x" := by unfold Node.name; rw [hb]; rfl
  unfold ofValues64
  rw [hn]
  have e : ([("f", some (.flt (1 / 2))), ("x", some (.str "u"))] : Dict).any (fun kv => decide (kv.1 ∉ [a, b].map Node.name) &&
      kv.1 != "") = false := by simp [na, nb]
  rw [e]
  have la : ([("f", some (.flt (1 / 2))), ("x", some (.str "u"))] : Dict).lookup a.name = some (some (.flt (1 / 2))) := by
    rw [na]; decide +kernel
  have lb : ([("f", some (.flt (1 / 2))), ("x", some (.str "u"))] : Dict).lookup b.name = some (some (.str "u")) := by
    rw [nb]; decide +kernel
  have ga : legalValue64 hpF.kind (.flt (1 / 2)) = true := by
    simp only [legalValue64, hpF, Val.num?, ExS.rd0, ExS.rd1, rdh]
    norm_num
  have gb : legalValue64 hpX.kind (.str "u") = true := by decide +kernel
  have ra : roundVal64 hpF.kind (.flt (1 / 2)) = .flt (1 / 2) := by
    simp only [roundVal64, hpF, Kind.isFloat, Val.num?, rdh, roundh, if_true]
  have rb : roundVal64 hpX.kind (.str "u") = .str "u" := rfl
  have vb : toVec64 hpX.kind (.str "u") = some 0 := by decide +kernel
  have hl : spZ.len = 2 := by decide +kernel
  have ia : spZ.idx a.name = 0 := by rw [na]; exact idxZ.1
  have ib : spZ.idx b.name = 1 := by rw [nb]; exact idxZ.2
  simp only [Bool.false_eq_true, if_false, fillValues64, la, lb, ha, hb, ga, gb, ra, rb, vech, vb, ia, ib,
    Bool.not_true, hl, List.replicate, List.set, checkh]

theorem rdd : rd (3 / 4 : Rat) = 3 / 4 := by
  rw [rd_eval (-53) 6755399441055744 (by norm_num) (by norm_num) (by norm_num) (by norm_num [abs_lt])]
  norm_num

/-- `f = 0.75` and `x = "w"` make a configuration. -/
theorem madeZ : ofValues64 spZ [("f", some (.flt (3 / 4))), ("x", some (.str "w"))] =
    .ok ⟨[some (3 / 4), some 1], some [("f", .flt (3 / 4)), ("x", .str "w")], false⟩ := by
  obtain ⟨a, b, hn, ha, hb⟩ := nodesZ
  have na : a.name = "f" := by unfold Node.name; rw [ha]; rfl
  have nb : b.name = "x" := by unfold Node.name; rw [hb]; rfl
  unfold ofValues64
  rw [hn]
  have e : ([("f", some (.flt (3 / 4))), ("x", some (.str "w"))] : Dict).any (fun kv => decide (kv.1 ∉ [a, b].map Node.name) &&
      kv.1 != "") = false := by simp [na, nb]
  rw [e]
  have la : ([("f", some (.flt (3 / 4))), ("x", some (.str "w"))] : Dict).lookup a.name = some (some (.flt (3 / 4))) := by
    rw [na]; decide +kernel
  have lb : ([("f", some (.flt (3 / 4))), ("x", some (.str "w"))] : Dict).lookup b.name = some (some (.str "w")) := by
    rw [nb]; decide +kernel
  have ga : legalValue64 hpF.kind (.flt (3 / 4)) = true := by
    simp only [legalValue64, hpF, Val.num?, ExS.rd0, ExS.rd1, rdd]
    norm_num
  have gb : legalValue64 hpX.kind (.str "w") = true := by decide +kernel
  have ra : roundVal64 hpF.kind (.flt (3 / 4)) = .flt (3 / 4) := by
    have := round13_decimal (q := 3 / 4) ⟨7500000000000, by norm_num⟩ (by norm_num [abs_le])
    rw [rdd] at this
    simp only [roundVal64, hpF, Kind.isFloat, Val.num?, rdd, this, if_true]
  have rb : roundVal64 hpX.kind (.str "w") = .str "w" := rfl
  have va : toVec64 hpF.kind (.flt (3 / 4)) = some (3 / 4) := by
    simp only [toVec64, hpF, Val.num?, Option.map_some, toVecFlt, F64.normalize, ExS.rd0, ExS.rd1, rdd]
    norm_num
  have vb : toVec64 hpX.kind (.str "w") = some 1 := by decide +kernel
  have hl : spZ.len = 2 := by decide +kernel
  have ia : spZ.idx a.name = 0 := by rw [na]; exact idxZ.1
  have ib : spZ.idx b.name = 1 := by rw [nb]; exact idxZ.2
  have hc : check64 spZ [some (3 / 4), some 1] = none := by
    unfold check64
    rw [rootsZ, minZ, fastZ]
    have h0 : decide ((1 / 2 : Rat) < 3 / 4) = true := by norm_num
    have h1 : legalAt64 spZ [some (3 / 4), some 1] "x" = true := by
      unfold legalAt64
      rw [hpX?, idxZ.2]
      decide +kernel
    have hi := idxZ
    simp only [checkConds64, satZ, h0, firstWith, Vec.at, isSet]
    simp [hi.1, hi.2, h1]
  simp only [Bool.false_eq_true, if_false, fillValues64, la, lb, ha, hb, ga, gb, ra, rb, va, vb, ia, ib,
    Bool.not_true, hl, List.replicate, List.set, hc]
  rw [na, nb]
  rfl

/-! A space with a condition that does not look at the float. -/

def hpC : HP := ⟨"c", .cat [.str "a", .str "b"], .str "a"⟩
def hpN : HP := ⟨"n", .int 1 10, .int 3⟩
def callN : Call := ⟨[hpF, hpC, hpN], [.lit ⟨hpN, hpC, .bin .eq (.str "a") 0⟩], []⟩
def spN : Space := Ex.committed {} callN

theorem reachN : Reach [callN] spN :=
  Reach.snoc (calls := []) .nil (by decide +kernel)
    (Ex.add_of_stages [("c", some (.str "a")), ("f", some (.flt (1 / 4))), ("n", some (.int 3))] [some 0, some (1 / 4), some (2 / 9)]
      [("c", .str "a"), ("f", .flt (1 / 4)), ("n", .int 3)]
      (by decide +kernel) (by decide +kernel) (by decide +kernel)
      (by decide +kernel) (by decide +kernel) (by decide +kernel))

theorem memN {h : HP} (hh : h ∈ allHps [callN]) : h = hpF ∨ h = hpC ∨ h = hpN := by
  simpa [allHps, callN] using hh

theorem keptN : KeptBounds [callN] := by
  intro h hh l u hk
  rcases memN hh with rfl | rfl | rfl <;> cases hk
  exact keptF

theorem smallN : SmallInts [callN] := by
  intro h hh l u hk
  rcases memN hh with rfl | rfl | rfl <;> cases hk
  exact ⟨by norm_num, by norm_num⟩

theorem freeN : FloatFree [callN] := by
  intro h hh hf
  rcases memN hh with rfl | rfl | rfl
  · refine ⟨?_, by simp [allForbs, callN]⟩
    intro c hc l hl
    simp only [allConds, callN, List.flatMap_cons, List.flatMap_nil, List.append_nil, List.mem_cons, List.not_mem_nil, or_false] at hc
    subst hc
    simp only [Cond.dlcs, List.mem_cons, List.not_mem_nil, or_false] at hl
    subst hl
    decide
  · cases hf
  · cases hf

theorem idxN : spN.idx "c" = 0 ∧ spN.idx "f" = 1 ∧ spN.idx "n" = 2 := by decide +kernel

/-- `c = "a"`, `f` the double after one half, `n = 4`. -/
def vecN : Vec := [some 0, some q, some (F64.toVecInt 1 10 4)]

theorem drawnN : DrawnVector [callN] spN vecN := by
  refine ⟨?_, ?_⟩
  · have : spN.len = 3 := by decide +kernel
    rw [this]; rfl
  · intro h hh r hr
    rcases memN hh with rfl | rfl | rfl
    · have : spN.idx hpF.name = 1 := idxN.2.1
      rw [this] at hr
      cases hr
      refine ⟨?_, by norm_num [q], by norm_num [q]⟩
      rw [← rdq]
      exact isF64_rd _
    · have : spN.idx hpC.name = 0 := idxN.1
      rw [this] at hr
      cases hr
      exact ⟨0, by decide, by norm_num⟩
    · have : spN.idx hpN.name = 2 := idxN.2.2
      rw [this] at hr
      cases hr
      exact ⟨4, by decide, by decide, rfl⟩

theorem checkN : check64 spN vecN = none := by
  unfold check64
  have hr : spN.dag.roots = ["c", "f"] := by decide +kernel
  have hm : spN.minConds = [⟨.lit ⟨hpN, hpC, .bin .eq (.str "a") 0⟩, ["n"]⟩] := by rfl
  have hf : fast64 spN = [] := by rfl
  rw [hr, hm, hf]
  have hi := idxN
  have hv : toVec64 hpC.kind (.str "a") = some 0 := by decide +kernel
  have hs : (cond64 (.lit ⟨hpN, hpC, .bin .eq (.str "a") 0⟩)).satVec spN.idx vecN = true := by
    have : spN.idx hpC.name = 0 := idxN.1
    simp only [cond64, test64, hv, Option.getD_some, Cond.satVec, this]
    rfl
  have hp : spN.hp? "n" = some hpN := by decide +kernel
  have h1 : legalAt64 spN vecN "n" = true := by
    unfold legalAt64
    rw [hp, hi.2.2]
    exact decide_eq_true (C75_int_legal (by norm_num) (by norm_num) (by norm_num) (by norm_num) (by norm_num)).1
  unfold vecN at *
  simp only [checkConds64, hs, firstWith, Vec.at, isSet]
  simp [hi.1, hi.2.1, hi.2.2, h1]

end ExZ

/-- The example meets the hypotheses of `C103_created`. -/
example : rebuild64 ExZ.spZ ⟨[some (3 / 4), some 1], some [("f", .flt (3 / 4)), ("x", .str "w")], false⟩ =
    .ok ⟨[some (3 / 4), some 1], some [("f", .flt (3 / 4)), ("x", .str "w")], false⟩ :=
  C103_created ExZ.reachZ ExZ.keptZ ExZ.madeZ

/-- The example meets the hypotheses of `C103_drawn_partial`. -/
example : ∃ d c', dict64 ExZ.spN ⟨ExZ.vecN, none, false⟩ = .ok d ∧ ofValues64 ExZ.spN d = .ok c' ∧ dict64 ExZ.spN c' = .ok d ∧
    SameButFloats [ExZ.callN] ExZ.spN ExZ.vecN c'.vec :=
  C103_drawn_partial ExZ.reachN ExZ.keptN ExZ.smallN ExZ.freeN ExZ.drawnN ExZ.checkN

/-- **C103 is false of the code for drawn configurations in general.**  `x` is active if `f > 0.5`.  A drawn `f` can be the double after
one half: the configuration is valid, with `x` active.  Its dictionary says `f = 0.5` and `x = "u"`, since values are rounded to thirteen
decimals when they are read; a configuration made from it is refused, because `x` is inactive. -/
theorem C103_drawn_refused : ∃ (calls : List Call) (s : Space) (v : Vec), Reach calls s ∧ KeptBounds calls ∧ SmallInts calls ∧
    DrawnVector calls s v ∧ check64 s v = none ∧
    dict64 s ⟨v, none, false⟩ = .ok [("f", some (.flt (1 / 2))), ("x", some (.str "u"))] ∧
    rebuild64 s ⟨v, none, false⟩ = .error (.inactiveSet "x") := by
  refine ⟨[ExZ.callZ], ExZ.spZ, [some ExZ.q, some 0], ExZ.reachZ, ExZ.keptZ, ExZ.smallZ, ⟨by decide +kernel, ?_⟩, ExZ.checkZ, ExZ.dictZ, ?_⟩
  · intro h hh r hr
    rcases ExZ.mem hh with rfl | rfl
    · have : ExZ.spZ.idx ExZ.hpF.name = 0 := ExZ.idxZ.1
      rw [this] at hr
      cases hr
      refine ⟨?_, by norm_num [ExZ.q], by norm_num [ExZ.q]⟩
      rw [← ExZ.rdq]
      exact isF64_rd _
    · have : ExZ.spZ.idx ExZ.hpX.name = 1 := ExZ.idxZ.2
      rw [this] at hr
      cases hr
      exact ⟨0, by decide, by norm_num⟩
  · unfold rebuild64
    rw [ExZ.dictZ]
    exact ExZ.ofZ

example := C103_rounding_twice (x := 1) ⟨1, 0, by norm_num, by norm_num, by norm_num⟩

end Verif.Rebuild
