import Verif.Model.Grown
import Verif.Props.Config
import Verif.Props.Graph
import Verif.Examples

/-!
# C87: configurations of a space that grows
-/

set_option autoImplicit false

namespace Verif

open Verif.Spec

variable {calls more : List Call} {s s' : Space}

private theorem iterFrom_ok (c : Config) : ∀ ns : List Name, (∀ n ∈ ns, s.idx n < c.vec.length) →
    c.iterFrom s ns = .ok (ns.filter (fun n => isSet (c.vec.at (s.idx n)))) := by
  intro ns
  induction ns with
  | nil => intro _; rfl
  | cons n ns ih =>
    intro h
    unfold Config.iterFrom
    rw [if_pos (h n List.mem_cons_self), ih (fun m hm => h m (List.mem_cons_of_mem _ hm))]
    show Except.ok (if isSet (c.vec.at (s.idx n)) then _ else _) = _
    by_cases hs : isSet (c.vec.at (s.idx n)) = true
    · rw [if_pos hs, List.filter_cons_of_pos (p := fun n => isSet (c.vec.at (s.idx n))) hs]
    · rw [if_neg hs, List.filter_cons_of_neg (p := fun n => isSet (c.vec.at (s.idx n))) hs]

private theorem iterFrom_raises (c : Config) : ∀ ns : List Name, (∃ n ∈ ns, c.vec.length ≤ s.idx n) →
    c.iterFrom s ns = .error .indexError := by
  intro ns
  induction ns with
  | nil => rintro ⟨n, hn, _⟩; cases hn
  | cons n ns ih =>
    rintro ⟨m, hm, hl⟩
    unfold Config.iterFrom
    by_cases h : s.idx n < c.vec.length
    · rw [if_pos h]
      rcases List.mem_cons.1 hm with rfl | hm
      · omega
      · rw [ih ⟨m, hm, hl⟩]; rfl
    · rw [if_neg h]

/-- As long as the space has not changed, iterating and reading never raise IndexError: `iter` and `read` are the functions of C24. -/
theorem C87_unchanged_space (h : Reach calls s) {c : Config} (hc : CfgReach s c) :
    c.iter s = .ok (c.keys s) ∧ ∀ n, c.read s n = (c.getItem s n).1 := by
  have hl := (cacheOk h hc).len
  refine ⟨iterFrom_ok c s.names (fun n hn => by rw [hl]; exact idx_lt h hn), fun n => ?_⟩
  unfold Config.read
  cases he : (c.vals.getD []).lookup n with
  | some w => unfold Config.getItem; rw [he]
  | none =>
    dsimp only
    rw [if_neg]
    rintro ⟨h1, h2⟩
    have := idx_lt h h1
    omega

/-- **C87, values that were given.** The values from which a configuration was made can be read from it whatever is added to the
space later. -/
theorem C87_given_values_stay (h : Reach calls s) {d : Dict} {al : Bool} {c : Config}
    (hc : Config.ofValues s d al = .ok c) {x : HP} (hx : x ∈ allHps calls) {w : Val} (hd : d.lookup x.name = some (some w))
    (s' : Space) : c.read s' x.name = .ok (roundVal x.kind w) := by
  obtain ⟨_, _, _, _, vals, h5, _, h7⟩ := ofValues_ok h hc
  obtain ⟨y, hy, rfl⟩ := node_of_hp h hx
  have : vals.lookup y.name = some (roundVal y.hp.kind w) := by
    rcases h7 y hy with ⟨w', q, e1, _, _, _, e5⟩ | ⟨e1, _, _⟩
    · have e1' : d.lookup y.hp.name = some (some w') := e1
      rw [hd] at e1'; cases e1'; exact e5
    · have e1' : d.lookup y.hp.name = none ∨ d.lookup y.hp.name = some none := e1
      rcases e1' with e1' | e1' <;> rw [hd] at e1' <;> cases e1'
  unfold Config.read
  rw [h5]
  show (match vals.lookup y.name with | some w => _ | none => _) = _
  rw [this]

/-- **C87, values that were read.** A value that has been read from a configuration can be read again whatever is added to the space
later. -/
theorem C87_read_values_stay {c : Config} {n : Name} {w : Val} (hr : (c.getItem s n).1 = .ok w) (s' : Space) :
    (c.getItem s n).2.read s' n = .ok w := by
  have key : ((c.getItem s n).2.vals.getD []).lookup n = some w := by
    unfold Config.getItem at hr ⊢
    cases he : (c.vals.getD []).lookup n with
    | some v => rw [he] at hr; dsimp only at hr ⊢; rw [he]; cases hr; rfl
    | none =>
      rw [he] at hr
      dsimp only at hr ⊢
      cases hf : findNode s.dag.nodes n with
      | none => rw [hf] at hr; cases hr
      | some x =>
        rw [hf] at hr
        dsimp only at hr ⊢
        cases hv : c.vec.at (s.idx n) with
        | none => rw [hv] at hr; cases hr
        | some q =>
          rw [hv] at hr
          dsimp only at hr ⊢
          cases ht : x.hp.kind.toVal q with
          | none => rw [ht] at hr; cases hr
          | some u =>
            rw [ht] at hr
            cases hr
            show (dictSet (c.vals.getD []) n (roundVal x.hp.kind u)).lookup n = _
            rw [dictSet_lookup, if_pos rfl]
  unfold Config.read
  rw [key]

/-- **C87, partial.** Whatever has been added: the value of a hyperparameter whose position is still the same is still read. -/
theorem C87_same_position_partial (h : Reach calls s) (h' : Reach (calls ++ more) s') {c : Config} (hc : CfgReach s c)
    {n : Name} (hn : n ∈ s.names) (hp : s'.idx n = s.idx n) : c.read s' n = (c.getItem s n).1 := by
  have hk := cacheOk h hc
  unfold Config.read Config.getItem
  cases he : (c.vals.getD []).lookup n with
  | some w => rfl
  | none =>
    dsimp only
    have hlt := idx_lt h hn
    rw [if_neg (by rw [hp, hk.len]; omega), hp]
    obtain ⟨x, hx, rfl⟩ := List.mem_map.1 hn
    have hh : x.hp ∈ allHps (calls ++ more) := by
      unfold allHps; rw [List.flatMap_append]; exact List.mem_append_left _ (node_hp h hx)
    have e1 : findNode s.dag.nodes x.name = some x := by
      rw [(sinv_of_reach h).com]; exact findNode_of_mem (reach_ninv h).nodup hx
    obtain ⟨y, hy, hyx⟩ := node_of_hp h' hh
    have e2 : findNode s'.dag.nodes x.name = some y := by
      have hyn : y.name = x.name := by show y.hp.name = x.hp.name; rw [hyx]
      rw [(sinv_of_reach h').com, ← hyn]; exact findNode_of_mem (reach_ninv h').nodup hy
    rw [e1, e2]
    dsimp only
    rw [hyx]

/-- **C87, false of the code.** After any calls that add a hyperparameter, iterating over any configuration made before, and so
`dict(config)` or comparing it, raises IndexError. -/
theorem C87_iteration_raises (h : Reach calls s) (h' : Reach (calls ++ more) s') (hk : allHps more ≠ [])
    {c : Config} (hc : CfgReach s c) : c.iter s' = .error .indexError := by
  have hl := (cacheOk h hc).len
  obtain ⟨_, _, a3, a4, _, _⟩ := C02_names_index_bijection h
  obtain ⟨_, _, b3, b4, _, b6⟩ := C02_names_index_bijection h'
  have hlen : s.len < s'.names.length := by
    rw [a4, a3, b3]
    unfold allHps
    rw [List.flatMap_append, List.length_append]
    have : 0 < (more.flatMap Call.hps).length := List.length_pos_iff.2 hk
    omega
  refine iterFrom_raises c s'.names ⟨s'.names[s.len], List.getElem_mem _, ?_⟩
  rw [b6 s.len _ (List.getElem?_eq_getElem hlen), hl]

/-- Two hyperparameters without conditions, and a condition that is added later: `a | b == "v"`. -/
def ExH.hpA : HP := ⟨"a", .cat [.str "p", .str "q"], .str "p"⟩
def ExH.hpB : HP := ⟨"b", .cat [.str "u", .str "v"], .str "u"⟩
def ExH.condA : Cond := .lit ⟨ExH.hpA, ExH.hpB, .bin .eq (.str "v") 1⟩
def ExH.call1 : Call := ⟨[ExH.hpA, ExH.hpB], [], []⟩
def ExH.call2 : Call := ⟨[], [ExH.condA], []⟩
def ExH.sp1 : Space := Ex.committed {} ExH.call1
def ExH.sp2 : Space := Ex.committed ExH.sp1 ExH.call2

theorem ExH.reach1 : Reach [ExH.call1] ExH.sp1 :=
  Reach.snoc (calls := []) .nil (by decide +kernel)
    (Ex.add_of_stages [("a", some (.str "p")), ("b", some (.str "u"))] [some 0, some 0] [("a", .str "p"), ("b", .str "u")]
      (by decide +kernel) (by decide +kernel) (by decide +kernel) (by decide +kernel) (by decide +kernel) (by decide +kernel))

theorem ExH.reach2 : Reach [ExH.call1, ExH.call2] ExH.sp2 :=
  Reach.snoc (calls := [ExH.call1]) ExH.reach1 (by decide +kernel)
    (Ex.add_of_stages [("b", some (.str "u")), ("a", none)] [some 0, none] [("b", .str "u")]
      (by decide +kernel) (by decide +kernel) (by decide +kernel) (by decide +kernel) (by decide +kernel) (by decide +kernel))

/-- The same hyperparameters added one after the other. -/
def ExH.call0 : Call := ⟨[ExH.hpA], [], []⟩
def ExH.call3 : Call := ⟨[ExH.hpB], [], []⟩
def ExH.sp0 : Space := Ex.committed {} ExH.call0
def ExH.sp3 : Space := Ex.committed ExH.sp0 ExH.call3

theorem ExH.reach0 : Reach [ExH.call0] ExH.sp0 :=
  Reach.snoc (calls := []) .nil (by decide +kernel)
    (Ex.add_of_stages [("a", some (.str "p"))] [some 0] [("a", .str "p")]
      (by decide +kernel) (by decide +kernel) (by decide +kernel) (by decide +kernel) (by decide +kernel) (by decide +kernel))

theorem ExH.reach3 : Reach [ExH.call0, ExH.call3] ExH.sp3 :=
  Reach.snoc (calls := [ExH.call0]) ExH.reach0 (by decide +kernel)
    (Ex.add_of_stages [("a", some (.str "p")), ("b", some (.str "u"))] [some 0, some 0] [("a", .str "p"), ("b", .str "u")]
      (by decide +kernel) (by decide +kernel) (by decide +kernel) (by decide +kernel) (by decide +kernel) (by decide +kernel))

/-- A case of `C87_iteration_raises`. -/
example : ∃ c : Config, CfgReach ExH.sp0 c ∧ c.vec = [some 1] ∧ c.iter ExH.sp3 = .error .indexError :=
  have hc : CfgReach ExH.sp0 { vec := [some 1] } := .vector (v := [some 1]) (al := false) (by rfl)
  ⟨_, hc, rfl, C87_iteration_raises (more := [ExH.call3]) ExH.reach0 ExH.reach3 (by decide) hc⟩

/-- **C87, false of the code.** A call that adds a condition may exchange the values of a configuration made before: it was made with
a = q and b = u, now a = p and b = v are read from it, and it passes the validation of the grown space. -/
theorem C87_values_exchanged :
    ∃ (calls : List Call) (k : Call) (s s' : Space) (c : Config), Reach calls s ∧ Reach (calls ++ [k]) s' ∧ k.hps = [] ∧
      CfgReach s c ∧ s.check c.vec = none
      ∧ c.read s "a" = .ok (.str "q") ∧ c.read s "b" = .ok (.str "u")
      ∧ c.read s' "a" = .ok (.str "p") ∧ c.read s' "b" = .ok (.str "v") ∧ s'.check c.vec = none :=
  ⟨[ExH.call1], ExH.call2, ExH.sp1, ExH.sp2, { vec := [some 1, some 0] }, ExH.reach1, ExH.reach2, rfl,
    .vector (v := [some 1, some 0]) (al := false) (by rfl), by decide +kernel, by decide +kernel, by decide +kernel, by decide +kernel, by decide +kernel, by decide +kernel⟩

/-- A case of `C87_same_position_partial`: a clause is added, the positions stay (`Ex.sp1`, `Ex.sp2`). -/
example : Ex.sp2.idx "x" = Ex.sp1.idx "x" ∧ "x" ∈ Ex.sp1.names := by decide +kernel

/-- The configuration with `k = 3.0` was made before the clause was added; everything can be read from it as before. -/
example : Ex.cfgA.read Ex.sp2 "o" = (Ex.cfgA.getItem Ex.sp1 "o").1 :=
  C87_same_position_partial (more := [Ex.call2]) Ex.reach1 Ex.reach2 (.values Ex.cfgA_eq) (by decide +kernel) (by decide +kernel)

example : Ex.cfgA.read Ex.sp2 "k" = .ok (.flt 3) :=
  C87_given_values_stay Ex.reach1 Ex.cfgA_eq (x := Ex.hpK) (by simp [allHps, Ex.call1]) (w := .flt 3) (by decide +kernel) Ex.sp2

example : Ex.cfgA.iter Ex.sp1 = .ok (Ex.cfgA.keys Ex.sp1) := (C87_unchanged_space Ex.reach1 (.values Ex.cfgA_eq)).1

example : (Ex.cfgA.getItem Ex.sp1 "o").2.read Ex.sp2 "o" = .ok (.str "lo") := C87_read_values_stay (by decide +kernel) Ex.sp2

end Verif
