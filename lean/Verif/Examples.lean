import Verif.Model.Space

/-!
# Concrete spaces, used to show that the hypotheses of the theorems are met
-/

set_option autoImplicit false

namespace Verif.Ex
open Verif

instance (c : Call) : Decidable c.wf := by unfold Call.wf; infer_instance

/-- The state after the transaction and the commit, with the new length. -/
def committed (s : Space) (c : Call) : Space :=
  let s' := (s.commit (s.dag.addAll c.hps c.conds c.forbs).1).1
  { s' with len := s'.dag.nodes.length }

/-- A call of `add` succeeds if its stages do; `d`, `v`, `vals` are the default configuration.  Only
used to evaluate examples stage by stage. -/
theorem add_of_stages {s : Space} {c : Call} (d : Dict) (v : Vec) (vals : List (Name × Val))
    (h1 : (s.dag.addAll c.hps c.conds c.forbs).2 = none)
    (h2 : (s.commit (s.dag.addAll c.hps c.conds c.forbs).1).2 = none)
    (h3 : (defaultValues (committed s c).dag.nodes []).toOption = some d)
    (h4 : d.any (fun kv => decide (kv.1 ∉ (committed s c).dag.nodes.map Node.name) && kv.1 != "")
      = false)
    (h5 : (fillValues (committed s c) d (committed s c).dag.nodes
      (List.replicate (committed s c).len none) []).toOption = some (v, vals))
    (h6 : (committed s c).check v = none) :
    s.add c.hps c.conds c.forbs = (committed s c, none) := by
  unfold Space.add
  cases e1 : s.dag.addAll c.hps c.conds c.forbs with
  | mk g e =>
    rw [e1] at h1 h2
    simp only at h1 h2
    subst h1
    simp only
    cases e2 : s.commit g with
    | mk s1 e =>
      rw [e2] at h2
      simp only at h2
      subst h2
      simp only
      have hc : committed s c = { s1 with len := s1.dag.nodes.length } := by
        simp [committed, e1, e2]
      rw [hc] at h3 h4 h5 h6 ⊢
      have : ({ s1 with len := s1.dag.nodes.length } : Space).defaultConfig
          = .ok { vec := v, vals := some vals } := by
        unfold Space.defaultConfig
        cases e3 : defaultValues s1.dag.nodes [] with
        | error e => simp [e3, Except.toOption] at h3
        | ok d' =>
          simp only [e3, Except.toOption, Option.some.injEq] at h3
          subst h3
          simp only [Config.ofValues]
          rw [if_neg (by simpa using h4)]
          cases e4 : fillValues { s1 with len := s1.dag.nodes.length } d' s1.dag.nodes
              (List.replicate s1.dag.nodes.length none) [] with
          | error e => simp [e4, Except.toOption] at h5
          | ok r =>
            simp only [e4, Except.toOption, Option.some.injEq] at h5
            subst h5
            simp only
            rw [h6]
      rw [this]

/-- `Configuration(space, values=d)`, stage by stage.  Only used to evaluate examples. -/
theorem ofValues_stages {s : Space} {d : Dict} {al : Bool} (v : Vec) (vals : List (Name × Val))
    (h4 : d.any (fun kv => decide (kv.1 ∉ s.dag.nodes.map Node.name) && kv.1 != "") = false)
    (h5 : (fillValues s d s.dag.nodes (List.replicate s.len none) []).toOption = some (v, vals))
    (h6 : s.check v al = none) : Config.ofValues s d al = .ok ⟨v, some vals, al⟩ := by
  unfold Config.ofValues
  rw [if_neg (by rw [h4]; simp)]
  cases e4 : fillValues s d s.dag.nodes (List.replicate s.len none) [] with
  | error e => simp [e4, Except.toOption] at h5
  | ok r =>
    simp only [e4, Except.toOption, Option.some.injEq] at h5
    subst h5
    simp only
    rw [h6]

/-- Categorical with choices `"a"`, `"b"`. -/
def hpAlg : HP := ⟨"alg", .cat [.str "a", .str "b"], .str "a"⟩
/-- Integer in `1..10`. -/
def hpK : HP := ⟨"k", .int 1 10, .int 3⟩
/-- Float in `[0, 2]`. -/
def hpX : HP := ⟨"x", .flt 0 2, .flt 1⟩
/-- Ordinal. -/
def hpO : HP := ⟨"o", .ord [.str "lo", .str "mid", .str "hi"], .str "mid"⟩
/-- Constant. -/
def hpC : HP := ⟨"c", .const (.int 7), .int 7⟩

/-- `k | alg == "a"` -/
def litK : Lit := ⟨hpK, hpAlg, .bin .eq (.str "a") 0⟩
/-- `x | k > 2` (the vector value of 2 in `1..10` is `1/9`) -/
def litX : Lit := ⟨hpX, hpK, .bin .gt (.int 2) (1/9)⟩
/-- `x | alg == "a"` -/
def litX' : Lit := ⟨hpX, hpAlg, .bin .eq (.str "a") 0⟩
/-- `o | alg in ["a", "b"]` -/
def litO : Lit := ⟨hpO, hpAlg, .isIn [.str "a", .str "b"] [0, 1]⟩

def condK : Cond := .lit litK
def condX : Cond := .and [.lit litX, .lit litX']
def condO : Cond := .lit litO

/-- not (alg == "b" and o == "hi") -/
def forb1 : Forb := .and [.eq hpAlg (.str "b") 1, .eq hpO (.str "hi") 2]
/-- not (alg == "b" and o == "lo") -/
def forb2 : Forb := .and [.eq hpAlg (.str "b") 1, .eq hpO (.str "lo") 0]
/-- not (alg == "b" and c == 7) -/
def forb3 : Forb := .and [.eq hpAlg (.str "b") 1, .eq hpC (.int 7) 1]

/-- Everything in one call; `x` comes first although it is the deepest. -/
def call1 : Call := ⟨[hpX, hpK, hpO, hpAlg, hpC], [condX, condK, condO], [forb1, forb2]⟩
/-- A later call with one more clause. -/
def call2 : Call := ⟨[], [], [forb3]⟩

/-- The space after `call1`. -/
def sp1 : Space := committed {} call1
/-- The space after `call1` and `call2`. -/
def sp2 : Space := committed sp1 call2

/-- Default values of `sp1`. -/
def dd1 : Dict := [("alg", some (.str "a")), ("c", some (.int 7)), ("k", some (.int 3)),
  ("o", some (.str "mid")), ("x", some (.flt 1))]
def vv1 : Vec := [some 0, some 1, some (2/9), some 1, some (1/2)]
def ww1 : List (Name × Val) := [("alg", .str "a"), ("c", .int 7), ("k", .int 3), ("o", .str "mid"),
  ("x", .flt 1)]

theorem add1 : ({} : Space).add call1.hps call1.conds call1.forbs = (sp1, none) :=
  add_of_stages dd1 vv1 ww1 (by decide +kernel) (by decide +kernel) (by decide +kernel)
    (by decide +kernel) (by decide +kernel) (by decide +kernel)

theorem reach1 : Reach [call1] sp1 := Reach.snoc (calls := []) .nil (by decide +kernel) add1

theorem add2 : sp1.add call2.hps call2.conds call2.forbs = (sp2, none) :=
  add_of_stages dd1 vv1 ww1 (by decide +kernel) (by decide +kernel) (by decide +kernel)
    (by decide +kernel) (by decide +kernel) (by decide +kernel)

theorem reach2 : Reach [call1, call2] sp2 :=
  Reach.snoc (calls := [call1]) reach1 (by decide +kernel) add2

/-- The same things added in another order and in several calls. -/
def call1a : Call := ⟨[hpAlg, hpC], [], []⟩
def call1b : Call := ⟨[hpO, hpK], [condO], [forb2]⟩
def call1c : Call := ⟨[hpX], [condK, condX], [forb1]⟩

def sp1a : Space := committed {} call1a
def sp1b : Space := committed sp1a call1b
def sp1c : Space := committed sp1b call1c

theorem reach1a : Reach [call1a] sp1a :=
  Reach.snoc (calls := []) .nil (by decide +kernel)
    (add_of_stages [("alg", some (.str "a")), ("c", some (.int 7))] [some 0, some 1]
      [("alg", .str "a"), ("c", .int 7)]
      (by decide +kernel) (by decide +kernel) (by decide +kernel)
      (by decide +kernel) (by decide +kernel) (by decide +kernel))
theorem reach1b : Reach [call1a, call1b] sp1b :=
  Reach.snoc (calls := [call1a]) reach1a (by decide +kernel)
    (add_of_stages
      [("alg", some (.str "a")), ("c", some (.int 7)), ("k", some (.int 3)), ("o", some (.str "mid"))]
      [some 0, some 1, some (2/9), some 1]
      [("alg", .str "a"), ("c", .int 7), ("k", .int 3), ("o", .str "mid")]
      (by decide +kernel) (by decide +kernel) (by decide +kernel)
      (by decide +kernel) (by decide +kernel) (by decide +kernel))
theorem add1c : sp1b.add call1c.hps call1c.conds call1c.forbs = (sp1c, none) :=
  add_of_stages dd1 vv1 ww1 (by decide +kernel) (by decide +kernel) (by decide +kernel)
    (by decide +kernel) (by decide +kernel) (by decide +kernel)
theorem reach1c : Reach [call1a, call1b, call1c] sp1c :=
  Reach.snoc (calls := [call1a, call1b]) reach1b (by decide +kernel) add1c

end Verif.Ex
