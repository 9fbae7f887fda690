import Verif.Spec.Valid
import Verif.Model.F64Space

/-!
# Specification vocabulary: spaces for which double precision is enough

The numbers that a program writes down, the ranges that are small enough, and the two vectors, exact and in double
precision, of the same values.
-/

set_option autoImplicit false

namespace Verif.Spec
open Verif

/-- A number of at most 13 decimal places. -/
def Decimal (q : Rat) : Prop := ∃ d : Int, q = d / 10 ^ 13

/-- The bounds of integer ranges are below `2 ^ 49` in absolute value, those of float ranges are decimals and at most
32. -/
def Modest : Kind → Prop
  | .int l u => |l| < 2 ^ 49 ∧ |u| < 2 ^ 49
  | .flt l u => (|l| ≤ 32 ∧ Decimal l) ∧ (|u| ≤ 32 ∧ Decimal u)
  | _ => True

/-- A value as one writes it for a hyperparameter: an integer for an integer range, a number of at most 13 decimal places
for a float range. -/
def Written : Kind → Val → Prop
  | .int _ _, v => ∀ q, v.num? = some q → ∃ n : Int, v = .int n
  | .flt _ _, v => ∀ q, v.num? = some q → Decimal q
  | _, _ => True

/-- The values that a test compares with. -/
def testVals : Test → List Val
  | .bin _ v _ => [v]
  | .isIn vs _ => vs

mutual
/-- The values that a clause mentions, with their hyperparameters. -/
def clauseVals : Forb → List (HP × Val)
  | .eq h v _ => [(h, v)]
  | .isIn h vs _ => vs.map (fun v => (h, v))
  | .rel _ _ _ => []
  | .and cs => clauseValsL cs
def clauseValsL : List Forb → List (HP × Val)
  | [] => []
  | c :: cs => clauseVals c ++ clauseValsL cs
end

mutual
/-- The pairs of hyperparameters that a clause compares. -/
def relPairs : Forb → List (HP × HP)
  | .eq _ _ _ => []
  | .isIn _ _ _ => []
  | .rel _ l r => [(l, r)]
  | .and cs => relPairsL cs
def relPairsL : List Forb → List (HP × HP)
  | [] => []
  | c :: cs => relPairs c ++ relPairsL cs
end

/-- Spaces for which double precision is enough: modest ranges, conditions and clauses made of the hyperparameters of the
space with values as written, and float ranges are only compared with float ranges of the same bounds. -/
structure Precise (calls : List Call) : Prop where
  ranges : ∀ h ∈ allHps calls, Modest h.kind
  conds : ∀ c ∈ allConds calls, ∀ l ∈ c.dlcs, l.parent ∈ allHps calls ∧ ∀ w ∈ testVals l.test, Written l.parent.kind w
  clauses : ∀ f ∈ allForbs calls, (∀ h ∈ clauseHps f, h ∈ allHps calls) ∧ (∀ p ∈ clauseVals f, Written p.1.kind p.2)
  rels : ∀ f ∈ allForbs calls, ∀ p ∈ relPairs f,
    p.1.kind = p.2.kind ∨ ∀ lo hi, p.1.kind ≠ .flt lo hi ∧ p.2.kind ≠ .flt lo hi

/-- Values for some of the names. -/
abbrev NamedValues := Name → Option Val

/-- The values are legal, and as one writes them. -/
def GoodValues (calls : List Call) (a : NamedValues) : Prop :=
  ∀ h ∈ allHps calls, ∀ w, a h.name = some w → h.kind.legalValue w = true ∧ Written h.kind w

/-- `v` is the vector of the values `a`, computed exactly. -/
def ExactVector (calls : List Call) (s : Space) (a : NamedValues) (v : Vec) : Prop :=
  v.length = s.len ∧ ∀ h ∈ allHps calls, v.at (s.idx h.name) = (a h.name).bind h.kind.toVec

/-- `v` is the vector of the values `a`, computed in double precision. -/
def DoubleVector (calls : List Call) (s : Space) (a : NamedValues) (v : Vec) : Prop :=
  v.length = s.len ∧ ∀ h ∈ allHps calls, v.at (s.idx h.name) = (a h.name).bind (F64.toVec64 h.kind)

/-- The exact vector entries of the values. -/
def entriesOf (calls : List Call) (a : NamedValues) : Assign :=
  fun n => ((allHps calls).find? (fun h => h.name == n)).bind (fun h => (a n).bind h.kind.toVec)

/-- The dictionary has values as one writes them. -/
def WrittenDict (calls : List Call) (d : Dict) : Prop :=
  ∀ h ∈ allHps calls, ∀ w, d.lookup h.name = some (some w) → Written h.kind w

/-- What Python stores for the value: float hyperparameters hold doubles, all others what was written. -/
def asDouble (k : Kind) (w : Val) : Val :=
  if k.isFloat then match w.num? with
    | some q => .flt (F64.rd q)
    | none => w
  else w

/-- What a user does with a configuration. -/
inductive Step where
  /-- `config[n] = w` -/
  | set (n : Name) (w : Val)
  /-- `config[n]` -/
  | get (n : Name)

/-- What the user sees: the exception of an assignment, or what was read. -/
inductive Seen where
  | done (e : Option Err)
  | read (n : Name) (r : Except Err Val)
deriving DecidableEq

/-- What a user sees in a session of reading and assigning, given the two operations. -/
def session (set : Config → Name → Val → Config × Option Err) (get : Config → Name → Except Err Val × Config) :
    Config → List Step → List Seen
  | _, [] => []
  | c, .set n w :: rest => .done (set c n w).2 :: session set get (set c n w).1 rest
  | c, .get n :: rest => .read n (get c n).1 :: session set get (get c n).2 rest

/-- A session in exact arithmetic that starts with `Configuration(space, values=d)`. -/
def exactSession (s : Space) (d : Dict) (allow : Bool) (steps : List Step) : Except Err (List Seen) :=
  (Config.ofValues s d allow).map (fun c => session (fun c => c.setItem s) (fun c => c.getItem s) c steps)

/-- A session in double precision that starts with `Configuration(space, values=d)`. -/
def doubleSession (s : Space) (d : Dict) (allow : Bool) (steps : List Step) : Except Err (List Seen) :=
  (F64.ofValues64 s d allow).map (fun c => session (F64.setItem64 s) (F64.getItem64 s) c steps)

/-- What is seen in double precision instead: the values that are read are doubles. -/
def Seen.double (calls : List Call) : Seen → Seen → Prop
  | .done e, .done e' => e' = e
  | .read n (.error e), .read n' (.error e') => n' = n ∧ e' = e
  | .read n (.ok w), .read n' (.ok w') => n' = n ∧ ∃ h ∈ allHps calls, h.name = n ∧ w' = asDouble h.kind w
  | _, _ => False

/-- The values that are assigned are as one writes them. -/
def WrittenSteps (calls : List Call) (steps : List Step) : Prop :=
  ∀ n w, Step.set n w ∈ steps → ∀ h ∈ allHps calls, h.name = n → Written h.kind w

end Verif.Spec
