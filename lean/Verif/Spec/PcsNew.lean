import Verif.Spec.Valid
import Verif.Spec.Pcs
import Verif.Spec.FixTypes

/-!
# Specification vocabulary: spaces that can be written in the new pcs format
-/

set_option autoImplicit false

namespace Verif.Spec
open Verif

/-- Letters, digits and some signs.  The sign `&` is allowed in names by the format, but `&&` is also a connective. -/
def WordChar (c : Char) : Prop := c.isAlphanum = true ∨ c ∈ "_-@.:;\\/?!$%*+<>".toList

/-- A word: names and values in a file. -/
def Plain (t : List Char) : Prop := t ≠ [] ∧ ∀ c ∈ t, WordChar c

/-- At least one digit. -/
def Digits (t : List Char) : Prop := t ≠ [] ∧ ∀ c ∈ t, c.isDigit = true

/-- A number: an optional minus sign, digits, optionally a fraction, and optionally an exponent. -/
inductive NumberText : List Char → Prop where
  | mk (sign whole frac exp : List Char) : (sign = [] ∨ sign = ['-']) → Digits whole →
      (frac = [] ∨ ∃ ds, Digits ds ∧ frac = '.' :: ds) →
      (exp = [] ∨ ∃ sg ds, (sg = [] ∨ sg = ['-'] ∨ sg = ['+']) ∧ Digits ds ∧ exp = 'e' :: (sg ++ ds)) →
      NumberText (sign ++ whole ++ frac ++ exp)

/-- The texts of numbers: they can be read back (a guarantee of Python), and those of floats look like numbers (which excludes
infinities). -/
structure NumberTexts (T : PyText) : Prop extends RoundTrip T where
  shape : ∀ q, NumberText (T.strFloat q).toList

/-- A word in a clause: it is a number or does not begin like one. -/
def ClauseWord (t : List Char) : Prop :=
  NumberText t ∨ ∀ c, t.head? = some c → c.isDigit = false ∧ c ≠ '+' ∧ c ≠ '-' ∧ c ≠ '.'

/-- The hyperparameter can be written: its name is a word, the values of a categorical or ordinal one are words, and the word
`categorical` does not occur in the name or a value of an ordinal one. -/
def WritableHP (h : HP) : Prop :=
  Plain h.name.toList ∧
  match h.kind with
  | .cat cs => ∀ v ∈ cs, ∃ t, v = .str t ∧ Plain t.toList
  | .ord cs => (∀ v ∈ cs, ∃ t, v = .str t ∧ Plain t.toList ∧ ¬ "categorical".toList <:+: t.toList) ∧
      ¬ "categorical".toList <:+: h.name.toList
  | .const _ => False
  | _ => True

/-- The values of the test are of the type of the hyperparameter; at least two of them for `in`. -/
def WritableLit (l : Lit) : Prop :=
  match l.test with
  | .bin _ v _ => Typed l.parent v
  | .isIn vs _ => 2 ≤ vs.length ∧ ∀ v ∈ vs, Typed l.parent v

/-- A test, or a conjunction or disjunction of tests. -/
inductive WritableCond : Cond → Prop where
  | lit {l : Lit} : WritableLit l → WritableCond (.lit l)
  | and {cs : List Cond} : (∀ c ∈ cs, ∃ l, c = .lit l ∧ WritableLit l) → WritableCond (.and cs)
  | or {cs : List Cond} : (∀ c ∈ cs, ∃ l, c = .lit l ∧ WritableLit l) → WritableCond (.or cs)

/-- A value in a clause: of the type of the hyperparameter, and readable. -/
def WritableValue (T : PyText) (h : HP) (v : Val) : Prop := Typed h v ∧ ClauseWord (T.str v).toList

/-- Clauses without relations. -/
inductive WritableForb (T : PyText) : Forb → Prop where
  | eq {h : HP} {v : Val} {x : Rat} : WritableValue T h v → WritableForb T (.eq h v x)
  | isIn {h : HP} {vs : List Val} {xs : List Rat} : (∀ v ∈ vs, WritableValue T h v) → WritableForb T (.isIn h vs xs)
  | and {f : Forb} {fs : List Forb} : (∀ g ∈ f :: fs, WritableForb T g) → WritableForb T (.and (f :: fs))

/-- Everything in the space can be written. -/
structure Writable (T : PyText) (calls : List Call) : Prop where
  hps : ∀ h ∈ allHps calls, WritableHP h
  conds : ∀ c ∈ allConds calls, WritableCond c
  forbs : ∀ f ∈ allForbs calls, WritableForb T f

/-- No clause forbids that all hyperparameters, also the inactive ones, have their defaults. -/
def DefaultsAllowed (calls : List Call) : Prop :=
  ∀ a : Assign, (∀ h ∈ allHps calls, a h.name = h.kind.toVec h.default) → ∀ f ∈ allForbs calls, ¬ Forbids a f

end Verif.Spec
