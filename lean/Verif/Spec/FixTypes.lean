import Verif.Spec.Valid
import Verif.Model.FixTypes

/-!
# Specification vocabulary: repairing the types of a dictionary
-/

set_option autoImplicit false

namespace Verif.Spec
open Verif

/-- Reading back the text of a number gives the number (a guarantee of Python). -/
structure RoundTrip (T : PyText) : Prop where
  float : ∀ q, T.parseFloat (T.strFloat q) = some q
  int : ∀ n : Int, T.parseInt (toString n) = some n

/-- The value is one that the hyperparameter hands out itself: one of the choices, or a number of the right type. -/
def Typed (h : HP) (w : Val) : Prop :=
  match h.kind with
  | .cat cs => w ∈ cs
  | .ord cs => w ∈ cs
  | .const c => w = c
  | .flt _ _ => ∃ q, w = .flt q
  | .int _ _ => ∃ n, w = .int n

/-- Different choices have different texts. -/
def TextApart (T : PyText) (h : HP) : Prop :=
  match h.kind with
  | .cat cs => ∀ a ∈ cs, ∀ b ∈ cs, T.str a = T.str b → a = b
  | .ord cs => ∀ a ∈ cs, ∀ b ∈ cs, T.str a = T.str b → a = b
  | _ => True

/-- The hyperparameter is not numeric, or from the uniform classes. -/
def Supported (uniform : Name → Bool) (h : HP) : Prop :=
  match h.kind with
  | .flt _ _ => uniform h.name = true
  | .int _ _ => uniform h.name = true
  | _ => True

/-- `w'` is the right value for the hyperparameter if `w` was found in the dictionary. -/
def Fixed (T : PyText) (h : HP) (w w' : Val) : Prop :=
  match h.kind with
  | .cat cs => w' ∈ cs ∧ T.str w' = T.str w ∧ ∀ c ∈ cs, T.str c = T.str w → c = w'
  | .ord cs => w' ∈ cs ∧ T.str w' = T.str w ∧ ∀ c ∈ cs, T.str c = T.str w → c = w'
  | .const c => w' = c ∧ T.str c = T.str w
  | .flt _ _ => ∃ q, T.float w = some q ∧ w' = .flt q
  | .int _ _ => ∃ n, T.int w = some n ∧ w' = .int n

/-- Some of the values of `d` have been replaced by their texts. -/
def Texted (T : PyText) (calls : List Call) (d d' : Dict) : Prop :=
  d'.map Prod.fst = d.map Prod.fst ∧
  ∀ n, d'.lookup n = d.lookup n ∨
    (Known calls n ∧ ∃ w, d.lookup n = some (some w) ∧ d'.lookup n = some (some (.str (T.str w))))

end Verif.Spec
