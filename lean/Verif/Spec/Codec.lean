import Verif.Model.Codec
import Verif.Spec.Subst

/-!
# Specification vocabulary: encoders and decoders that belong together
-/

set_option autoImplicit false

namespace Verif.Spec
open Verif

/-- The decoder undoes the encoder, for all items of the class `k` that can occur in a space, if the items inside are decoded correctly.
The encoder does not use the key `type`. -/
def Inverse {Ty Item : Type} (typeOf : Item → Ty) (parts : Item → List Item) (Legal : Space → Item → Prop) (k : Ty)
    (e : Encoder Item) (d : Decoder Item) : Prop :=
  ∀ calls s x encode decode, Reach calls s → typeOf x = k → Legal s x →
    (∀ y ∈ parts x, ∃ j, encode y = .ok j ∧ decode j = .ok y) →
    ∃ fs : Fields, e x encode = .ok fs ∧ fs.lookup "type" = none ∧ d s fs decode = .ok x

/-- Whenever the encoder of a class or the decoder of the name under which it is encoded is the user's, the two belong together. -/
def Matched {Ty Item : Type} [DecidableEq Ty] (typeOf : Item → Ty) (parts : Item → List Item) (Legal : Space → Item → Prop)
    (base : List (Ty × String × Encoder Item)) (dbase : List (String × Decoder Item))
    (user : List (Ty × String × Encoder Item)) (duser : List (String × Decoder Item)) : Prop :=
  ∀ k tag e, dictGet (dictMerge base user) k = some (tag, e) → (k ∈ user.map Prod.fst ∨ tag ∈ duser.map Prod.fst) →
    ∃ d, dictGet (dictMerge dbase duser) tag = some d ∧ Inverse typeOf parts Legal k e d

/-- The conditions inside of a condition. -/
def condParts : Cond → List Cond
  | .lit _ => []
  | .and cs => cs
  | .or cs => cs

/-- The clauses inside of a clause. -/
def forbParts : Forb → List Forb
  | .and fs => fs
  | _ => []

/-- A valid hyperparameter with weights that it may have. -/
def LegalHP (x : HP × Option (List Rat)) : Prop :=
  x.1.wf = true ∧ (∀ cs, x.1.kind = .cat cs → badWeights cs x.2 = false) ∧ ((∀ cs, x.1.kind ≠ .cat cs) → x.2 = none)

/-- The user's encoders and decoders belong together. -/
structure GoodCodecs (u : Codecs) : Prop where
  hps : Matched hpTy (fun _ => []) (fun _ => LegalHP) hpEncoders hpDecoders u.hpE u.hpD
  conds : Matched condTy condParts (fun s c => c.wf = true ∧ CondIn s c) condEncoders condDecoders u.condE u.condD
  forbs : Matched forbTy forbParts (fun s f => f.wf = true ∧ ForbIn s f) forbEncoders forbDecoders u.forbE u.forbD

end Verif.Spec
