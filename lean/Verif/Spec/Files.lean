import Verif.Model.Serial

/-!
# Specification for files: equal dictionaries, and which clauses have a collection of values
-/

set_option autoImplicit false

namespace Verif.Spec

/-- Python's `==` between two pieces of JSON data: the same value; or lists that are equal place by place; or dictionaries with
the same keys, in any order, that are equal key by key. -/
inductive SameData : Json → Json → Prop
  | null : SameData .null .null
  | bool (b : Bool) : SameData (.bool b) (.bool b)
  | val (v : Val) : SameData (.val v) (.val v)
  | arr {xs ys : List Json} (len : xs.length = ys.length)
      (items : ∀ (i : Nat) a b, xs[i]? = some a → ys[i]? = some b → SameData a b) : SameData (.arr xs) (.arr ys)
  | obj {fs gs : List (String × Json)} (keys : ∀ k, (∃ a, fs.lookup k = some a) ↔ ∃ b, gs.lookup k = some b)
      (fields : ∀ k a b, fs.lookup k = some a → gs.lookup k = some b → SameData a b) : SameData (.obj fs) (.obj gs)

/-- A clause with an in-clause in it, at any depth. -/
inductive ContainsIn : Forb → Prop
  | here (h : HP) (vs : List Val) (xs : List Rat) : ContainsIn (.isIn h vs xs)
  | inside {fs : List Forb} {f : Forb} (hf : f ∈ fs) (h : ContainsIn f) : ContainsIn (.and fs)

end Verif.Spec
