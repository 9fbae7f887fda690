import Verif.Model.Subst

/-!
# What is printed for a space

`str` of hyperparameters and `repr` of a space.  The text of a single value (`str(value)`) is a parameter.
-/

set_option autoImplicit false

namespace Verif

/-- `", ".join(...)`, `"\n    ".join(...)`. -/
def joinTexts (sep : String) : List String → String
  | [] => ""
  | [t] => t
  | t :: u :: ts => t ++ sep ++ joinTexts sep (u :: ts)

/-- `str(hyperparameter)` (hyperparameters/categorical.py:412-422, ordinal.py:168-175, constant.py:98-105,
uniform_integer.py:165-175, uniform_float.py:146-156).  `str` is the text of a value.  Simplification: without weights and
without logarithmic scales, which only append one more part. -/
def HP.print (str : Val → String) (h : HP) : String :=
  joinTexts ", " (match h.kind with
    | .cat cs => [h.name, "Type: Categorical", "Choices: {" ++ joinTexts ", " (cs.map str) ++ "}", "Default: " ++ str h.default]
    | .ord cs => [h.name, "Type: Ordinal", "Sequence: {" ++ joinTexts ", " (cs.map str) ++ "}", "Default: " ++ str h.default]
    | .const v => [h.name, "Type: Constant", "Value: " ++ str v]
    | .int l u => [h.name, "Type: UniformInteger", "Range: [" ++ str (.int l) ++ ", " ++ str (.int u) ++ "]",
        "Default: " ++ str h.default]
    | .flt l u => [h.name, "Type: UniformFloat", "Range: [" ++ str (.flt l) ++ ", " ++ str (.flt u) ++ "]",
        "Default: " ++ str h.default])

/-- `sorted(self.values(), key=lambda t: t.name)` (configuration_space.py:845). -/
def printedHps (s : Space) : List HP := sortBy (fun a b => decide (a.name ≤ b.name)) (s.com.map Node.hp)

/-- `sorted(self.conditions, key=lambda t: str(t))` (configuration_space.py:855). -/
def printedConds (s : Space) : List Cond := sortBy (fun a b => decide (a.render ≤ b.render)) s.conditions

/-- One part of the text: its title, four blanks and the lines joined by a line break and four blanks
(configuration_space.py:846-853, 856-860, 862-868); nothing if there are no lines. -/
def printPart (title : String) (ts : List String) : String :=
  if ts.isEmpty then "" else title ++ "    " ++ joinTexts "\n    " ts ++ "\n"

/-- `repr(space)` (configuration_space.py:837-871).  `name` is the name of the space.  The texts of conditions and clauses
are those of `Cond.render` and `Forb.render`. -/
def Space.print (str : Val → String) (name : Option String) (s : Space) : String :=
  "Configuration space object:\n  Hyperparameters:\n" ++ (match name with | some n => n ++ "\n" | none => "") ++
    printPart "" ((printedHps s).map (HP.print str)) ++
    printPart "  Conditions:\n" ((printedConds s).map Cond.render) ++
    printPart "  Forbidden Clauses:\n" (s.forbs.map Forb.render)

end Verif
