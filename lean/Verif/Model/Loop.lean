import Verif.Model.Config

/-!
# A loop over a configuration that assigns to it

`for name in config: config[name] = ...`.  The generator `Configuration.__iter__` looks at the array of the configuration each time it
continues, so it sees what the body of the loop has done.
-/

set_option autoImplicit false

namespace Verif.Loop

/-- `for n in config:` (configuration.py:263-267) over the remaining names.  The body is the function `f`: for the name and the configuration
as it is then, it assigns nothing, or a value to some name (configuration.py:186-210).  An exception ends the loop; a body that catches it is
a body that assigns nothing then, because the configuration is unchanged.  What
the body reads changes only the cache of values (configuration.py:212-240), which neither the loop nor an assignment looks at.  The result: the names that were visited, the configuration
afterwards, and the exception. -/
def loopFrom (s : Space) (f : Name → Config → Option (Name × Val)) : List Name → Config → List Name × Config × Option Err
  | [], c => ([], c, none)
  | n :: ns, c =>
    if isSet (c.vec.at (s.idx n)) then
      match f n c with
      | none => (n :: (loopFrom s f ns c).1, (loopFrom s f ns c).2)
      | some (m, w) => match c.setItem s m w with
        | (c', some e) => ([n], c', some e)
        | (c', none) => (n :: (loopFrom s f ns c').1, (loopFrom s f ns c').2)
    else loopFrom s f ns c

/-- The whole loop; the space does not change meanwhile (configuration_space.py:876-878). -/
def loop (s : Space) (f : Name → Config → Option (Name × Val)) (c : Config) : List Name × Config × Option Err :=
  loopFrom s f s.names c

/-- `for n in list(config): config[n] = g(n)`: the names are collected before the loop. -/
def snapshot (s : Space) (g : Name → Val) : List Name → Config → Config × Option Err
  | [], c => (c, none)
  | n :: ns, c => match c.setItem s n (g n) with
    | (c', some e) => (c', some e)
    | (c', none) => snapshot s g ns c'

/-- `for n, w in d.items(): config[n] = w` (configuration.py:186-210). -/
def assignAll (s : Space) : Config → List (Name × Val) → Config × Option Err
  | c, [] => (c, none)
  | c, (n, w) :: l => match c.setItem s n w with
    | (c', some e) => (c', some e)
    | (c', none) => assignAll s c' l

end Verif.Loop
