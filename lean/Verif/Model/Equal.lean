import Verif.Model.Config
import Verif.Model.Construct

/-!
# Equality and hash of configurations

Both configurations belong to the same space, so that `self.config_space == other.config_space` is true.  The hash is
the hash of a string; it is modelled by this string.
-/

set_option autoImplicit false

namespace Verif

/-- `dict(self)` (configuration.py:244, 251): the names in the order of the space, with their values.  The reads fill
the cache with values that would be computed again anyway, so the cache is not threaded through. -/
def Config.dict (s : Space) (c : Config) : Except Err (List (Name × Val)) :=
  mapExcept (fun n => match (c.getItem s n).1 with
    | .ok w => .ok (n, w)
    | .error e => .error e) (c.keys s)

/-- `==` of dictionaries: equally many keys, and every key is in the other one with an equal value. -/
def dictEq (d e : List (Name × Val)) : Bool :=
  d.length == e.length && d.all (fun kv => match e.lookup kv.1 with
    | some w => kv.2.pyEq w
    | none => false)

/-- `Configuration.__eq__` (configuration.py:242-245), for two configurations of one space. -/
def Config.eq (s : Space) (c c' : Config) : Except Err Bool :=
  match c.dict s with
  | .error e => .error e
  | .ok d => match c'.dict s with
    | .error e => .error e
    | .ok d' => .ok (dictEq d d')

/-- `repr` of a value: an integral float is written with `.0`.  Simplification: other floats are written as fractions,
and quotes inside of strings are not escaped. -/
def Val.repr : Val → String
  | .int n => toString n
  | .flt q => if q.den = 1 then toString q.num ++ ".0" else toString q
  | .str t => "'" ++ t ++ "'"

/-- `Configuration.__repr__` (configuration.py:250-261): the string that `__hash__` (configuration.py:247-248) hashes.
The keys are sorted by index, which is the order of `dict(self)`. -/
def Config.repr (s : Space) (c : Config) : Except Err String :=
  match c.dict s with
  | .error e => .error e
  | .ok d => .ok ("\n".intercalate ("Configuration(values={" ::
      d.map (fun kv => "  '" ++ kv.1 ++ "': " ++ kv.2.repr ++ ",") ++ ["})"]))

end Verif
