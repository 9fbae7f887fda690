import Verif.Model.Files
import Verif.Model.FixTypes

/-!
# The text of JSON files (`to_json`, `from_json`; configuration_space.py:1081-1143)

`json.dump` and `json.load` of the standard library on the characters of the text.  They are not in /repo; the model follows
CPython's `json/encoder.py`, `json/decoder.py` and `json/scanner.py` with the default arguments, which are those that `to_json`
and `from_json` use unless the user gives others.
-/

set_option autoImplicit false

namespace Verif.JText
open Verif

abbrev Chars := List Char

/-! ## Writing -/

/-- A digit of a decimal number. -/
def digitChar (d : Nat) : Char := Char.ofNat (48 + d)

/-- The digits of a number, the last one first.  The first argument bounds the number of digits. -/
def digitsRev : Nat → Nat → List Nat
  | 0, _ => []
  | k + 1, n => if n < 10 then [n] else (n % 10) :: digitsRev k (n / 10)

/-- `int.__repr__` of a number that is not negative. -/
def natText (n : Nat) : Chars := ((digitsRev (n + 1) n).reverse).map digitChar

/-- `int.__repr__`, which `json.dump` uses (configuration_space.py:1102). -/
def intText : Int → Chars
  | .ofNat n => natText n
  | .negSucc n => '-' :: natText (n + 1)

/-- A hexadecimal digit in lower case. -/
def hexChar (d : Nat) : Char := if d < 10 then Char.ofNat (48 + d) else Char.ofNat (87 + d)

/-- `'\\u{0:04x}'.format(n)` (json/encoder.py, `py_encode_basestring_ascii`). -/
def uText (n : Nat) : Chars :=
  ['\\', 'u', hexChar (n / 4096 % 16), hexChar (n / 256 % 16), hexChar (n / 16 % 16), hexChar (n % 16)]

/-- What a character of a text is written as (json/encoder.py, `ESCAPE_DCT` and `py_encode_basestring_ascii`): `\` and `"` and
the control characters with a backslash, what is not ASCII with `\u`, from U+10000 on as a pair of surrogates. -/
def escape (c : Char) : Chars :=
  if c = '"' then ['\\', '"']
  else if c = '\\' then ['\\', '\\']
  else if c = '\n' then ['\\', 'n']
  else if c = '\r' then ['\\', 'r']
  else if c = '\t' then ['\\', 't']
  else if c = '\x0c' then ['\\', 'f']
  else if c = '\x08' then ['\\', 'b']
  else if 32 ≤ c.toNat ∧ c.toNat ≤ 126 then [c]
  else if c.toNat < 65536 then uText c.toNat
  else uText (55296 + (c.toNat - 65536) / 1024 % 1024) ++ uText (56320 + (c.toNat - 65536) % 1024)

/-- A text between quotes. -/
def strText (s : String) : Chars := '"' :: (s.toList.flatMap escape ++ ['"'])

/-- A value: `float.__repr__` is `T.strFloat`. -/
def valText (T : PyText) : Val → Chars
  | .int n => intText n
  | .flt q => (T.strFloat q).toList
  | .str s => strText s

mutual
/-- `json.dump` with its default separators (configuration_space.py:1102, 1104): what is written to the file.  Infinities and NaN
do not occur. -/
def text (T : PyText) : Json → Chars
  | .null => "null".toList
  | .bool true => "true".toList
  | .bool false => "false".toList
  | .val v => valText T v
  | .arr [] => ['[', ']']
  | .arr (j :: js) => '[' :: (text T j ++ textL T js)
  | .obj [] => ['{', '}']
  | .obj ((k, j) :: fs) => '{' :: (strText k ++ (':' :: ' ' :: (text T j ++ textF T fs)))
/-- The rest of a list. -/
def textL (T : PyText) : List Json → Chars
  | [] => [']']
  | j :: js => ',' :: ' ' :: (text T j ++ textL T js)
/-- The rest of a dictionary. -/
def textF (T : PyText) : List (String × Json) → Chars
  | [] => ['}']
  | (k, j) :: fs => ',' :: ' ' :: (strText k ++ (':' :: ' ' :: (text T j ++ textF T fs)))
end

/-! ## Reading -/

/-- White space between the parts (`WHITESPACE`, json/decoder.py). -/
def skip : Chars → Chars
  | [] => []
  | c :: r => if c = ' ' ∨ c = '\t' ∨ c = '\n' ∨ c = '\r' then skip r else c :: r

/-- A hexadecimal digit (`HEXDIGITS`, json/decoder.py). -/
def hexVal (c : Char) : Option Nat :=
  if 48 ≤ c.toNat ∧ c.toNat ≤ 57 then some (c.toNat - 48)
  else if 97 ≤ c.toNat ∧ c.toNat ≤ 102 then some (c.toNat - 87)
  else if 65 ≤ c.toNat ∧ c.toNat ≤ 70 then some (c.toNat - 55)
  else none

/-- Four hexadecimal digits (`_decode_uXXXX`, json/decoder.py). -/
def hex4 : Chars → Option (Nat × Chars)
  | a :: b :: c :: d :: r => match hexVal a, hexVal b, hexVal c, hexVal d with
    | some x, some y, some z, some w => some (x * 4096 + y * 256 + z * 16 + w, r)
    | _, _, _, _ => none
  | _ => none

/-- The character after `\` if it is not `u` (`BACKSLASH`, json/decoder.py). -/
def backslash (c : Char) : Option Char :=
  if c = '"' then some '"' else if c = '\\' then some '\\' else if c = '/' then some '/'
  else if c = 'b' then some '\x08' else if c = 'f' then some '\x0c' else if c = 'n' then some '\n'
  else if c = 'r' then some '\r' else if c = 't' then some '\t' else none

/-- The first surrogate of a pair. -/
def isHigh (n : Nat) : Bool := decide (55296 ≤ n ∧ n ≤ 56319)

/-- One of the surrogates. -/
def isSurrogate (n : Nat) : Bool := decide (55296 ≤ n ∧ n ≤ 57343)

/-- The character after `\u` (`py_scanstring`, json/decoder.py): a pair of surrogates is one character.  Simplification: a lone
surrogate is refused, since it is not a character in Lean; Python makes a text with a lone surrogate of it. -/
def uEscape (r : Chars) : Option (Char × Chars) :=
  match hex4 r with
  | none => none
  | some (n, r1) =>
    if isHigh n then match r1 with
      | b :: u :: r2 =>
        if b = '\\' ∧ u = 'u' then match hex4 r2 with
          | none => none
          | some (m, r3) =>
            if 56320 ≤ m ∧ m ≤ 57343 then some (Char.ofNat (65536 + ((n - 55296) * 1024 + (m - 56320))), r3) else none
        else none
      | _ => none
    else if isSurrogate n then none
    else some (Char.ofNat n, r1)

/-- The text after the opening quote (`py_scanstring` with `strict`, json/decoder.py), up to the closing one.  The first argument
bounds the number of steps. -/
def scanStr : Nat → Chars → Option (Chars × Chars)
  | 0, _ => none
  | _ + 1, [] => none
  | k + 1, c :: r =>
    if c = '"' then some ([], r)
    else if c = '\\' then match r with
      | [] => none
      | e :: r1 =>
        if e = 'u' then match uEscape r1 with
          | none => none
          | some (x, r2) => (scanStr k r2).map (fun p => (x :: p.1, p.2))
        else match backslash e with
          | none => none
          | some x => (scanStr k r1).map (fun p => (x :: p.1, p.2))
    else if c.toNat < 32 then none
    else (scanStr k r).map (fun p => (c :: p.1, p.2))

/-- A text, with enough steps. -/
def scanString (r : Chars) : Option (String × Chars) :=
  (scanStr (r.length + 1) r).map (fun p => (String.ofList p.1, p.2))

/-- A decimal digit. -/
def isDig (c : Char) : Bool := c.isDigit

/-- `int` of a text of digits. -/
def natOf (t : Chars) : Nat := t.foldl (fun n c => n * 10 + (c.toNat - 48)) 0

/-- The part of a number before the point (`NUMBER_RE`, json/scanner.py): `0`, or digits of which the first is not `0`. -/
def scanInt : Chars → Option (Chars × Chars)
  | [] => none
  | c :: r => if c = '0' then some (['0'], r) else if isDig c then some (c :: r.takeWhile isDig, r.dropWhile isDig) else none

/-- The part `\.\d+`, if there is one. -/
def scanFrac : Chars → Chars × Chars
  | c :: d :: r => if c = '.' ∧ isDig d = true then (c :: d :: r.takeWhile isDig, r.dropWhile isDig) else ([], c :: d :: r)
  | r => ([], r)

/-- The part `[eE][-+]?\d+`, if there is one. -/
def scanExp : Chars → Chars × Chars
  | c :: r =>
    if c = 'e' ∨ c = 'E' then match r with
      | s :: r1 =>
        if s = '+' ∨ s = '-' then match r1 with
          | d :: r2 => if isDig d then (c :: s :: d :: r2.takeWhile isDig, r2.dropWhile isDig) else ([], c :: s :: d :: r2)
          | [] => ([], c :: s :: [])
        else if isDig s then (c :: s :: r1.takeWhile isDig, r1.dropWhile isDig) else ([], c :: s :: r1)
      | [] => ([], [c])
    else ([], c :: r)
  | [] => ([], [])

/-- A number (json/scanner.py): with a fraction or an exponent it is a float, otherwise an integer.  Simplification: `NaN` and
infinities are refused. -/
def scanNum (T : PyText) (s : Chars) : Option (Val × Chars) :=
  let neg := s.head? == some '-'
  let s0 := if neg then s.tail else s
  match scanInt s0 with
  | none => none
  | some (i, r1) =>
    let f := scanFrac r1
    let e := scanExp f.2
    if f.1 = [] ∧ e.1 = [] then some (.int (if neg then -(natOf i : Int) else natOf i), e.2)
    else (T.parseFloat (String.ofList ((if neg then ['-'] else []) ++ i ++ f.1 ++ e.1))).map (fun q => (.flt q, e.2))

/-- `dict(pairs)`: a key that occurs again keeps its place and takes the new value. -/
def setKey : List (String × Json) → String → Json → List (String × Json)
  | [], k, j => [(k, j)]
  | (k', j') :: fs, k, j => if k' = k then (k', j) :: fs else (k', j') :: setKey fs k j

/-- `dict(pairs)`. -/
def dictOf (fs : List (String × Json)) : List (String × Json) := fs.foldl (fun d p => setKey d p.1 p.2) []

/-- A fixed word. -/
def word (w : Chars) (j : Json) (s : Chars) : Option (Json × Chars) :=
  if s.take w.length = w then some (j, s.drop w.length) else none

mutual
/-- `scan_once` (json/scanner.py).  The first argument bounds the number of steps; `load` gives enough. -/
def value (T : PyText) : Nat → Chars → Option (Json × Chars)
  | 0, _ => none
  | _ + 1, [] => none
  | k + 1, c :: r =>
    if c = '"' then (scanString r).map (fun p => (.val (.str p.1), p.2))
    else if c = '{' then match skip r with
      | [] => none
      | d :: r1 =>
        if d = '}' then some (.obj [], r1)
        else if d = '"' then (members T k r1).map (fun p => (.obj (dictOf p.1), p.2))
        else none
    else if c = '[' then match skip r with
      | [] => none
      | d :: r1 =>
        if d = ']' then some (.arr [], r1)
        else (elements T k (d :: r1)).map (fun p => (.arr p.1, p.2))
    else if c = 'n' then word "null".toList .null (c :: r)
    else if c = 't' then word "true".toList (.bool true) (c :: r)
    else if c = 'f' then word "false".toList (.bool false) (c :: r)
    else (scanNum T (c :: r)).map (fun p => (.val p.1, p.2))
/-- `JSONObject` (json/decoder.py), from the opening quote of a key on. -/
def members (T : PyText) : Nat → Chars → Option (List (String × Json) × Chars)
  | 0, _ => none
  | k + 1, r => match scanString r with
    | none => none
    | some (key, r1) => match skip r1 with
      | [] => none
      | c :: r2 =>
        if c = ':' then match value T k (skip r2) with
          | none => none
          | some (j, r3) => match skip r3 with
            | [] => none
            | d :: r4 =>
              if d = '}' then some ([(key, j)], r4)
              else if d = ',' then match skip r4 with
                | [] => none
                | q :: r5 => if q = '"' then (members T k r5).map (fun p => ((key, j) :: p.1, p.2)) else none
              else none
        else none
/-- `JSONArray` (json/decoder.py), from an element on. -/
def elements (T : PyText) : Nat → Chars → Option (List Json × Chars)
  | 0, _ => none
  | k + 1, r => match value T k r with
    | none => none
    | some (j, r1) => match skip r1 with
      | [] => none
      | d :: r2 =>
        if d = ']' then some ([j], r2)
        else if d = ',' then (elements T k (skip r2)).map (fun p => (j :: p.1, p.2))
        else none
end

/-- `json.load` of a file with this text (configuration_space.py:1139, 1141; `JSONDecoder.decode`): one value with white space
around it.  `none` is a `JSONDecodeError`. -/
def load (T : PyText) (s : Chars) : Option Json :=
  match value T (2 * s.length + 1) (skip s) with
  | none => none
  | some (j, r) => if skip r = [] then some j else none

/-! ## Files -/

/-- How `from_json` can end. -/
inductive Loaded where
  | space (s : Space) (w : List (Name × Option (List Rat)))
  | jsonError
  | decodeError (e : Err)

/-- `from_json` of a file with this text (configuration_space.py:1106-1143). -/
def fromJson (T : PyText) (s : Chars) : Loaded :=
  match load T s with
  | none => .jsonError
  | some j => match fromDict j with
    | .ok (s, w) => .space s w
    | .error e => .decodeError e

/-- What `to_json` writes (configuration_space.py:1081-1104). -/
def toJson (T : PyText) (s : Space) (k : Lit → Files.SeqKind) (w : Name → Option (List Rat)) (ver : String) : Chars :=
  text T (Files.toDoc s k w ver).data

/-- What is in the file while `to_json` runs, and what is left there if the program is stopped (configuration_space.py:1099-1102).
The dictionary is made before the file is opened; `open(path, "w")` empties it; then the text arrives from the front. -/
inductive OnDisk (old new : Chars) : Chars → Prop where
  | before : OnDisk old new old
  | during (p : Chars) : p <+: new → OnDisk old new p

/-- A file that is written again and again (configuration_space.py:1099-1102): what can be in it after these writes, each of which
may have been stopped anywhere. -/
inductive Written (old : Chars) : List Chars → Chars → Prop where
  | nothing : Written old [] old
  | write {ws : List Chars} {c new c' : Chars} : Written old ws c → OnDisk c new c' → Written old (ws ++ [new]) c'

/-- `to_json` of an open file (configuration_space.py:1103-1104): the text replaces what is in the file from the current place on,
here the beginning; nothing is cut off. -/
def overwrite (old new : Chars) : Chars := new ++ old.drop new.length

/-- What `yaml.safe_load` makes of a file of which only a beginning was written (configuration_space.py:1167-1170): the keys are
written in order (`conditions`, `forbiddens`, `format_version`, `hyperparameters`, `name`, `python_module_version`), and each item of
the list of hyperparameters has lines of its own.  Simplification: only files that end after the lines of `n` hyperparameters,
with `n` not 0; without a tuple in it. -/
def yamlCut (s : Space) (k : Lit → Files.SeqKind) (w : Name → Option (List Rat)) (n : Nat) : Files.Doc :=
  .dict [("conditions", .seq .list (Files.docConds k s.conditions)),
    ("forbiddens", .seq .list (Files.docForbs s.forbs)),
    ("format_version", .val (.flt (2 / 5))),
    ("hyperparameters", .seq .list ((s.com.map (fun x => Files.docHP x.hp (w x.name))).take n))]

/-! ## Values that cannot be written -/

/-- A dictionary in which there may be objects that `json` does not know, for instance choices that are numpy numbers, or what an
encoder of the user returns (dictionary.py:399-453; configuration_space.py:968-1001). -/
inductive Data where
  | null
  | bool (b : Bool)
  | val (v : Val)
  | other
  | arr (items : List Data)
  | obj (fields : List (String × Data))

/-- A value between something that is written before it and something that is written after it. -/
def around (pre : Chars) (o r : Chars × Bool) : Chars × Bool := if o.2 then (pre ++ (o.1 ++ r.1), r.2) else (pre ++ o.1, false)

mutual
/-- What `json.dump` has written when it ends, and whether it ended without `TypeError` (configuration_space.py:1102, 1104): the text is
written piece by piece, and the exception comes when an object is met that is not known (`JSONEncoder.default`). -/
def dump (T : PyText) : Data → Chars × Bool
  | .null => ("null".toList, true)
  | .bool true => ("true".toList, true)
  | .bool false => ("false".toList, true)
  | .val v => (valText T v, true)
  | .other => ([], false)
  | .arr [] => (['[', ']'], true)
  | .arr (d :: ds) => around ['['] (dump T d) (dumpL T ds)
  | .obj [] => (['{', '}'], true)
  | .obj ((k, d) :: fs) => around ('{' :: (strText k ++ [':', ' '])) (dump T d) (dumpF T fs)
/-- The rest of a list. -/
def dumpL (T : PyText) : List Data → Chars × Bool
  | [] => ([']'], true)
  | d :: ds => around [',', ' '] (dump T d) (dumpL T ds)
/-- The rest of a dictionary. -/
def dumpF (T : PyText) : List (String × Data) → Chars × Bool
  | [] => (['}'], true)
  | (k, d) :: fs => around (',' :: ' ' :: (strText k ++ [':', ' '])) (dump T d) (dumpF T fs)
end

end Verif.JText
