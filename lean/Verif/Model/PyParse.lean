import Verif.Model.Base

/-!
# The part of pyparsing that the pcs readers use, and some methods of `str`

Texts are lists of characters.  A parser takes the text at the current position and gives the tokens and the remaining
text, or fails.
-/

set_option autoImplicit false

namespace Verif

abbrev Chars := List Char

abbrev Parser := Chars → Option (List Chars × Chars)

/-- The default whitespace of pyparsing; also used for `str.strip` and `str.split`.  Simplification: the other
characters that Python counts as whitespace are left out. -/
def isWs (c : Char) : Bool := c == ' ' || c == '\n' || c == '\t' || c == '\r'

/-- Elements skip whitespace in front of them. -/
def skipWs (cs : Chars) : Chars := cs.dropWhile isWs

/-- The longest non-empty run of the given characters, without skipping whitespace. -/
def rWord (p : Char → Bool) (cs : Chars) : Option (Chars × Chars) :=
  let w := cs.takeWhile p
  if w.isEmpty then none else some (w, cs.dropWhile p)

/-- The given text, without skipping whitespace. -/
def rLit : Chars → Chars → Option (Chars × Chars)
  | [], cs => some ([], cs)
  | _ :: _, [] => none
  | x :: xs, c :: cs => if x == c then match rLit xs cs with
      | some (t, r) => some (x :: t, r)
      | none => none
    else none

/-- One after the other. -/
def rSeq (p q : Chars → Option (Chars × Chars)) (cs : Chars) : Option (Chars × Chars) :=
  match p cs with
  | none => none
  | some (t, r) => match q r with
    | none => none
    | some (u, r') => some (t ++ u, r')

/-- The first that matches. -/
def rAlt (p q : Chars → Option (Chars × Chars)) (cs : Chars) : Option (Chars × Chars) :=
  match p cs with
  | some x => some x
  | none => q cs

/-- `Optional`. -/
def rOpt (p : Chars → Option (Chars × Chars)) (cs : Chars) : Option (Chars × Chars) :=
  match p cs with
  | some x => some x
  | none => some ([], cs)

/-- One token: skip whitespace first.  `Word`, `Literal` and `Combine` are of this form. -/
def tok (p : Chars → Option (Chars × Chars)) : Parser := fun cs =>
  match p (skipWs cs) with
  | none => none
  | some (t, r) => some ([t], r)

/-- `Word(chars)`. -/
def pWord (p : Char → Bool) : Parser := tok (rWord p)

/-- `Literal(text)`. -/
def pLit (t : String) : Parser := tok (rLit t.toList)

/-- `e + f + ...`. -/
def pSeq : List Parser → Parser
  | [], cs => some ([], cs)
  | p :: ps, cs => match p cs with
    | none => none
    | some (ts, r) => match pSeq ps r with
      | none => none
      | some (us, r') => some (ts ++ us, r')

/-- `e | f`. -/
def pAlt (p q : Parser) : Parser := fun cs =>
  match p cs with
  | some x => some x
  | none => q cs

/-- `Optional(e)`. -/
def pOpt (p : Parser) : Parser := fun cs =>
  match p cs with
  | some x => some x
  | none => some ([], cs)

/-- At most so many repetitions. -/
def pManyN (p : Parser) : Nat → Parser
  | 0, cs => some ([], cs)
  | k + 1, cs => match p cs with
    | none => some ([], cs)
    | some (ts, r) => match pManyN p k r with
      | none => none
      | some (us, r') => some (ts ++ us, r')

/-- `Optional(OneOrMore(e))`: as many as possible.  Every repetition consumes a character. -/
def pMany (p : Parser) : Parser := fun cs => pManyN p cs.length cs

/-! ## Methods of `str` -/

/-- `text.strip()`. -/
def strip (cs : Chars) : Chars := ((skipWs cs).reverse.dropWhile isWs).reverse

/-- `text.split(c)` for a single character. -/
def splitChar (c : Char) : Chars → List Chars
  | [] => [[]]
  | x :: xs => if x = c then [] :: splitChar c xs else match splitChar c xs with
      | [] => [[x]]
      | w :: ws => (x :: w) :: ws

/-- `text.split(cc)` for a character that is repeated (`"||"` and `"&&"`). -/
def splitTwice (c : Char) : Chars → List Chars
  | [] => [[]]
  | [x] => [[x]]
  | x :: y :: r =>
    if x = c ∧ y = c then [] :: splitTwice c r
    else match splitTwice c (y :: r) with
      | [] => [[x]]
      | w :: ws => (x :: w) :: ws

/-- `text.split()`, with the word that has been read so far. -/
def wsWords : Chars → Chars → List Chars
  | cur, [] => if cur.isEmpty then [] else [cur]
  | cur, c :: cs =>
    if isWs c then if cur.isEmpty then wsWords [] cs else cur :: wsWords [] cs
    else wsWords (cur ++ [c]) cs

/-- `text.split()`. -/
def wsSplit (cs : Chars) : List Chars := wsWords [] cs

/-- `sub in text`. -/
def hasSub (sub : Chars) : Chars → Bool
  | [] => sub.isEmpty
  | c :: cs => (rLit sub (c :: cs)).isSome || hasSub sub cs

/-- `sep.join(words)`. -/
def joinWith (sep : Chars) : List Chars → Chars
  | [] => []
  | [w] => w
  | w :: ws => w ++ sep ++ joinWith sep ws

/-- `l[::2]`. -/
def everyOther {α : Type} : List α → List α
  | [] => []
  | [x] => [x]
  | x :: _ :: r => x :: everyOther r

end Verif
