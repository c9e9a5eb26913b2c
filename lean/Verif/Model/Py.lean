/-!
# Python base types used by the model

A Python `str` is modelled by `List Char` (abbreviated `Str`).
-/

namespace CC

/-- Python `str`. Lone surrogates are not representable (simplification). -/
abbrev Str := List Char

/-- Shorthand for string constants. -/
def S (s : String) : Str := s.toList

/-- Python exceptions that the modelled code raises, as values.
`crash` stands for exceptions no caller expects (IndexError, KeyError, AttributeError,
TypeError), the others for the documented error classes. -/
inductive Err where
  | valueError
  | syntaxError
  | crazyError
  | schemaError
  | crash
  deriving DecidableEq, Repr

/-- Python `str.isspace()` on one character (Unicode White_Space plus U+001C..U+001F). -/
def pyIsSpace (c : Char) : Bool :=
  let n := c.toNat
  (9 ≤ n && n ≤ 13) || (28 ≤ n && n ≤ 32) || n == 0x85 || n == 0xA0 || n == 0x1680 ||
  (0x2000 ≤ n && n ≤ 0x200A) || n == 0x2028 || n == 0x2029 || n == 0x202F ||
  n == 0x205F || n == 0x3000

/-- ASCII letters and digits, the character class `[a-zA-Z0-9]` of the Python regexes
(Lean's `Char.isAlphanum` is exactly that class). -/
abbrev isAsciiAlnum (c : Char) : Bool := c.isAlphanum

/-- ASCII digits, `[0-9]`. -/
abbrev isAsciiDigit (c : Char) : Bool := c.isDigit

/-- Python `s.replace(c, r)` for a one-character pattern. -/
def replaceChar (c : Char) (r : Str) : Str → Str
  | [] => []
  | x :: xs => if x = c then r ++ replaceChar c r xs else x :: replaceChar c r xs

/-- Python `sep.join(items)`. -/
def joinWith (sep : Str) : List Str → Str
  | [] => []
  | [x] => x
  | x :: y :: xs => x ++ sep ++ joinWith sep (y :: xs)

/-- Python `s.startswith(p)`. -/
def startsWith : Str → Str → Bool
  | _, [] => true
  | [], _ :: _ => false
  | x :: xs, p :: ps => x == p && startsWith xs ps

/-- Python `s.split(c)` for a one-character separator: always at least one piece. -/
def splitOn (c : Char) : Str → List Str
  | [] => [[]]
  | x :: xs =>
    if x = c then [] :: splitOn c xs
    else match splitOn c xs with
      | [] => [[x]]
      | w :: ws => (x :: w) :: ws

/-- Python `s.lstrip()`. -/
def lstrip : Str → Str
  | [] => []
  | c :: cs => if pyIsSpace c then lstrip cs else c :: cs

/-- ASCII part of Python `str.lower()` on one character. -/
def asciiLower (c : Char) : Char :=
  if 65 ≤ c.toNat ∧ c.toNat ≤ 90 then Char.ofNat (c.toNat + 32) else c

/-- ASCII part of Python `str.upper()` on one character. -/
def asciiUpper (c : Char) : Char :=
  if 97 ≤ c.toNat ∧ c.toNat ≤ 122 then Char.ofNat (c.toNat - 32) else c

/-- Python `s.lower()`, ASCII part only (simplification: other cased letters are unchanged). -/
def lower (s : Str) : Str := s.map asciiLower

/-- Python `s.rstrip()`. -/
def rstrip (s : Str) : Str := (lstrip s.reverse).reverse

/-- Python `s.strip()`. -/
def strip (s : Str) : Str := rstrip (lstrip s)

/-- The digits of an `int()` literal after the first one: digits, or an underscore followed by
a digit; `acc` is the value so far. -/
def intDigits (acc : Nat) : Str → Option Nat
  | [] => some acc
  | [c] => if c.isDigit then some (acc * 10 + (c.toNat - 48)) else none
  | c :: d :: ds =>
    if c.isDigit then intDigits (acc * 10 + (c.toNat - 48)) (d :: ds)
    else if c = '_' && d.isDigit then intDigits (acc * 10 + (d.toNat - 48)) ds
    else none

/-- The digits of an `int()` literal. -/
def intBody : Str → Option Nat
  | [] => none
  | c :: cs => if c.isDigit then intDigits (c.toNat - 48) cs else none

/-- Python `int(s)` for base 10: optional blanks around, optional sign, digits with single
underscores between them. `none` is ValueError. Simplification: only ASCII digits. -/
def pyInt (s : Str) : Option Int := match strip s with
  | '-' :: t => (intBody t).map (fun n => - Int.ofNat n)
  | '+' :: t => (intBody t).map Int.ofNat
  | t => (intBody t).map Int.ofNat

/-- Python `str(n)` for a number that is not negative. -/
def natStr (n : Nat) : Str := Nat.toDigits 10 n

/-- Python `str(n)`. -/
def intStr (n : Int) : Str := if n < 0 then '-' :: natStr n.natAbs else natStr n.natAbs

theorem natStr_inj {a b : Nat} (h : natStr a = natStr b) : a = b := by
  have h1 := Nat.ofDigitChars_toDigits (b := 10) (n := a) (by decide) (by decide)
  have h2 := Nat.ofDigitChars_toDigits (b := 10) (n := b) (by decide) (by decide)
  unfold natStr at h
  rw [h] at h1
  omega

theorem natStr_isDigit {n : Nat} {c : Char} (h : c ∈ natStr n) : c.isDigit = true :=
  Nat.isDigit_of_mem_toDigits (by decide) (by decide) h

end CC
