import Verif.Model.Value
/-!
# How YAML text is read

A reader for a part of YAML 1.1 as PyYAML's `safe_load_all` reads it: documents separated by `---`;
a document is a block mapping at the left margin; its values are flow values on the same line, or
block sequences of block mappings on the following lines. Flow values are double quoted strings,
`null`, `true`, `false`, decimal numbers, flow sequences and flow mappings whose keys are double
quoted. Lines that are blank and comment lines are skipped. Everything else is rejected (`none`),
also where YAML would accept it.

Where YAML differs from JSON it is followed: a `\u` escape stands for one character and is rejected
if it is a surrogate; a number with an exponent needs a point, otherwise it is a string; a key
must not be longer than 1024 characters.
-/

namespace CC
namespace YamlText

/-! ## Scalars -/

/-- The value of a hexadecimal digit. -/
def hexValue (c : Char) : Option Nat :=
  if '0' ≤ c ∧ c ≤ '9' then some (c.toNat - 48)
  else if 'a' ≤ c ∧ c ≤ 'f' then some (c.toNat - 87)
  else if 'A' ≤ c ∧ c ≤ 'F' then some (c.toNat - 55)
  else none

/-- The character with a number, if it is one. -/
def charOf (n : Nat) : Option Char := if n.isValidChar then some (Char.ofNat n) else none

/-- The character that four hexadecimal digits stand for. -/
def hexChar (a b c d : Char) : Option Char :=
  match hexValue a, hexValue b, hexValue c, hexValue d with
  | some a, some b, some c, some d => charOf (a * 4096 + b * 256 + c * 16 + d)
  | _, _, _, _ => none

/-- Put a character in front of what was read. -/
def consRead (c : Char) : Option (Str × Str) → Option (Str × Str)
  | none => none
  | some (s, r) => some (c :: s, r)

/-- The rest of a double quoted string: its text and what follows the closing quote. -/
def readQuoted : Str → Option (Str × Str)
  | [] => none
  | '"' :: r => some ([], r)
  | '\\' :: '"' :: r => consRead '"' (readQuoted r)
  | '\\' :: '\\' :: r => consRead '\\' (readQuoted r)
  | '\\' :: '/' :: r => consRead '/' (readQuoted r)
  | '\\' :: 'n' :: r => consRead '\n' (readQuoted r)
  | '\\' :: 'r' :: r => consRead '\r' (readQuoted r)
  | '\\' :: 't' :: r => consRead '\t' (readQuoted r)
  | '\\' :: 'f' :: r => consRead (Char.ofNat 12) (readQuoted r)
  | '\\' :: 'b' :: r => consRead (Char.ofNat 8) (readQuoted r)
  | '\\' :: 'u' :: a :: b :: c :: d :: r =>
    match hexChar a b c d with
    | none => none
    | some x => consRead x (readQuoted r)
  | '\\' :: _ => none
  | c :: r => consRead c (readQuoted r)

/-- The characters of the plain scalars that are read. -/
def isPlain (c : Char) : Bool := c.isAlphanum || c == '+' || c == '-' || c == '.'

/-- Is this the exponent of a number? -/
def isExponent : Str → Bool
  | e :: s :: d :: ds => (e == 'e' || e == 'E') && (s == '+' || s == '-') && (d :: ds).all Char.isDigit
  | _ => false

/-- A plain scalar that starts, after a sign, with the digits `ds` followed by `r`. -/
def resolveNumber (s ds r : Str) (neg : Bool) : Option Val :=
  match r with
  | [] =>
    if ds.length > 1 ∧ ds.head? = some '0' then none
    else some (.int (if neg then - Int.ofNat (Nat.ofDigitChars 10 ds 0) else Int.ofNat (Nat.ofDigitChars 10 ds 0)))
  | '.' :: f =>
    if f.dropWhile Char.isDigit = [] ∨ isExponent (f.dropWhile Char.isDigit) = true then some (.float s) else none
  | _ => if isExponent r then some (.str s) else none

/-- The value of a plain scalar. -/
def resolvePlain (s : Str) : Option Val :=
  if s = S "null" then some .none
  else if s = S "true" then some (.bool true)
  else if s = S "false" then some (.bool false)
  else if s = S "NaN" ∨ s = S "Infinity" ∨ s = S "-Infinity" then some (.str s)
  else match s with
    | '-' :: t =>
      if t.takeWhile Char.isDigit = [] then none
      else resolveNumber s (t.takeWhile Char.isDigit) (t.dropWhile Char.isDigit) true
    | _ =>
      if s.takeWhile Char.isDigit = [] then none
      else resolveNumber s (s.takeWhile Char.isDigit) (s.dropWhile Char.isDigit) false

/-! ## Flow values -/

/-- Skip spaces. -/
def skipSpaces (s : Str) : Str := s.dropWhile (· == ' ')

mutual
/-- A flow value and what follows it. The counter is a bound on the text read. -/
def readFlow : Nat → Str → Option (Val × Str)
  | 0, _ => none
  | n + 1, s =>
    match s with
    | '"' :: r => (readQuoted r).map (fun p => (.str p.1, p.2))
    | '[' :: ']' :: r => some (.list [], r)
    | '[' :: r => (readItems n r).map (fun p => (.list p.1, p.2))
    | '{' :: '}' :: r => some (.dict [], r)
    | '{' :: r => (readEntries n [] r).map (fun p => (.dict p.1, p.2))
    | _ => (resolvePlain (s.takeWhile isPlain)).map (fun v => (v, s.dropWhile isPlain))
/-- The items of a flow sequence up to the closing bracket. -/
def readItems : Nat → Str → Option (List Val × Str)
  | 0, _ => none
  | n + 1, s =>
    match readFlow n s with
    | none => none
    | some (v, r) =>
      match skipSpaces r with
      | ']' :: r' => some ([v], r')
      | ',' :: r' => (readItems n (skipSpaces r')).map (fun p => (v :: p.1, p.2))
      | _ => none
/-- The entries of a flow mapping up to the closing brace. A repeated key replaces the value. -/
def readEntries : Nat → List (Key × Val) → Str → Option (List (Key × Val) × Str)
  | 0, _, _ => none
  | n + 1, acc, s =>
    match s with
    | '"' :: r =>
      match readQuoted r with
      | none => none
      | some (k, r1) =>
        if s.length - r1.length > 1024 then none
        else match r1 with
          | ':' :: ' ' :: r2 =>
            match readFlow n (skipSpaces r2) with
            | none => none
            | some (v, r3) =>
              match skipSpaces r3 with
              | '}' :: r4 => some (setKey acc (.str k) v, r4)
              | ',' :: r4 => readEntries n (setKey acc (.str k) v) (skipSpaces r4)
              | _ => none
          | _ => none
    | _ => none
end

/-! ## Lines -/

/-- The characters that end a line in YAML 1.1. -/
def isBreak (c : Char) : Bool :=
  c == '\n' || c == '\r' || c.toNat == 0x85 || c.toNat == 0x2028 || c.toNat == 0x2029

/-- The characters that may occur in YAML text. -/
def isPrintable (c : Char) : Bool :=
  let n := c.toNat
  n == 9 || n == 10 || n == 13 || (32 ≤ n && n ≤ 126) || n == 0x85 || (0xA0 ≤ n && n ≤ 0xD7FF) ||
  (0xE000 ≤ n && n ≤ 0xFFFD) || 0x10000 ≤ n

/-- The lines of a text. -/
def linesOf : Str → List Str
  | [] => [[]]
  | c :: cs =>
    if isBreak c then [] :: linesOf cs
    else match linesOf cs with
      | [] => [[c]]
      | l :: ls => (c :: l) :: ls

/-- What a line says. -/
inductive Line where
  /-- blank, or a comment -/
  | skip
  /-- `---` -/
  | separator
  /-- `key: value` or `key:` after a number of spaces, perhaps after `- ` -/
  | entry (indent : Nat) (dash : Bool) (key : Str) (value : Option Val)

/-- The value after `key:`. `none`: not readable; `some none`: there is none. -/
def readValue (s : Str) : Option (Option Val) :=
  match s with
  | [] => some none
  | ' ' :: r =>
    match readFlow (r.length + 1) r with
    | some (v, []) => some (some v)
    | _ => none
  | _ => none

/-- The letters of keys. -/
def isKeyChar (c : Char) : Bool := c.isAlpha || c == '_'

/-- A line after its spaces and the dash. -/
def readEntry (indent : Nat) (dash : Bool) (s : Str) : Option Line :=
  if s.takeWhile isKeyChar = [] then none
  else match s.dropWhile isKeyChar with
    | ':' :: r => (readValue r).map (fun v => .entry indent dash (s.takeWhile isKeyChar) v)
    | _ => none

/-- A line. -/
def readLine (s : Str) : Option Line :=
  if s = ['-', '-', '-'] then some .separator
  else match skipSpaces s with
    | [] => some .skip
    | '#' :: _ => some .skip
    | '-' :: ' ' :: r => readEntry (s.takeWhile (· == ' ')).length true r
    | r => readEntry (s.takeWhile (· == ' ')).length false r

/-! ## Documents -/

/-- A block sequence that is being read as the value of a key: the complete items, and the entries
of the last one with the column of its dash. -/
structure Open where
  key : Str
  items : List Val
  last : Option (Nat × List (Key × Val))

/-- The value of the sequence. Without items it is null. -/
def Open.value (o : Open) : Val :=
  match o.items, o.last with
  | [], none => .none
  | l, none => .list l
  | l, some (_, es) => .list (l ++ [.dict es])

/-- A document that is being read. -/
structure Doc where
  entries : List (Key × Val) := []
  seq : Option Open := none

/-- The entries, with the sequence that is being read. -/
def Doc.close (d : Doc) : List (Key × Val) :=
  match d.seq with
  | none => d.entries
  | some o => setKey d.entries (.str o.key) o.value

/-- The value of a document. -/
def Doc.value (d : Doc) : Val := if d.close = [] then .none else .dict d.close

/-- Read one line of a document. -/
def Doc.step (d : Doc) : Line → Option Doc
  | .skip => some d
  | .separator => none
  | .entry 0 false k (some v) => some ⟨setKey d.close (.str k) v, none⟩
  | .entry 0 false k none => some ⟨d.close, some ⟨k, [], none⟩⟩
  | .entry (n + 1) true k (some v) =>
    match d.seq with
    | none => none
    | some o =>
      match o.last with
      | none => some { d with seq := some { o with last := some (n + 1, [(.str k, v)]) } }
      | some (m, es) =>
        if m = n + 1 then
          some { d with seq := some { o with items := o.items ++ [.dict es], last := some (m, [(.str k, v)]) } }
        else none
  | .entry (n + 1) false k (some v) =>
    match d.seq with
    | none => none
    | some o =>
      match o.last with
      | none => none
      | some (m, es) =>
        if m + 2 = n + 1 then
          some { d with seq := some { o with last := some (m, setKey es (.str k) v) } }
        else none
  | _ => none

/-- Read the lines of all documents: the first argument is the document that is being read. -/
def readLines (d : Doc) : List Str → Option (List Val)
  | [] => some [d.value]
  | l :: ls =>
    match readLine l with
    | none => none
    | some .separator => (readLines {} ls).map (fun r => d.value :: r)
    | some x =>
      match d.step x with
      | none => none
      | some d' => readLines d' ls

/-- The documents of a text. -/
def read (s : Str) : Option (List Val) :=
  if s.all isPrintable then readLines {} (linesOf s) else none

end YamlText
end CC
