import Verif.Model.HelpParser

/-!
How help texts are written, for the properties of the help parser.  Nothing here
refers to the functions of the parser; only its result types are used.
-/

namespace CC.HelpText

/-- Spaces and tabs only. -/
def Blanks (s : Str) : Prop := ∀ c ∈ s, c = ' ' ∨ c = '\t'

/-- The brackets and quotes that hold a metavar together. -/
inductive Pair : Char → Char → Prop where
  | angle : Pair '<' '>'
  | square : Pair '[' ']'
  | round : Pair '(' ')'
  | curly : Pair '{' '}'
  | double : Pair '"' '"'
  | single : Pair '\'' '\''

/-- A character that a metavar holds outside of brackets and quotes. -/
def PlainChar (c : Char) : Prop :=
  c ≠ ' ' ∧ c ≠ '\t' ∧ c ≠ '\n' ∧ c ≠ ',' ∧ c ≠ '|' ∧ ∀ q, ¬ Pair c q

/-- A metavar: plain characters, and groups in brackets or quotes that may hold
anything.  If `closed` is false, the last group may lack its closing
character. -/
inductive Metavar (closed : Bool) : Str → Prop where
  | nil : Metavar closed []
  | char {c m} : PlainChar c → Metavar closed m → Metavar closed (c :: m)
  | group {o q body m} : Pair o q → q ∉ body → Metavar closed m →
      Metavar closed (o :: body ++ q :: m)
  | unclosed {o q body} : closed = false → Pair o q → q ∉ body →
      Metavar closed (o :: body)

/-- The word of an option: it begins with a hyphen, holds none of the characters
that end an option, and is not one or two hyphens alone. -/
structure OptionWord (o : Str) : Prop where
  hyphen : o.head? = some '-'
  chars : ∀ c ∈ o, c ∉ [' ', '\t', '\n', ',', '|', '=', '[']
  not_one : o ≠ ['-']
  not_two : o ≠ ['-', '-']

/-- The texts an option can be read from: the word alone, `-o=METAVAR`,
`-o[=METAVAR]` and `-o METAVAR`, each after blanks. -/
inductive WrittenOption (closed : Bool) : HelpOption → Str → Prop where
  | alone {b o} : Blanks b → OptionWord o →
      WrittenOption closed ⟨o, none, false⟩ (b ++ o)
  | equals {b o m} : Blanks b → OptionWord o → Metavar closed m →
      WrittenOption closed ⟨o, some m, false⟩ (b ++ o ++ '=' :: m)
  | optional {b o m} : Blanks b → OptionWord o → Metavar closed ('[' :: '=' :: m) →
      WrittenOption closed ⟨o, some ('[' :: '=' :: m), true⟩ (b ++ o ++ '[' :: '=' :: m)
  | space {b o c m} : Blanks b → OptionWord o → (c = ' ' ∨ c = '\t') → Metavar closed m →
      WrittenOption closed ⟨o, some m, false⟩ (b ++ o ++ c :: m)

/-- The texts a list of options can be read from: the options in their order with
`,` or `|` between them, and possibly after the last. -/
inductive WrittenOptions : List HelpOption → Str → Prop where
  | last {o t} : WrittenOption false o t → WrittenOptions [o] t
  | dangling {o t b d} : WrittenOption false o t → Blanks b → (d = ',' ∨ d = '|') →
      WrittenOptions [o] (t ++ b ++ [d])
  | cons {o t b d os u} : WrittenOption false o t → Blanks b → (d = ',' ∨ d = '|') →
      WrittenOptions os u → WrittenOptions (o :: os) (t ++ b ++ d :: u)

/-- A line with its newline, or the last line of a text that does not end in
one. -/
inductive Line : Str → Prop where
  | full {l} : '\n' ∉ l → Line (l ++ ['\n'])
  | open {l} : '\n' ∉ l → Line l

/-- The texts a description can be read from: lines from which the blanks in
front are removed. -/
inductive WrittenDescription : Str → Str → Prop where
  | blanks {b} : Blanks b → WrittenDescription [] b
  | line {b l d t} : Blanks b → Line l → WrittenDescription d t →
      WrittenDescription (l ++ d) (b ++ l ++ t)

/-- The texts an item of the result can be read from. -/
inductive WrittenItem : HelpItem → Str → Prop where
  | unparsed {l} : Line l → l ≠ [] → WrittenItem (.unparsed l) l
  | bare {os t} : WrittenOptions os t → WrittenItem (.options os none) t
  | described {os t d u} : WrittenOptions os t → WrittenDescription d u →
      WrittenItem (.options os (some d)) (t ++ u)

/-- The items cover the text completely and in order: the text is cut into
pieces, one for each item. -/
inductive Covers : List HelpItem → Str → Prop where
  | nil : Covers [] []
  | cons {i t is u} : WrittenItem i t → Covers is u → Covers (i :: is) (t ++ u)

/-! ### The usual layout of a help text -/

/-- How the metavar of an option is attached. -/
inductive Attached where
  | none
  | equals (m : Str)
  | optional (m : Str)
  | space (m : Str)
deriving DecidableEq

/-- An option as it is laid out: blanks, the word and its metavar. -/
structure OptionLayout where
  blanks : Str
  word : Str
  attached : Attached
deriving DecidableEq

/-- The text of an option. -/
def OptionLayout.text (l : OptionLayout) : Str :=
  l.blanks ++ l.word ++
    match l.attached with
    | .none => []
    | .equals m => '=' :: m
    | .optional m => '[' :: '=' :: m ++ [']']
    | .space m => ' ' :: m

/-- What the option says. -/
def OptionLayout.meaning (l : OptionLayout) : HelpOption :=
  match l.attached with
  | .none => ⟨l.word, Option.none, false⟩
  | .equals m => ⟨l.word, some m, false⟩
  | .optional m => ⟨l.word, some ('[' :: '=' :: m ++ [']']), true⟩
  | .space m => ⟨l.word, some m, false⟩

/-- The option is laid out as usual. -/
structure OptionLayout.Usual (l : OptionLayout) : Prop where
  blanks : Blanks l.blanks
  word : OptionWord l.word
  equals : ∀ m, l.attached = .equals m → Metavar true m
  optional : ∀ m, l.attached = .optional m → ']' ∉ m
  space : ∀ m, l.attached = .space m → Metavar true m ∧ ∃ c m', m = c :: m' ∧ pyIsSpace c = false

/-- The options of one entry, laid out with a separator between each two. -/
structure EntryLayout where
  first : OptionLayout
  /-- Blanks, `,` or `|`, and the next option. -/
  more : List (Str × Char × OptionLayout)
  gap : Str
  line : Str
  /-- Further lines of the description: the blanks in front and the line. -/
  further : List (Str × Str)

/-- The text of the options after the first. -/
def moreText : List (Str × Char × OptionLayout) → Str
  | [] => []
  | (b, d, l) :: ms => b ++ d :: l.text ++ moreText ms

/-- The text of the further lines. -/
def furtherText : List (Str × Str) → Str
  | [] => []
  | (b, l) :: ls => b ++ l ++ '\n' :: furtherText ls

/-- The text of an entry. -/
def EntryLayout.text (e : EntryLayout) : Str :=
  e.first.text ++ moreText e.more ++ e.gap ++ e.line ++ '\n' :: furtherText e.further

/-- The further lines as part of the description. -/
def furtherLines : List (Str × Str) → Str
  | [] => []
  | (_, l) :: ls => l ++ '\n' :: furtherLines ls

/-- What an entry says. -/
def EntryLayout.meaning (e : EntryLayout) : HelpItem :=
  .options (e.first.meaning :: e.more.map fun m => m.2.2.meaning)
    (some (e.line ++ '\n' :: furtherLines e.further))

/-- A line of a description: no newline, and the blanks in front are not part of
it. -/
def DescriptionLine (l : Str) : Prop :=
  '\n' ∉ l ∧ l.head? ≠ some ' ' ∧ l.head? ≠ some '\t'

/-- The entry is laid out as usual: less than ten blanks in front; the
description on the same line after two blanks, or on the following lines, each of
which is indented; a line of the description that begins with a hyphen is
indented by ten blanks or more. -/
structure EntryLayout.Usual (e : EntryLayout) : Prop where
  first : e.first.Usual
  short : e.first.blanks.length < 10
  more : ∀ m ∈ e.more, Blanks m.1 ∧ (m.2.1 = ',' ∨ m.2.1 = '|') ∧ m.2.2.Usual
  gap : Blanks e.gap
  wide : e.line ≠ [] → 2 ≤ e.gap.length
  line : DescriptionLine e.line ∧ e.line.head? ≠ some ',' ∧ e.line.head? ≠ some '|'
  further : ∀ l ∈ e.further, Blanks l.1 ∧ l.1 ≠ [] ∧ DescriptionLine l.2 ∧
    (l.2.head? = some '-' → 10 ≤ l.1.length)

/-- A part of a help text: a line of other text or an entry. -/
inductive Part where
  | other (line : Str)
  | entry (e : EntryLayout)

/-- The text of a part. -/
def Part.text : Part → Str
  | .other l => l ++ ['\n']
  | .entry e => e.text

/-- What a part says. -/
def Part.meaning : Part → HelpItem
  | .other l => .unparsed (l ++ ['\n'])
  | .entry e => e.meaning

/-- The parts are laid out as usual.  A line of other text has no hyphen as its
first character after blanks, and is not indented when it follows an entry
(`after`), since it would belong to the description of that entry. -/
inductive Usual : (after : Bool) → List Part → Prop where
  | nil {after} : Usual after []
  | other {after l ps} : '\n' ∉ l → (after = true → l.head? ≠ some ' ' ∧ l.head? ≠ some '\t') →
      (∀ b r, l = b ++ r → Blanks b → r.head? ≠ some '-') → Usual false ps →
      Usual after (.other l :: ps)
  | entry {after e ps} : e.Usual → Usual true ps → Usual after (.entry e :: ps)

/-- The text of a list of parts. -/
def text (ps : List Part) : Str := (ps.map Part.text).flatten

end CC.HelpText
