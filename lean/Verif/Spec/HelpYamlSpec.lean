import Verif.Model.HelpParser
import Verif.Spec.YamlText
import Verif.Spec.YamlExportSpec
/-!
# The definition that belongs to a help text

What the YAML definition written from a help text should say, in terms of the items that the text
consists of. Nothing here refers to the functions of the converter.
-/

namespace CC
namespace HelpYaml

/-- The lines of a description as one line: a blank between two lines, but none after a hyphen. -/
def oneLine : List Str → Str
  | [] => []
  | [l] => l
  | l :: m :: ls => if l.getLast? = some '-' then l ++ oneLine (m :: ls) else l ++ ' ' :: oneLine (m :: ls)

/-- The text without white space at its ends. -/
structure Trimmed (s t : Str) : Prop where
  ends : ∃ a b, s = a ++ t ++ b ∧ (∀ c ∈ a, pyIsSpace c = true) ∧ (∀ c ∈ b, pyIsSpace c = true)
  first : ∀ c, t.head? = some c → pyIsSpace c = false
  last : ∀ c, t.getLast? = some c → pyIsSpace c = false

/-- The name that a metavar stands for: `[=NAME]`, `[=<NAME>]`, `<NAME>` or `NAME`. -/
inductive Bare : Str → Str → Prop
  | plain (n : Str) : n.head? ≠ some '[' → n.head? ≠ some '=' → n.head? ≠ some '<' → Bare n n
  | angle (n : Str) : Bare ('<' :: n ++ ['>']) n
  | optional (n : Str) : n.head? ≠ some '<' → Bare ('[' :: '=' :: n ++ [']']) n
  | optionalAngle (n : Str) : Bare ('[' :: '=' :: '<' :: n ++ ['>', ']']) n

/-- The text without characters of the set at its ends. -/
structure Without (cs : List Char) (s t : Str) : Prop where
  ends : ∃ a b, s = a ++ t ++ b ∧ (∀ c ∈ a, c ∈ cs) ∧ (∀ c ∈ b, c ∈ cs)
  first : ∀ c, t.head? = some c → c ∉ cs
  last : ∀ c, t.getLast? = some c → c ∉ cs

/-- The names of arguments that say what is completed. -/
def argumentNames : List (Str × List Str) := [
  (S "file", [S "f"]),
  (S "integer", [S "n", S "duration", S "bits", S "cols", S "column", S "digits", S "size", S "bytes"]),
  (S "pid", [S "pid"]), (S "user", [S "user"]), (S "group", [S "group"]),
  (S "command", [S "program", S "command"]), (S "cmd", [S "cmd"]), (S "signal", [S "signal", S "sig"])]

/-- The ends of names of arguments that say what is completed. -/
def argumentEnds : List (Str × List Str) := [
  (S "file", [S "file", S "filename"]), (S "directory", [S "dir", S "directory"]),
  (S "integer", [S "seconds", S "length", S "width", S "num", S "number"])]

/-- The name says what is completed, whatever its case. -/
def SaysKind (n k : Str) : Prop := ∃ ws, (k, ws) ∈ argumentNames ∧ lower n ∈ ws

/-- The end of the name says what is completed. -/
def EndSaysKind (n k : Str) : Prop := ∃ ws w p, (k, ws) ∈ argumentEnds ∧ w ∈ ws ∧ lower n = p ++ w

/-- Every word is the item of the same place without white space at its ends. -/
inductive TrimmedAll : List Str → List Str → Prop
  | nil : TrimmedAll [] []
  | cons {i t is ts} : Trimmed i t → TrimmedAll is ts → TrimmedAll (i :: is) (t :: ts)

/-- The completer for an argument with this name: what the name or its end says, the words of
`{a|b}` or `{a,b}`, or none. -/
inductive Suggests (n : Str) : List Val → Prop
  | name {k} : SaysKind n k → Suggests n [.str k]
  | suffix {k} : (∀ k, ¬ SaysKind n k) → EndSaysKind n k → Suggests n [.str k]
  | choices {body sep items ts} : (∀ k, ¬ SaysKind n k) → (∀ k, ¬ EndSaysKind n k) → n.head? = some '{' →
      n.getLast? = some '}' → Without ['{', '}'] n body → sep = '|' ∨ sep = ',' ∧ '|' ∉ body →
      body = joinWith [sep] items → (∀ i ∈ items, sep ∉ i) → 2 ≤ items.length → TrimmedAll items ts →
      Suggests n [.str (S "choices"), .list (ts.map .str)]
  | none : (∀ k, ¬ SaysKind n k) → (∀ k, ¬ EndSaysKind n k) →
      n.head? ≠ some '{' ∨ n.getLast? ≠ some '}' ∨ (∃ body, Without ['{', '}'] n body ∧ '|' ∉ body ∧ ',' ∉ body) →
      Suggests n [.str (S "none")]

/-- The metavar that counts: the last one that is not empty. -/
def lastMetavar (os : List HelpOption) : Option Str := ((os.filterMap (·.metavar)).filter (· ≠ [])).getLast?

/-- The dictionary of an option says what the item says. -/
structure Says (os : List HelpOption) (description : Option Str) (d : List (Key × Val)) : Prop where
  /-- every key once, and no others -/
  keys : (d.map Prod.fst).Sublist ([S "option_strings", S "metavar", S "help", S "optional_arg", S "complete"].map Key.str)
  strings : getKey d (S "option_strings") = some (.list (os.map (fun o => .str o.option)))
  help : ∃ ls t, getKey d (S "help") = some (.str (oneLine ls)) ∧ (∀ l ∈ ls, '\n' ∉ l) ∧ ls ≠ [] ∧
    joinWith ['\n'] ls = t ∧ Trimmed (description.getD []) t
  optional : (∃ o ∈ os, o.optional = true) → getKey d (S "optional_arg") = some (.bool true)
  required : (∀ o ∈ os, o.optional = false) → getKey d (S "optional_arg") = none
  flag : lastMetavar os = none → getKey d (S "metavar") = none ∧ getKey d (S "complete") = none
  metavar : ∀ m n, lastMetavar os = some m → Bare m n → getKey d (S "metavar") = some (.str n)
  argument : ∀ m, lastMetavar os = some m → ∃ n c, getKey d (S "metavar") = some (.str n) ∧ (∃ a b, m = a ++ n ++ b) ∧
    getKey d (S "complete") = some (.list c) ∧ ∃ w, Without ['<', '>'] n w ∧ Suggests w c

/-- The options of the definition, one for each item that has options, in the same order. -/
inductive SaysAll : List HelpItem → List Val → Prop
  | nil : SaysAll [] []
  | unparsed (t : Str) {is vs} : SaysAll is vs → SaysAll (.unparsed t :: is) vs
  | options {os : List HelpOption} {desc : Option Str} {d : List (Key × Val)} {is vs} :
      Says os desc d → SaysAll is vs → SaysAll (.options os desc :: is) (.dict d :: vs)

/-- The document that is written. Without options their list is null. -/
def document (prog : Str) (options : List Val) : Val :=
  .dict [(.str (S "prog"), .str prog), (.str (S "help"), .str (S "<Program description here>")),
    (.str (S "options"), if options = [] then .none else .list options)]

/-- A character that may stand in a YAML comment. -/
def CommentChar (c : Char) : Prop := YamlText.isPrintable c = true ∧ YamlText.isBreak c = false

/-- An item that can be written. -/
inductive Writable : HelpItem → Prop
  | unparsed (l : Str) (t : Str) : (∀ c ∈ l, CommentChar c) → (t = [] ∨ t = ['\n']) → Writable (.unparsed (l ++ t))
  | options (os : List HelpOption) (desc : Option Str) : (∀ o ∈ os, BasicText o.option ∧ BasicText? o.metavar) →
      BasicText? desc → Writable (.options os desc)

/-- A name that can stand in double quotes. -/
def QuotableName (s : Str) : Prop := ∀ c ∈ s, CommentChar c ∧ c ≠ '"' ∧ c ≠ '\\'

end HelpYaml
end CC
