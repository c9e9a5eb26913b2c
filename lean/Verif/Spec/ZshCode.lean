import Verif.Spec.BashCode
import Verif.Spec.ZshArgs
import Verif.Spec.ChoicesSpec
/-!
# How Zsh reads the code of a completer and the definitions of `_values` (specification)

The words, quotes and operators that the completers use are read in Zsh as in Bash, with one exception: a word
that begins with `=` outside quotes is replaced by the path of a command (the manual, "`=` expansion"), so the
reader refuses words that begin with `=`, unless nothing follows. References: the manual, "Shell Grammar" and
"Completion System"; `Src/Zle/computil.c` (`parse_cvdef`, `parse_caarg`).
-/

namespace ZshCode
open BashCode

/-- A word that is not replaced by the path of a command. -/
def keeps (w : List Char) : Bool := w.head? != some '=' || w == ['=']

/-- The words of a statement. -/
def words : Stmt → List (List Char)
  | .call ws => ws
  | .callWith ws _ => ws
  | .compgen _ args => args
  | .enter dir => [dir]
  | .push key ws => key.toList ++ ws
  | _ => []

/-- What a text does. -/
def read (t : List Char) : Option (List Stmt) :=
  (BashCode.read t).bind (fun ss => if ss.all (fun s => (words s).all keeps) then some ss else none)

/-! ## The definitions of `_values` -/

/-- The content of a definition: the values that it excludes, whether it may be repeated, the value, its
description, and the action that completes its argument. -/
structure Def where
  excludes : List (List Char)
  repeated : Bool
  name : List Char
  description : Option (List Char)
  action : Option (List Char)
  deriving DecidableEq, Repr

/-- The name up to `:` or `[`. A backslash takes the next character as it is. -/
def readName : List Char → List Char × List Char
  | [] => ([], [])
  | '\\' :: c :: cs => (c :: (readName cs).1, (readName cs).2)
  | c :: cs => if c = '[' ∨ c = ':' then ([], c :: cs) else (c :: (readName cs).1, (readName cs).2)

/-- The text behind the message of an argument. -/
def behindMessage : List Char → List Char
  | [] => []
  | ':' :: r => r
  | '\\' :: _ :: r => behindMessage r
  | _ :: r => behindMessage r

/-- The backslashes before colons are removed. -/
def plainColons : List Char → List Char
  | [] => []
  | '\\' :: ':' :: r => ':' :: plainColons r
  | c :: r => c :: plainColons r

/-- The part behind the description: nothing, or `:message:action`, with one more colon in front if the
argument is optional. -/
def readAction : List Char → Option (Option (List Char))
  | [] => some none
  | ':' :: ':' :: r => some (some (plainColons (behindMessage r)))
  | ':' :: r => some (some (plainColons (behindMessage r)))
  | _ => none

/-- The part behind the name. -/
def readRest : List Char → Option (Option (List Char) × Option (List Char))
  | '[' :: r => (ZshArgs.readExplanation r).bind (fun x => (readAction x.2).map (fun a => (some x.1, a)))
  | r => (readAction r).map (fun a => (none, a))

/-- The part behind the list of excluded values. -/
def readValue (excludes : List (List Char)) (s : List Char) : Option Def :=
  let (repeated, s) := match s with
    | '*' :: r => (true, r)
    | _ => (false, s)
  (readRest (readName s).2).map (fun (d, a) => ⟨excludes, repeated, (readName s).1, d, a⟩)

/-- Read a definition. -/
def readDef : List Char → Option Def
  | '(' :: r => (ZshArgs.readList [] r).bind (fun x => readValue x.1 x.2)
  | s => readValue [] s

end ZshCode
