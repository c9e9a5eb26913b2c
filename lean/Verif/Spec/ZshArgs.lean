import Verif.Spec.Posix
/-!
# How Zsh reads the specs of `_arguments` (specification, independent of the model)

After the zshcompsys manual and the reader in `Src/Zle/computil.c` (`parse_cadef`, `parse_caarg`,
`rembslash`, `rembslashcolon`).
-/

namespace ZshArgs

/-- Where the argument of an option stands: in the next word; in the same word or the next (`+`); in the
same word (`-`); after `=` or in the next word (`=`); after `=` (`=-`). -/
inductive Place where
  | next | sameOrNext | same | equalsOrNext | equals
  deriving DecidableEq, Repr

/-- The content of an option spec. `argument` has the message and the action; `isOptional` says that the
argument is introduced by `::`. -/
structure Spec where
  hidden : Bool
  excludes : List (List Char)
  repeated : Bool
  name : List Char
  place : Place
  explanation : Option (List Char)
  isOptional : Bool
  argument : Option (List Char × List Char)
  deriving DecidableEq, Repr

/-- A word of a list, if it is not empty. -/
def word (w : List Char) : List (List Char) := if w.isEmpty then [] else [w]

/-- The words of a list up to `)`. -/
def readList : List Char → List Char → Option (List (List Char) × List Char)
  | _, [] => none
  | w, c :: cs =>
    if c = ')' then some (word w, cs)
    else if c = ' ' then (readList [] cs).map (fun r => (word w ++ r.1, r.2))
    else readList (w ++ [c]) cs

/-- The name, with its suffix, up to `[` or `:`. -/
def readName : List Char → List Char × List Char
  | [] => ([], [])
  | c :: cs => if c = '[' ∨ c = ':' then ([], c :: cs) else ((c :: (readName cs).1), (readName cs).2)

/-- Name and suffix. -/
def splitSuffix (n : List Char) : List Char × Place :=
  match n.reverse with
  | '-' :: '=' :: r => (r.reverse, .equals)
  | '-' :: r => (r.reverse, .same)
  | '=' :: r => (r.reverse, .equalsOrNext)
  | '+' :: r => (r.reverse, .sameOrNext)
  | _ => (n, .next)

/-- The explanation up to `]`. A backslash takes the next character as it is. -/
def readExplanation : List Char → Option (List Char × List Char)
  | [] => none
  | ']' :: r => some ([], r)
  | '\\' :: c :: r => (readExplanation r).map (fun x => (c :: x.1, x.2))
  | c :: r => (readExplanation r).map (fun x => (c :: x.1, x.2))

/-- A message or an action up to `:`. A backslash protects the next character; backslashes before colons
are removed, others stay. -/
def readMessage : List Char → List Char × Option (List Char)
  | [] => ([], none)
  | ':' :: r => ([], some r)
  | '\\' :: ':' :: r => (':' :: (readMessage r).1, (readMessage r).2)
  | '\\' :: c :: r => ('\\' :: c :: (readMessage r).1, (readMessage r).2)
  | c :: r => (c :: (readMessage r).1, (readMessage r).2)

/-- `message:action`. -/
def readArgument (r : List Char) : Option (List Char × List Char) :=
  match readMessage r with
  | (m, none) => some (m, [])
  | (m, some r) => match readMessage r with
    | (a, none) => some (m, a)
    | (_, some _) => none

/-- The part after the explanation. -/
def readArguments : List Char → Option (Bool × Option (List Char × List Char))
  | [] => some (false, none)
  | ':' :: ':' :: r => (readArgument r).map (fun a => (true, some a))
  | ':' :: r => (readArgument r).map (fun a => (false, some a))
  | _ => none

/-- The part after the name. -/
def readRest : List Char → Option (Option (List Char) × Bool × Option (List Char × List Char))
  | '[' :: r => (readExplanation r).bind (fun x => (readArguments x.2).map (fun a => (some x.1, a)))
  | r => (readArguments r).map (fun a => (none, a))

/-- The part after the exclusion list. -/
def readOption (hidden : Bool) (excludes : List (List Char)) (s : List Char) : Option Spec :=
  let (repeated, s) := match s with
    | '*' :: r => (true, r)
    | _ => (false, s)
  let (n, r) := readName s
  let (name, place) := splitSuffix n
  (readRest r).map (fun (e, o, a) => ⟨hidden, excludes, repeated, name, place, e, o, a⟩)

/-- The part after the `!` of hidden options. -/
def readListed (hidden : Bool) : List Char → Option Spec
  | '(' :: r => (readList [] r).bind (fun x => readOption hidden x.1 x.2)
  | s => readOption hidden [] s

/-- Read an option spec. -/
def read : List Char → Option Spec
  | '!' :: r => readListed true r
  | s => readListed false s

/-- The content of a spec of a normal argument: `none` for `*`, or the number; whether it is written
with two colons; the message and the action. -/
structure Normal where
  number : Option (List Char)
  double : Bool
  message : List Char
  action : List Char
  deriving DecidableEq, Repr

/-- Read a spec of a normal argument. -/
def readNormal (s : List Char) : Option Normal :=
  let number := s.takeWhile (· ≠ ':')
  let r := s.dropWhile (· ≠ ':')
  if number = ['*'] ∨ (number ≠ [] ∧ ∀ c ∈ number, c.isDigit = true) then
    match readArguments r with
    | some (double, some (m, a)) => some ⟨if number = ['*'] then none else some number, double, m, a⟩
    | _ => none
  else none

/-- The words that Zsh makes of an array element: quotes are removed; a group `{a,b}` outside quotes,
with plain alternatives, gives one word for each alternative. -/
inductive Expands (text : List Char) : List (List Char) → Prop
  | one (w) : Posix.words text = some [w] → Expands text [w]
  | braces (pre post : List Char) (alts : List (List Char)) (w : List Char → List Char) :
      text = pre ++ '{' :: (List.intercalate [','] alts ++ '}' :: post) → 2 ≤ alts.length →
      (Posix.words pre).isSome = true → (∀ a ∈ alts, ∀ c ∈ a, c.isAlphanum = true ∨ c ∈ ['-', '_', '+', '=', '.']) →
      (∀ a ∈ alts, Posix.words (pre ++ a ++ post) = some [w a]) →
      Expands text (alts.map w)

end ZshArgs
