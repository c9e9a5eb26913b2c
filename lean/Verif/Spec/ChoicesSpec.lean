import Verif.Spec.Posix
import Verif.Spec.Fish
/-!
# What a list of words offers in the three shells (specification, independent of the model)
-/

/-! ## Bash -/

namespace BashWords

/-- The rest of a text behind a prefix. -/
def behind (p s : List Char) : Option (List Char) := if p <+: s then some (s.drop p.length) else none

/-- The rest of a text before a suffix. -/
def inFront (p s : List Char) : Option (List Char) := if p <:+ s then some (s.take (s.length - p.length)) else none

/-- Field splitting at blanks and newlines. -/
def fields : List Char → List Char → List (List Char)
  | w, [] => if w = [] then [] else [w]
  | w, c :: cs =>
    if Posix.blank c then (if w = [] then fields [] cs else w :: fields [] cs) else fields (w ++ [c]) cs

/-- Characters that start a pathname expansion, and the backslash. -/
def globbing : List Char := ['*', '?', '[', '\\']

/-- The effect of `COMPREPLY=($(compgen -W LIST -- "$cur"))`, or the same with `+=`, on `COMPREPLY`. The list
is read as words; those that begin with `cur` are printed, one on a line; the output is split into fields.
`none`: not such a command, or a pathname expansion could happen. -/
def compgen (cur : List Char) (before : List (List Char)) (code : List Char) : Option (List (List Char)) := do
  let r ← behind "COMPREPLY".toList code
  let (append, r) := match r with
    | '+' :: r => (true, r)
    | r => (false, r)
  let r ← behind "=($(compgen -W ".toList r
  let w ← inFront " -- \"$cur\"))".toList r
  match Posix.words w with
  | some [list] => do
    let ws ← Posix.words list
    let shown := ws.filter (fun w => cur.isPrefixOf w)
    if shown.any (fun w => w.any (fun c => globbing.contains c)) then none
    else some ((if append then before else []) ++ fields [] (shown.flatMap (fun w => w ++ ['\n'])))
  | _ => none

/-- The effect of a call of the function `name`, whose effect is `helper`, or of a `compgen` command. -/
def run (name : List Char) (helper : List (List Char) → List (List Char) → List (List Char))
    (cur : List Char) (before : List (List Char)) (code : List Char) : Option (List (List Char)) :=
  match Posix.words code with
  | some (w :: args) => if w = name then some (helper before args) else none
  | _ => compgen cur before code

end BashWords

/-! ## Zsh -/

namespace ZshWords

/-- Remove the backslashes, each of which keeps the next character (`rembslash` in `computil.c`). -/
def unescape : List Char → List Char
  | [] => []
  | ['\\'] => []
  | '\\' :: c :: cs => c :: unescape cs
  | c :: cs => c :: unescape cs

/-- Split at the first colon that has no backslash before it. -/
def atColon : List Char → List Char × Option (List Char)
  | [] => ([], none)
  | ':' :: cs => ([], some cs)
  | '\\' :: c :: cs => ('\\' :: c :: (atColon cs).1, (atColon cs).2)
  | c :: cs => (c :: (atColon cs).1, (atColon cs).2)

/-- How `_describe` reads an element: a word, and a description after a colon (`cd_init` in `computil.c`). -/
def described (w : List Char) : List Char × Option (List Char) :=
  (unescape (atColon w).1, (atColon w).2.map unescape)

/-- The words, with their descriptions, that an action `(a b)` or `((a:x b:y))` of `_arguments` offers. -/
def offered (action : List Char) : Option (List (List Char × Option (List Char))) :=
  match action with
  | '(' :: '(' :: r =>
    (BashWords.inFront "))".toList r).bind (fun b => (Posix.words b).map (·.map described))
  | '(' :: r => (BashWords.inFront ")".toList r).bind (fun b => (Posix.words b).map (·.map (fun w => (w, none))))
  | _ => none

/-- The words, with their descriptions, that a function of this form offers, and the heading:
an array of elements, and a call of `_describe` for it. -/
def functionOffers (body : List Char) (heading : List Char) (items : List (List Char × Option (List Char))) : Prop :=
  ∃ array call elements,
    body = "local items=(\n".toList ++ array ++ ")\n\n".toList ++ call ∧
    Posix.words array = some elements ∧
    Posix.words call = some ["_describe".toList, "--".toList, heading, "items".toList] ∧
    elements.map described = items

end ZshWords

/-! ## Fish -/

namespace FishWords

/-- The lines that `printf FORMAT ARGS…` prints, for the two formats in use: the format is used again until
all arguments are printed, and at least once. -/
def printfLines : List (List Char) → Option (List (List Char))
  | f :: args =>
    if f = "%s\\n".toList then some (if args = [] then [[]] else args)
    else if f = "%s\\t%s\\n".toList then some (if args = [] then [['\t']] else pairs args)
    else none
  | [] => none
where
  pairs : List (List Char) → List (List Char)
    | [] => []
    | [a] => [a ++ ['\t']]
    | a :: b :: r => (a ++ ['\t'] ++ b) :: pairs r

/-- A candidate of Fish: the word ends at the first tab, the description follows. -/
def candidate (line : List Char) : List Char × List Char :=
  (line.takeWhile (· ≠ '\t'), (line.dropWhile (· ≠ '\t')).drop 1)

/-- The candidates that the argument of `-a` offers, when it consists of words. -/
def offered (arg : List Char) : Option (List (List Char × List Char)) := (Fish.words arg).map (·.map candidate)

/-- The candidates that a function with a single call of `printf` offers. The output of a command
substitution is split at newlines. -/
def functionOffers (body : List Char) : Option (List (List Char × List Char)) :=
  match Fish.words body with
  | some (cmd :: args) => if cmd = "printf".toList then
      (printfLines args).bind (fun lines =>
        if lines.any (fun l => l.contains '\n') then none else some (lines.map candidate))
    else none
  | _ => none

end FishWords
