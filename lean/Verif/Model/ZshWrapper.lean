import Verif.Model.Cli
import Verif.Model.Algo
import Verif.Model.OptionString
import Verif.Model.Abbrev
/-!
# Model of `crazy_complete/zsh_wrapper.py`: the function that hands a line to the wrapped command

The template `_CODE` (11-70) is modelled by what its parts do: the chain of tests with the words each of them
deletes (the parts between `#ifdef` and `#endif` that are kept), and the loops around it, run on the shell's
variables `words` and `CURRENT`. How Zsh reads a pattern is not part of the model: it is a parameter, see
`Spec/ZshWrapperSpec.lean`. Simplified: filling the placeholders is direct (`replace_many` would also fill
placeholders in the filled text), the test `" ${delete[@]} " != *" $i "*` is membership of the number, and the call
of the program's own completion function in front is left out.
-/

namespace CC

/-- The values of `arg_type` in `zsh_wrapper.py`. -/
inductive WrapArg where
  | none | arg | optional
  deriving DecidableEq

/-- `o.lstrip('-')`, `zsh_wrapper.py` 79-80. -/
def wrapStrip (s : Str) : Str := s.dropWhile (· = '-')

/-- `_make_long_opts_pattern`, `zsh_wrapper.py` 73-95. -/
def makeLongOptsPattern (opts : List Str) (t : WrapArg) : Str :=
  if opts = [] then []
  else
    let p := partitionBy isLongOptionString opts
    let long := p.1.map wrapStrip
    let old := p.2.map wrapStrip
    let r :=
      if long ≠ [] ∧ old ≠ [] then S "-(" ++ joinWith ['|'] old ++ S "|-(" ++ joinWith ['|'] long ++ S "))"
      else if long ≠ [] then S "--(" ++ joinWith ['|'] long ++ S ")"
      else if old ≠ [] then S "-(" ++ joinWith ['|'] old ++ S ")"
      else []
    match t with
    | .arg => r ++ S "=*"
    | .optional => r ++ S "(|=*)"
    | .none => r

/-- `_make_short_opts_flag_regex`, `zsh_wrapper.py` 98-102. -/
def makeShortOptsFlagRegex (flags : Str) : Str :=
  if flags = [] then [] else S "^-[" ++ flags ++ S "]+$"

/-- `_make_short_opts_arg_regex`, `zsh_wrapper.py` 105-119. -/
def makeShortOptsArgRegex (flags args : Str) (t : WrapArg) : Str :=
  if args = [] then []
  else
    let r := if flags ≠ [] then S "-[" ++ flags ++ S "]*[" ++ args ++ S "]" else S "-[" ++ args ++ S "]"
    let r := match t with
      | .arg => r ++ S ".+"
      | .optional => r ++ S ".*"
      | .none => r
    S "^" ++ r ++ S "$"

/-- The lists of `generate_wrapper`, `zsh_wrapper.py` 132-138 and 154-156. -/
structure WrapOpts where
  longArg : List Str := []
  longFlag : List Str := []
  longOptional : List Str := []
  shortArg : List Str := []
  shortFlag : List Str := []
  shortOptional : List Str := []

/-- One round of the loop, `zsh_wrapper.py` 140-152. -/
def WrapOpts.add (w : WrapOpts) (o : Opt) : WrapOpts :=
  if o.hasRequiredArg then
    { w with longArg := w.longArg ++ o.longStrings ++ o.oldStrings, shortArg := w.shortArg ++ o.shortStrings }
  else if o.hasOptionalArg then
    { w with longOptional := w.longOptional ++ o.longStrings ++ o.oldStrings, shortOptional := w.shortOptional ++ o.shortStrings }
  else
    { w with longFlag := w.longFlag ++ o.longStrings ++ o.oldStrings, shortFlag := w.shortFlag ++ o.shortStrings }

/-- The loop, `zsh_wrapper.py` 140-152, over `commandline.get_options()`: only the command's own options. -/
def wrapOpts (c : Cmd) : WrapOpts := (getOptions [] c false false).foldl WrapOpts.add {}

/-- `''.join(o[1] for o in ...)`, `zsh_wrapper.py` 154-156. -/
def letters (ss : List Str) : Str := ss.map (fun s => s.getD 1 ' ')

/-- A test of the chain: `[[ "$w" == pattern ]]` or `[[ "$w" =~ 'regex' ]]`. -/
inductive WrapTest where
  | glob (p : Str)
  | regex (p : Str)
  deriving DecidableEq

/-- A branch of the chain: the test, and whether the next word is deleted, too. -/
structure WrapBranch where
  test : WrapTest
  next : Bool

/-- The chain of tests, `zsh_wrapper.py` 20-50, with the patterns of 158-195 and the branches kept by the names of
197-211. -/
def wrapBranches (w : WrapOpts) : List WrapBranch :=
  let flags := letters w.shortFlag
  let args := letters w.shortArg
  let optionals := letters w.shortOptional
  (if w.longArg ≠ [] then
    [⟨.glob (makeLongOptsPattern w.longArg .arg), false⟩, ⟨.glob (makeLongOptsPattern w.longArg .none), true⟩] else []) ++
  (if w.longOptional ≠ [] then [⟨.glob (makeLongOptsPattern w.longOptional .optional), false⟩] else []) ++
  (if w.longFlag ≠ [] then [⟨.glob (makeLongOptsPattern w.longFlag .none), false⟩] else []) ++
  (if args ≠ [] then
    [⟨.regex (makeShortOptsArgRegex flags args .none), true⟩, ⟨.regex (makeShortOptsArgRegex flags args .arg), false⟩] else []) ++
  (if optionals ≠ [] then [⟨.regex (makeShortOptsArgRegex flags optionals .optional), false⟩] else []) ++
  (if flags ≠ [] then [⟨.regex (makeShortOptsFlagRegex flags), false⟩] else [])

/-- Which branch a word takes, if any: whether the next word is deleted, too. -/
def wrapHit (holds : WrapTest → Str → Bool) (bs : List WrapBranch) (w : Str) : Option Bool :=
  (bs.find? (fun b => holds b.test w)).map (·.next)

/-- The first loop, `zsh_wrapper.py` 17-51, from word number `i` on: the array `delete`. -/
def wrapDelete (hit : Str → Option Bool) : Nat → List Str → List Nat
  | _, [] => []
  | i, w :: r => match hit w with
    | none => wrapDelete hit (i + 1) r
    | some false => i :: wrapDelete hit (i + 1) r
    | some true => match r with
      | [] => [i, i + 1]
      | _ :: r' => i :: (i + 1) :: wrapDelete hit (i + 2) r'

/-- `new_words`, `zsh_wrapper.py` 59-63, from word number `i` on. -/
def wrapKept (delete : List Nat) : Nat → List Str → List Str
  | _, [] => []
  | i, w :: r => if i ∈ delete then wrapKept delete (i + 1) r else w :: wrapKept delete (i + 1) r

/-- What the completion function of the wrapped command finds: the words and the number of the word at the cursor. -/
structure WrapLine where
  words : List Str
  current : Nat
  deriving DecidableEq

/-- The function for a program that wraps `wraps`, `zsh_wrapper.py` 15-68. Assigning `words[1]` in an empty array
makes it an array of one word. -/
def wrapRun (hit : Str → Option Bool) (wraps : Str) (line : WrapLine) : WrapLine :=
  let delete := wrapDelete hit 1 line.words
  let adjust := (delete.filter (fun d => d < line.current)).length
  { words := wraps :: (wrapKept delete 1 line.words).drop 1, current := line.current - adjust }

/-- `generate_wrapper`, `zsh_wrapper.py` 122-213: nothing if the program wraps no command, otherwise what the
generated function makes of a line. -/
def zshWrapper (holds : WrapTest → Str → Bool) (c : Cmd) : Option (WrapLine → WrapLine) :=
  match c.data.wraps with
  | some (w :: ws) => some (wrapRun (wrapHit holds (wrapBranches (wrapOpts c))) (w :: ws))
  | _ => none

end CC
