import Verif.Model.BashKeyValue
import Verif.Model.FishKeyValue
/-!
# Model of the helpers `exec`, `key_value_list_exec` and `key_value_pair_exec` of the three shells

The keys and values are printed by a command. Its output is a list of lines. In Bash and Zsh the command is a text that
`eval` runs: `out text` is what it prints. In Fish it is called with the key as argument: `out key`.
-/

namespace CC

/-! ## `IFS=$'\t' read -r` -/

/-- Without the tabs in front. -/
def dropTabs (s : Str) : Str := s.dropWhile (· == '\t')

/-- The text up to the next tab. -/
def tabField (s : Str) : Str := s.takeWhile (· != '\t')

/-- What is behind the next tabs: a tab in `IFS` is white space, and several of them count as one. -/
def behindTabs (s : Str) : Str := dropTabs (s.dropWhile (· != '\t'))

/-- Without the tabs at the end. -/
def stripTabs (s : Str) : Str := (s.reverse.dropWhile (· == '\t')).reverse

/-- `IFS=$'\t' read -r a b c`; without `c` the last variable is `b`. -/
def readTabs3 (line : Str) : Str × Str × Str :=
  (tabField (dropTabs line), tabField (behindTabs (dropTabs line)), stripTabs (behindTabs (behindTabs (dropTabs line))))

/-- `IFS=$'\t' read -r a b` -/
def readTabs2 (line : Str) : Str × Str := (tabField (dropTabs line), stripTabs (behindTabs (dropTabs line)))

/-- `${text:0:-n}` -/
def cutEnd (n : Nat) (s : Str) : Str := s.take (s.length - n)

/-! ## Bash -/

/-- `exec`, `bash_helpers.py` 206-215: what is appended to `$COMPREPLY`. `special` are the characters for which an item
is quoted, `printfQ` is `printf %q`. -/
def bashExec (special : List Char) (printfQ : Str → Str) (cur : Str) (lines : List Str) : List Str :=
  ((lines.map (fun l => (readTabs2 l).1)).filter (fun i => cur.isPrefixOf i)).map
    (fun i => if i.any (fun c => special.contains c) then printfQ i else i)

/-- The mark of a key, `bash_helpers.py` 485-490: the key without it. (`takes_arg` is set but not used.) -/
def bashUnmarked (key : Str) : Str :=
  if key.getLast? = some '=' then cutEnd 1 key
  else if (S "=?").isSuffixOf key then cutEnd 2 key
  else key

/-- The body of the loop, `bash_helpers.py` 482-501: the key and its text in `excludes`. The values of the key are asked
for by its name. -/
def bashExecKey (line : Str) : KeyArgs :=
  let r := readTabs3 line
  let key := bashUnmarked r.1
  match key with
  | '*' :: k => ⟨k, k, r.2.2⟩
  | k => ⟨k, k, r.2.2 ++ ' ' :: k⟩

/-- `key_value_list_exec`, `bash_helpers.py` 474-577: `$COMPREPLY` after the call. (Simplification: a line without a key
and a text that begins with the separator, for which Bash reports a bad array subscript, are taken as having the key
that is the empty text.) -/
def bashKeyValueListExec (breaks special : List Char) (printfQ : Str → Str) (out : Str → List Str) (sep1 sep2 : Char) (func cur : Str) :
    List Str :=
  let es := (out func).map bashExecKey
  let strip := stripChars breaks [sep1, sep2] cur
  let u := (dequote breaks cur).result
  if u.isEmpty then keyNames es
  else if u.getLast? = some sep1 then (remainingKeys es sep1 sep2 u).map (behindLast strip u ++ ·)
  else
    let pair := behindLast [sep1] u
    if pair.contains sep2 then
      valueReplies (fun key value => bashExec special printfQ value (out (func ++ ' ' :: key))) strip (beforeFirst sep2 pair) u (behindFirst sep2 pair)
    else
      ((remainingKeys es sep1 sep2 u).filter (fun k => pair.isPrefixOf k)).map
        (removeSuffix pair (behindLast strip u) ++ ·)

/-- `key_value_pair_exec`, `bash_helpers.py` 442-472: `$COMPREPLY` after the call. -/
def bashKeyValuePairExec (breaks special : List Char) (printfQ : Str → Str) (out : Str → List Str) (sep : Char) (func cur : Str) : List Str :=
  let strip := stripChars breaks [sep] cur
  let u := (dequote breaks cur).result
  if u.contains sep then
    valueReplies (fun key value => bashExec special printfQ value (out (func ++ ' ' :: key))) strip (beforeFirst sep u) u (behindFirst sep u)
  else bashExec special printfQ u (out func)

/-! ## Fish -/

/-- The key of a line without its marks, whether it takes an argument, and the text in `excludes`, `fish_helpers.py`
826-850. `string match -r '=$'` and `'=\?$'` test the end. -/
def fishExecKey (line : Str) : Str × Bool × Str :=
  let split := splitOn '\t' line
  let key := split.headD []
  let takes := key.getLast? == some '='
  let key := bashUnmarked key
  match key with
  | '*' :: k => (k, takes, (split[2]?).getD [])
  | k => (k, takes, (split[2]?).getD [] ++ ' ' :: k)

/-- `$descriptions`, `fish_helpers.py` 848: nothing is appended for a line without a description. -/
def fishDescriptions (lines : List Str) : List Str := lines.filterMap (fun l => (splitOn '\t' l)[1]?)

/-- The arrays `keys`, `descriptions`, `takes_arg` and `excludes` together, `fish_helpers.py` 817-851. Of the function only
its presence matters here. `string split -n` drops empty names from the excluded keys. -/
def fishExecKeys (lines : List Str) : List FishKey :=
  lines.zipIdx.map (fun l =>
    let e := fishExecKey l.1
    ⟨e.1, ((fishDescriptions lines)[l.2]?).getD [], if e.2.1 then some (fishLeaf (fun _ => [])) else none,
      joinWith [' '] ((splitOn ' ' e.2.2).filter (fun w => !w.isEmpty))⟩)

/-- A line as Fish takes it for a candidate: the description is behind the first tab. -/
def fishCandidate (line : Str) : Str × Str := (line.takeWhile (· != '\t'), (line.dropWhile (· != '\t')).drop 1)

/-- `key_value_list_exec`, `fish_helpers.py` 810-908, for the text `comp`: the candidates. (Simplifications: separators
as in `Model/FishKeyValue.lean`; no key is the empty text; the command does not use the variable `__fish_stripprefix`,
which is set from a variable `sep` that does not exist.) -/
def fishKeyValueListExec (sep1 sep2 : Char) (keyLines : List Str) (out : Str → List Str) (comp : Str) : List (Str × Str) :=
  let es := fishExecKeys keyLines
  if comp.isEmpty || comp.getLast? = some sep1 then (fishRemaining es sep1 sep2 comp).map (keyCandidate comp sep2)
  else
    let pair := (splitOn sep1 comp).getLastD []
    if pair.contains sep2 then
      let value := behindFirst sep2 pair
      (out (beforeFirst sep2 pair)).map (fun v => fishCandidate (comp.take (comp.length - value.length) ++ v))
    else (fishRemaining es sep1 sep2 comp).map (keyCandidate (comp.take (comp.length - pair.length)) sep2)

/-- `key_value_pair_exec`, `fish_helpers.py` 792-808, for the text `comp`: the candidates. -/
def fishKeyValuePairExec (sep : Char) (keyLines : List Str) (out : Str → List Str) (comp : Str) : List (Str × Str) :=
  if comp.contains sep then (out (beforeFirst sep comp)).map (fun v => fishCandidate (beforeFirst sep comp ++ sep :: v))
  else keyLines.map fishCandidate

/-! ## Zsh -/

/-- The description escaped, `zsh_helpers.py` 409-412 and 431-434. -/
def zshEscapeDesc (s : Str) : Str :=
  replaceChar ']' (S "\\]") (replaceChar '[' (S "\\[") (replaceChar ':' (S "\\:") (replaceChar '\\' (S "\\\\") s)))

/-- The action that calls the command for a key, `zsh_helpers.py` 416, 440 and 443; `exec` is the name of the helper. -/
def zshExecAction (exec func key : Str) : Str := S "{" ++ exec ++ S " '" ++ func ++ [' '] ++ key ++ S "'}"

/-- A definition for `_values`, `zsh_helpers.py` 430-447. -/
def zshExecSpec (exec func line : Str) : Str :=
  let r := readTabs3 line
  let desc := zshEscapeDesc r.2.1
  let excludes := if r.2.2.isEmpty then [] else S "(" ++ r.2.2 ++ S ")"
  if r.1.getLast? = some '=' then
    excludes ++ cutEnd 1 r.1 ++ S "[" ++ desc ++ S "]: :" ++ zshExecAction exec func (cutEnd 1 r.1)
  else if (S "=?").isSuffixOf r.1 then
    excludes ++ cutEnd 2 r.1 ++ S "[" ++ desc ++ S "]:: :" ++ zshExecAction exec func (cutEnd 2 r.1)
  else excludes ++ r.1 ++ S "[" ++ desc ++ S "]"

/-- `key_value_list_exec`, `zsh_helpers.py` 423-451: the arguments of `_values`. -/
def zshKeyValueListExec (exec : Str) (out : Str → List Str) (sep1 sep2 func : Str) : List Str :=
  [S "-s", sep1, S "-S", sep2, []] ++ (out func).map (zshExecSpec exec func)

/-- A definition for `_values`, `zsh_helpers.py` 408-419. -/
def zshPairSpec (exec func line : Str) : Str :=
  let r := readTabs2 line
  let desc := zshEscapeDesc r.2
  if r.1.getLast? = some '=' then cutEnd 1 r.1 ++ S "[" ++ desc ++ S "]:::" ++ zshExecAction exec func (cutEnd 1 r.1)
  else r.1 ++ S "[" ++ desc ++ S "]"

/-- `key_value_pair_exec`, `zsh_helpers.py` 401-421: the arguments of `_values`. -/
def zshKeyValuePairExec (exec : Str) (out : Str → List Str) (sep func : Str) : List Str :=
  [S "-S", sep, []] ++ (out func).map (zshPairSpec exec func)

/-- An element for `_describe`, `exec`, `zsh_helpers.py` 388-399. -/
def zshExecItem (line : Str) : Str :=
  let r := readTabs2 line
  let item := replaceChar ':' (S "\\:") (replaceChar '\\' (S "\\\\") r.1)
  if r.2.isEmpty then item else item ++ [':'] ++ replaceChar '\\' (S "\\\\") r.2

end CC
