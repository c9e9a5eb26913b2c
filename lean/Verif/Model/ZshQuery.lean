import Verif.Spec.Cmdline
import Verif.Model.Cli
/-!
# Model of the option table and of the Zsh `query init` parser

`utils.get_query_option_strings` and the part of `zsh_helpers.py` (`_QUERY`, 176-318) that reads
the table and parses the words. `long`, `short`, `old` say which of the `#ifdef` parts are
compiled in. The Zsh text is modelled by what it does: arrays are lists, `case` patterns are the
conditions they stand for.
-/

namespace CC

/-- The argument kind of an option: `has_required_arg`, `has_optional_arg`, `cli.py` 817-825. -/
def Opt.kind (o : Opt) : ArgKind :=
  if o.hasRequiredArg then .required else if o.hasOptionalArg then .optional else .flag

/-- One entry: `utils.py` 267-272. -/
def queryField (k : ArgKind) (s : Str) : Str := match k with
  | .required => s ++ ['=']
  | .optional => s ++ ['=', '?']
  | .flag => s

/-- `get_query_option_strings`, `utils.py` 257-274, for the options returned by `get_options`. -/
def queryOptionStrings (options : List Opt) : Str :=
  joinWith [' '] (options.flatMap (fun o => o.strings.map (queryField o.kind)))

/-- The nine arrays, `zsh_helpers.py` 180-189. -/
structure ZshArrays where
  longArg : List Str := []
  longOpt : List Str := []
  longFlag : List Str := []
  shortArg : List Str := []
  shortOpt : List Str := []
  shortFlag : List Str := []
  oldArg : List Str := []
  oldOpt : List Str := []
  oldFlag : List Str := []

/-- The last character is `=`. -/
def endsEq (s : Str) : Bool := s.getLast? == some '='
/-- The last two characters are `=?`. -/
def endsEqQ (s : Str) : Bool := s.getLast? == some '?' && s.dropLast.getLast? == some '='

/-- One round of the loop that sorts the options into the arrays, `zsh_helpers.py` 191-213. -/
def zshClassify (long short old : Bool) (a : ZshArrays) (s : Str) : ZshArrays :=
  if long && startsWith s ['-', '-'] && decide (s.length ≥ 4) && endsEq s then
    { a with longArg := a.longArg ++ [s.dropLast] }
  else if long && startsWith s ['-', '-'] && decide (s.length ≥ 5) && endsEqQ s then
    { a with longOpt := a.longOpt ++ [s.dropLast.dropLast] }
  else if long && startsWith s ['-', '-'] && decide (s.length ≥ 3) then
    { a with longFlag := a.longFlag ++ [s] }
  else if short && startsWith s ['-'] && decide (s.length = 3) && endsEq s then
    { a with shortArg := a.shortArg ++ [s.dropLast] }
  else if short && startsWith s ['-'] && decide (s.length = 4) && endsEqQ s then
    { a with shortOpt := a.shortOpt ++ [s.dropLast.dropLast] }
  else if short && startsWith s ['-'] && decide (s.length = 2) then
    { a with shortFlag := a.shortFlag ++ [s] }
  else if old && startsWith s ['-'] && decide (s.length ≥ 4) && endsEq s then
    { a with oldArg := a.oldArg ++ [s.dropLast] }
  else if old && startsWith s ['-'] && decide (s.length ≥ 5) && endsEqQ s then
    { a with oldOpt := a.oldOpt ++ [s.dropLast.dropLast] }
  else if old && startsWith s ['-'] && decide (s.length ≥ 3) then
    { a with oldFlag := a.oldFlag ++ [s] }
  else a

/-- `${=1}`: split at spaces (the table contains no other separators), dropping empty fields. -/
def zshFields (s : Str) : List Str := (splitOn ' ' s).filter (fun f => !f.isEmpty)

/-- Reading the table, `zsh_helpers.py` 165 and 180-213. -/
def zshArrays (long short old : Bool) (opts : Str) : ZshArrays :=
  (zshFields opts).foldl (zshClassify long short old) {}

/-- `HAVING_OPTIONS` with `OPTION_VALUES`, `POSITIONALS` and `INCOMPLETE_OPTION`. -/
structure Parsed where
  having : List (Str × Str) := []
  positionals : List Str := []
  incomplete : Str := []
  deriving DecidableEq, Repr

/-- What one word does: options recorded, positionals recorded, an incomplete option, and whether
the next word is used up. -/
structure WordEffect where
  having : List (Str × Str) := []
  positionals : List Str := []
  incomplete : Option Str := none
  skip : Bool := false

/-- Apply the effect of a word. -/
def Parsed.apply (p : Parsed) (e : WordEffect) : Parsed :=
  ⟨p.having ++ e.having, p.positionals ++ e.positionals, e.incomplete.getD p.incomplete⟩

/-- The part before the first `=`: `${arg%%=*}`. -/
def beforeEq (s : Str) : Str := s.takeWhile (· != '=')
/-- The part after the first `=`: `${arg#*=}`. -/
def afterEq (s : Str) : Str := (s.dropWhile (· != '=')).drop 1

/-- An option that needs its argument in the next word, `zsh_helpers.py` 241-249. -/
def zshNext (o : Str) (next : Option Str) : WordEffect := match next with
  | some v => { having := [(o, v)], skip := true }
  | none => { incomplete := some o }

/-- The loop over the letters of a cluster, `zsh_helpers.py` 280-311. -/
def zshCluster (a : ZshArrays) (next : Option Str) : Str → WordEffect
  | [] => {}
  | c :: trailing =>
    if a.shortFlag.contains ['-', c] then
      let e := zshCluster a next trailing
      ⟨(['-', c], []) :: e.having, e.positionals, e.incomplete, e.skip⟩
    else if a.shortArg.contains ['-', c] then
      if trailing ≠ [] then { having := [(['-', c], trailing)] } else zshNext ['-', c] next
    else if a.shortOpt.contains ['-', c] then { having := [(['-', c], trailing)] }
    else zshCluster a next trailing

/-- The old-style part, `zsh_helpers.py` 257-278: `none` if the word is not an old-style option. -/
def zshOld (a : ZshArrays) (next : Option Str) (arg : Str) : Option WordEffect :=
  if arg.contains '=' then
    if a.oldArg.contains (beforeEq arg) || a.oldOpt.contains (beforeEq arg) then
      some { having := [(beforeEq arg, afterEq arg)] }
    else none
  else if a.oldArg.contains arg then some (zshNext arg next)
  else if a.oldFlag.contains arg || a.oldOpt.contains arg then some { having := [(arg, [])] }
  else none

/-- One round of the parsing loop except for `--`, `zsh_helpers.py` 230-316. -/
def zshWord (long short old : Bool) (a : ZshArrays) (arg : Str) (next : Option Str) : WordEffect :=
  if startsWith arg ['-', '-'] then
    if arg.contains '=' then { having := [(beforeEq arg, afterEq arg)] }
    else if long then
      if a.longArg.contains arg then zshNext arg next else { having := [(arg, [])] }
    else {}
  else if startsWith arg ['-'] && decide (arg.length ≥ 2) then
    match (if old then zshOld a next arg else none) with
    | some e => e
    | none => if short then zshCluster a next arg.tail else {}
  else { positionals := [arg] }

/-- The parsing loop, `zsh_helpers.py` 219-318. `q` removes quotes (`${(Q)...}`); after `--` the words
are taken as they are. `skip` says that the word was used up as an argument. -/
def zshLoop (long short old : Bool) (a : ZshArrays) (q : Str → Str) : Parsed → Bool → List Str → Parsed
  | p, _, [] => p
  | p, true, _ :: ws => zshLoop long short old a q p false ws
  | p, false, w :: ws =>
    if q w = ['-', '-'] then ⟨p.having, p.positionals ++ ws, p.incomplete⟩
    else
      let e := zshWord long short old a (q w) (ws.head?.map q)
      zshLoop long short old a q (p.apply e) e.skip ws

/-- `query init OPTS PROG WORDS...`. -/
def zshQueryInit (long short old : Bool) (opts : Str) (q : Str → Str) (words : List Str) : Parsed :=
  zshLoop long short old (zshArrays long short old opts) q {} false words

end CC
