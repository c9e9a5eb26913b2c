import Verif.Model.ZshQuery
import Verif.Model.Walk
import Verif.Model.Algo
/-!
# Model of `fish_prepare.py` and of the Fish helper `query_init`

The definitions `PATTERN=>OPTIONS` are kept in two parts. A pattern is kept as the list of its
components (`string split '>'`). A component is a regular expression of the form `.*`, `(a|b|c)`
with escaped words, or the empty text; it is represented by the words it matches. (Simplifications:
names contain no `>`; positionals contain no newline.)
-/

namespace CC

/-- A component of a positional pattern: `.*`, or a list of words. -/
inductive FishComp where
  | any
  | words (ws : List Str)
  deriving DecidableEq, Repr

/-- `string match -q -r -- "^component$" word`. -/
def FishComp.matches : FishComp → Str → Bool
  | .any, _ => true
  | .words ws, w => ws.contains w

/-- `match_positionals`, `fish_helpers.py` 67-75: a positional that is missing counts as empty. -/
def matchPositionals : List FishComp → List Str → Bool
  | [], _ => true
  | c :: cs, ps => c.matches (ps.headD []) && matchPositionals cs ps.tail

/-- The loop over the options of a definition, `fish_helpers.py` 90-94. -/
def fishScan (option : Str) : List Str → Option ArgKind
  | [] => none
  | f :: fs =>
    if f = option then some .flag
    else if f = option ++ ['='] then some .required
    else if f = option ++ ['=', '?'] then some .optional
    else fishScan option fs

/-- `get_option`, `fish_helpers.py` 78-99, over the definitions from the last to the first.
`subcommands` says whether patterns are looked at. -/
def fishGetGo (subcommands : Bool) (ps : List Str) (option : Str) :
    List (List FishComp × Str) → Option ArgKind
  | [] => none
  | (pat, opts) :: ds =>
    if (!subcommands || matchPositionals pat ps) then
      match fishScan option (splitOn ' ' opts) with
      | some k => some k
      | none => fishGetGo subcommands ps option ds
    else fishGetGo subcommands ps option ds

/-- `get_option`, `fish_helpers.py` 78-99. -/
def fishGetOption (subcommands : Bool) (defs : List (List FishComp × Str)) (ps : List Str) (option : Str) :
    Option ArgKind :=
  fishGetGo subcommands ps option defs.reverse

/-- The loop over the letters of a cluster, `fish_helpers.py` 168-198. -/
def fishCluster (get : Str → Option ArgKind) (next : Option Str) : Str → WordEffect
  | [] => {}
  | c :: trailing =>
    match get ['-', c] with
    | some .flag =>
      let e := fishCluster get next trailing
      ⟨(['-', c], []) :: e.having, e.positionals, e.incomplete, e.skip⟩
    | some .required =>
      if trailing ≠ [] then { having := [(['-', c], trailing)] } else zshNext ['-', c] next
    | some .optional => { having := [(['-', c], trailing)] }
    | none => fishCluster get next trailing

/-- The old-style part, `fish_helpers.py` 139-164. -/
def fishOld (get : Str → Option ArgKind) (next : Option Str) (arg : Str) : Option WordEffect :=
  if arg.contains '=' then
    match get (beforeEq arg) with
    | some .required => some { having := [(beforeEq arg, afterEq arg)] }
    | some .optional => some { having := [(beforeEq arg, afterEq arg)] }
    | _ => none
  else
    match get arg with
    | some .required => some (zshNext arg next)
    | some .flag => some { having := [(arg, [])] }
    | some .optional => some { having := [(arg, [])] }
    | none => none

/-- One round of the loop except for `--`, `fish_helpers.py` 109-206. An option whose argument is
missing (`last_arg_is_option_argument`) is noted with its name. -/
def fishWord (long short old : Bool) (get : Str → Option ArgKind) (arg : Str) (next : Option Str) : WordEffect :=
  if arg = ['-'] then { positionals := [arg] }
  else if startsWith arg ['-', '-'] then
    if arg.contains '=' then { having := [(beforeEq arg, afterEq arg)] }
    else if long then
      match get arg with
      | some .required => zshNext arg next
      | _ => { having := [(arg, [])] }
    else {}
  else if startsWith arg ['-'] then
    match (if old then fishOld get next arg else none) with
    | some e => e
    | none => if short then fishCluster get next arg.tail else {}
  else { positionals := [arg] }

/-- The loop over the words, `fish_helpers.py` 101-209. -/
def fishLoop (long short old : Bool) (getAt : List Str → Str → Option ArgKind) :
    Parsed → Bool → List Str → Parsed
  | p, _, [] => p
  | p, true, _ :: ws => fishLoop long short old getAt p false ws
  | p, false, w :: ws =>
    if w = ['-', '-'] then ⟨p.having, p.positionals ++ ws, p.incomplete⟩
    else
      let e := fishWord long short old (getAt p.positionals) w ws.head?
      fishLoop long short old getAt (p.apply e) e.skip ws

/-- `query_init DEFINITIONS`, the part up to line 216. -/
def fishQueryInit (long short old subcommands : Bool) (defs : List (List FishComp × Str)) (words : List Str) : Parsed :=
  fishLoop long short old (fishGetOption subcommands defs) {} false words

/-! ## The definitions -/

/-- The loop of `_get_positional_pattern`, `fish_prepare.py` 26-29. The list holds the commands from a
parent down to the command; `parents` are the parents of the first. -/
def fishPatternGo : List Cmd → List Cmd → List FishComp → List FishComp
  | parents, p :: c :: rest, r => fishPatternGo (parents ++ [p]) (c :: rest)
      (sparseSet .any r (positionalIndex parents (p.sub.getD 0)) (.words (variations p c)))
  | _, _, r => r

/-- `_get_positional_pattern`, `fish_prepare.py` 14-31, split at `>` as the helper does. If there is no
component, the pattern is the empty text; that is split into one empty text, and the regular
expression `^$` matches only the empty word. -/
def fishPattern (parents : List Cmd) (c : Cmd) : List FishComp :=
  match fishPatternGo [] (parents ++ [c]) [] with
  | [] => [.words [[]]]
  | r => r

/-- `_get_cmdline_definitions`, `fish_prepare.py` 34-51: commands without options are left out. -/
def fishTreeDefs (root : Cmd) : List (List FishComp × Str) :=
  ((root.walk []).filter (fun e => !(queryOptionStrings (getOptions e.1 e.2 false false)).isEmpty)).map
    (fun e => (fishPattern e.1 e.2, queryOptionStrings (getOptions e.1 e.2 false false)))

end CC
