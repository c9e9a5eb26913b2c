import Verif.Model.BashComplete
import Verif.Model.ZshUtils
import Verif.Model.Pattern
/-!
# Model of `crazy_complete/zsh_complete.py`

As in `Model/BashComplete.lean`, `ctxt.helpers.use_function(name)` gives the name with its prefix, and the
dictionary of dynamic functions is passed along. `trace` is not used in Zsh.
-/

namespace CC

/-- What the generators know about the place of a completer: the prefix of the helper functions, the name for
a dynamic function, `ctxt.option.metavar or ''`, `ctxt.option.help or ctxt.option.metavar or ''`, and
`ctxt.config.line_length`. -/
structure ZshCtxt where
  pre : Str
  base : Str
  metavar : Str
  help : Str
  lineLength : Int

/-- The completion objects of `zsh_complete.py` (38-337): `ZshComplFunc` with `needs_braces`,
`ZshCompleteChoices`, `ZshCompleteCommand` with its code, `ZshCompleteRange`, `ZshCompleteCombine` with its
function. -/
inductive ZshObj where
  | func (args : List Str) (braces : Bool)
  | choices (c : Choices)
  | command (code : Option Str)
  | range (start stop step : Int)
  | combined (func : Str)

/-- `cmd` in `ZshComplFunc.get_action_string`, `zsh_complete.py` 47-50. -/
def zshCmd : List Str → Str
  | [a] => a
  | args => joinQuoted args

/-- `ZshCompleteRange.get_action_string`, `zsh_complete.py` 199-203. -/
def zshRangeAction (start stop step : Int) : Str :=
  S "'({" ++ intStr start ++ S ".." ++ intStr stop ++ (if step = 1 then [] else S ".." ++ intStr step) ++ S "})'"

/-- The code of `ZshCompleteRange.get_function`, `zsh_complete.py` 206-211. -/
def zshRangeCode (start stop step : Int) : Str :=
  S "compadd -- $(command seq " ++ intStr start ++ S " " ++
    (if step = 1 then [] else intStr step ++ S " ") ++ intStr stop ++ S ")"

/-- The code of `ZshCompleteCommand` with its last line, `zsh_complete.py` 179 and 187. -/
def zshCommandCode (code : Str) : Str := code ++ S "\n_command_names"

/-- `get_action_string` of the completion objects, `zsh_complete.py` 46-55, 135-139, 175-181, 199-203, 336-337. -/
def ZshObj.getAction (ctxt : ZshCtxt) (dyn : Dyn) : ZshObj → Except Err (Str × Dyn)
  | .func args braces => .ok (quote (if braces then S "{" ++ zshCmd args ++ S "}" else zshCmd args), dyn)
  | .choices c => do
    let p ← zshChoices ctxt.metavar ctxt.lineLength c
    match p with
    | .inline action => .ok (action, dyn)
    | .function body => addDynFunc ctxt.base body dyn
  | .command code =>
    match code with
    | none => .ok (S "_command_names", dyn)
    | some code => addDynFunc ctxt.base (zshCommandCode code) dyn
  | .range a b s => .ok (zshRangeAction a b s, dyn)
  | .combined f => .ok (quote (S "{" ++ f ++ S "}"), dyn)

/-- `get_function` of the completion objects, `zsh_complete.py` 57-63, 141-145, 183-189, 205-214, 333-334. -/
def ZshObj.getFunction (ctxt : ZshCtxt) (dyn : Dyn) : ZshObj → Except Err (Str × Dyn)
  | .func [f] _ => .ok (f, dyn)
  | .func args _ => addDynFunc ctxt.base (joinQuoted args) dyn
  | .choices c => do
    let body ← zshChoicesFunction ctxt.metavar ctxt.lineLength c
    addDynFunc ctxt.base body dyn
  | .command code =>
    match code with
    | none => .ok (S "_command_names", dyn)
    | some code => addDynFunc ctxt.base (zshCommandCode code) dyn
  | .range a b s => addDynFunc ctxt.base (zshRangeCode a b s) dyn
  | .combined f => .ok (f, dyn)

/-! ## The completers -/

/-- A helper function with arguments, in braces. -/
def zshHelper (ctxt : ZshCtxt) (name : String) (args : List Str) : Except Err ZshObj := do
  let f ← useHelper zshRepo ctxt.pre (S name); .ok (.func (f :: args) true)

/-- A function of Zsh with arguments. -/
def zshLibrary (words : List String) : Except Err ZshObj := .ok (.func (words.map S) false)

/-- The completers without arguments, `zsh_complete.py` 438-468, 535-572 and 586-612; `login_shell`,
`shell.py` 167-168. -/
def zshVoid (ctxt : ZshCtxt) (name : Str) : Except Err ZshObj :=
  if name = S "group" then zshLibrary ["_groups"]
  else if name = S "hostname" then zshLibrary ["_hosts"]
  else if name = S "pid" then zshLibrary ["_pids"]
  else if name = S "process" then zshLibrary ["_process_names", "-a"]
  else if name = S "user" then zshLibrary ["_users"]
  else if name = S "variable" then zshLibrary ["_vars"]
  else if name = S "environment" then zshLibrary ["_parameters", "-g", "*export*"]
  else if name = S "commandline_string" then zshLibrary ["_cmdstring"]
  else if name = S "date_format" then zshLibrary ["_date_formats"]
  else if name = S "uid" then zshHelper ctxt "uid_list" []
  else if name = S "gid" then zshHelper ctxt "gid_list" []
  else if name = S "filesystem_type" then zshLibrary ["_file_systems"]
  else if name = S "signal" then zshLibrary ["_signals"]
  else if name = S "mountpoint" then zshHelper ctxt "mountpoint" []
  else if name = S "net_interface" then zshLibrary ["_net_interfaces"]
  else if name = S "timezone" then zshLibrary ["_time_zone"]
  else if name = S "locale" then zshLibrary ["_locales"]
  else if name = S "charset" then zshHelper ctxt "charset_list" []
  else if name = S "alsa_card" then zshHelper ctxt "alsa_complete_cards" []
  else if name = S "alsa_device" then zshHelper ctxt "alsa_complete_devices" []
  else if name = S "login_shell" then zshHelper ctxt "exec" [S "command grep -E '^[^#]' /etc/shells"]
  else .ok (.func [S " "] false)   -- `complete` falls back to `none`, `shell.py` 89-92

/-- `directory`, `zsh_complete.py` 391-401. -/
def zshDirectory (ctxt : ZshCtxt) (directory : Option Str) : Except Err ZshObj :=
  match truthyText directory with
  | none => .ok (.func [S "_directories"] false)
  | some d =>
    if startsWith d ['/'] then .ok (.func [S "_directories", S "-W", d] false)
    else zshHelper ctxt "path_files_relative" [d, S "-/"]

/-- `make_file_extension_pattern`, `zsh_utils.py` 161-180. -/
def zshExtensionPattern (exts : List Str) (fuzzy : Bool) : Str :=
  (match exts with
   | [e] => S "*.(#i)" ++ e
   | _ => S "*.(#i)(" ++ joinWith ['|'] exts ++ S ")") ++ (if fuzzy then S "*" else [])

/-- The patterns of `file`, `zsh_complete.py` 415-422. -/
def zshFileArgs (o : FileOpts) : Except Err (List Str) := do
  let globs ← mapE bashGlobToZsh o.ignoreGlobs
  .ok ((if o.extensions.isEmpty then [] else [S "-g", zshExtensionPattern o.extensions o.fuzzy]) ++
    (if o.ignoreGlobs.isEmpty then [] else [S "-F", S "(" ++ joinWith [' '] globs ++ S ")"]))

/-- `file`, `zsh_complete.py` 403-431. -/
def zshFile (ctxt : ZshCtxt) (o : FileOpts) : Except Err ZshObj := do
  let args ← zshFileArgs o
  match truthyText o.directory with
  | none => .ok (.func (S "_files" :: args) false)
  | some d =>
    if startsWith d ['/'] then .ok (.func ([S "_files", S "-W", d] ++ args) false)
    else zshHelper ctxt "path_files_relative" (d :: args)

/-- `integer` and `float`, `zsh_complete.py` 349-383. -/
def zshNumber (ctxt : ZshCtxt) (flag : List Str) (o : NumOpts) : ZshObj :=
  .func ([S "_numbers"] ++ flag ++
    (match o.min with
     | some m => [S "-l", m]
     | none => []) ++
    (match o.max with
     | some m => [S "-m", m]
     | none => []) ++ [o.help.getD ctxt.help] ++ suffixArgs o) false

/-- `ip_address`, `zsh_complete.py` 568-584. -/
def zshIpAddress (type : Str) : ZshObj :=
  if type = S "ipv4" then .func [S "_bind_addresses", S "-4"] false
  else if type = S "ipv6" then .func [S "_bind_addresses", S "-6"] false
  else if type = S "ipv4+" then .func [S "_bind_addresses", S "-40"] false
  else if type = S "ipv6+" then .func [S "_bind_addresses", S "-60"] false
  else if type = S "all+" then .func [S "_bind_addresses", S "-0"] false
  else .func [S "_bind_addresses"] false

/-- The values of `value_list`, `zsh_complete.py` 488-492. -/
def zshValueSpecs : ValueWords → List Str
  | .list l => l.map escapeSquareBrackets
  | .table t => t.map (fun e => escapeSquareBrackets e.1 ++ S "[" ++ escapeSquareBrackets e.2 ++ S "]")

/-- The arguments of `_sequence`, `zsh_complete.py` 500-503 and 520-526. -/
def sequenceArgs (o : SepOpts) (func : Str) : List Str :=
  [S "_sequence"] ++ (if o.separator = [','] then [] else [S "-s", o.separator]) ++
    (if o.duplicates then [S "-d"] else []) ++ [func]

/-- `value_list`, `zsh_complete.py` 482-503. -/
def zshValueList (ctxt : ZshCtxt) (values : ValueWords) (o : SepOpts) (dyn : Dyn) : Except Err (ZshObj × Dyn) :=
  if o.duplicates then do
    let g ← (ZshObj.func ([S "_values", ctxt.metavar] ++ zshValueSpecs values) false).getFunction ctxt dyn
    .ok (.func (sequenceArgs o g.1) false, g.2)
  else .ok (.func ([S "_values", S "-s", o.separator, ctxt.metavar] ++ zshValueSpecs values) false, dyn)

/-- The part of a line in front of the argument, `zsh_complete.py` 229-246 (`isList`) and 283-292. -/
def zshKeySpec (isList : Bool) (key : Str) (desc : Option Str) (excludes : List Str) : Str :=
  let name := if isList then (starred key).1 else key
  (if isList && !excludes.isEmpty then quote (S "(" ++ joinWith [' '] excludes ++ S ")") else []) ++
    (if isList && (starred key).2 then S "'*'" else []) ++ escapeColon name ++
    (match truthyText desc with
     | some d => quote (S "[" ++ escapeSquareBrackets d ++ S "]")
     | none => [])

/-- A line of `key_value_list`, `zsh_complete.py` 241-254, or of `key_value_pair`, 288-299. `argument` is
empty, or `:::` with an action. In `key_value_list` the key behind `$c` is not quoted. -/
def zshPushLine (isList : Bool) (cond : Option Str) (key : Str) (desc : Option Str) (excludes : List Str)
    (argument : Str) : Str :=
  (match cond with
   | some _ => S "$c " ++ (if isList then (starred key).1 else quote key) ++ S " && "
   | none => []) ++ S "a+=(" ++ zshKeySpec isList key desc excludes ++ argument ++ S ")"

/-- The code of `_alternative`, `zsh_complete.py` 328-329. -/
def zshAlternative (actions : List Str) : Str :=
  S "_alternative \\\n" ++ indent (joinWith (S " \\\n") (actions.map (fun a => S "::" ++ a))) 2

mutual
/-- The methods of `ZshCompleter`, `zsh_complete.py` 340-612, and `file_list` and `directory_list` of
`shell.py` 147-161. -/
def zshCompleter (ctxt : ZshCtxt) : Comp → Dyn → Except Err (ZshObj × Dyn)
  | .void name, dyn => do let o ← zshVoid ctxt name; .ok (o, dyn)
  | .none, dyn => .ok (.func [S " "] false, dyn)
  | .commandArg, dyn => .ok (.func [S "_normal"] false, dyn)
  | .date format, dyn => .ok (.func [S "_dates", S "-f", format] false, dyn)
  | .choices c, dyn => .ok (.choices c, dyn)
  | .command p a b, dyn => .ok (.command (pathCode p a b), dyn)
  | .directory d, dyn => do let o ← zshDirectory ctxt d; .ok (o, dyn)
  | .file o, dyn => do let o ← zshFile ctxt o; .ok (o, dyn)
  | .directoryList d l, dyn => do
    let o ← zshDirectory ctxt d
    let g ← o.getFunction ctxt dyn
    .ok (.func (sequenceArgs l g.1) false, g.2)
  | .fileList o l, dyn => do
    let o ← zshFile ctxt o
    let g ← o.getFunction ctxt dyn
    .ok (.func (sequenceArgs l g.1) false, g.2)
  | .exec c, dyn => do let o ← zshHelper ctxt "exec" [c]; .ok (o, dyn)
  | .execFast c, dyn => do let o ← zshHelper ctxt "exec" [c]; .ok (o, dyn)
  | .execInternal c, dyn => .ok (.func [c] true, dyn)
  | .integer o, dyn => .ok (zshNumber ctxt [] o, dyn)
  | .float o, dyn => .ok (zshNumber ctxt [S "-f"] o, dyn)
  | .history p, dyn => do let o ← zshHelper ctxt "history" [p]; .ok (o, dyn)
  | .mimeFile p, dyn => do let o ← zshHelper ctxt "mime_file" [p]; .ok (o, dyn)
  | .ipAddress t, dyn => .ok (zshIpAddress t, dyn)
  | .keyValueListExec p v c, dyn => do let o ← zshHelper ctxt "key_value_list_exec" [p, v, c]; .ok (o, dyn)
  | .keyValuePairExec v c, dyn => do let o ← zshHelper ctxt "key_value_pair_exec" [v, c]; .ok (o, dyn)
  | .range a b s, dyn => .ok (.range a b s, dyn)
  | .valueList v o, dyn => zshValueList ctxt v o dyn
  | .combine cs, dyn => do
    let r ← zshCompleters ctxt cs dyn
    let g ← addDynFunc ctxt.base (zshAlternative r.1) r.2
    .ok (.combined g.1, g.2)
  | .list c o, dyn => do
    let r ← zshCompleter ctxt c dyn
    let g ← r.1.getFunction ctxt r.2
    .ok (.func (sequenceArgs o g.1) false, g.2)
  | .prefix p c, dyn => do
    let f ← useHelper zshRepo ctxt.pre (S "prefix")
    let r ← zshCompleter ctxt c dyn
    let g ← r.1.getFunction ctxt r.2
    .ok (.func [f, p, g.1] true, g.2)
  | .keyValueList ps vs ks cond, dyn => do
    let r ← zshKeyDefs ctxt true cond ks dyn
    let g ← addDynFunc ctxt.base (keyValueCode cond r.1
      (S "_values -s " ++ quote ps ++ S " -S " ++ quote vs ++ S " " ++ quote ctxt.metavar)) r.2
    .ok (.func [g.1] true, g.2)
  | .keyValuePair vs ks cond, dyn => do
    let r ← zshKeyDefs ctxt false cond ks dyn
    let g ← addDynFunc ctxt.base (keyValueCode cond r.1
      (S "_values -S " ++ quote vs ++ S " " ++ quote ctxt.metavar)) r.2
    .ok (.func [g.1] true, g.2)
/-- The loop of `ZshCompleteCombine`, `zsh_complete.py` 322-326: the actions. -/
def zshCompleters (ctxt : ZshCtxt) : Comps → Dyn → Except Err (List Str × Dyn)
  | .nil, dyn => .ok ([], dyn)
  | .cons c r, dyn => do
    let o ← zshCompleter ctxt c dyn
    let a ← o.1.getAction ctxt o.2
    let as ← zshCompleters ctxt r a.2
    .ok (a.1 :: as.1, as.2)
/-- The loops of `ZshKeyValueList`, `zsh_complete.py` 228-254 (`isList`), and of `ZshKeyValuePair`, 282-299:
the lines, and the dynamic functions. -/
def zshKeyDefs (ctxt : ZshCtxt) (isList : Bool) (cond : Option Str) : KeyDefList → Dyn → Except Err (List Str × Dyn)
  | .nil, dyn => .ok ([], dyn)
  | .bare k d ex r, dyn => do
    let ls ← zshKeyDefs ctxt isList cond r dyn
    .ok (zshPushLine isList cond k d ex [] :: ls.1, ls.2)
  | .cons k d ex .none r, dyn => do
    let ls ← zshKeyDefs ctxt isList cond r dyn
    .ok (zshPushLine isList cond k d ex (S ":::") :: ls.1, ls.2)
  | .cons k d ex c r, dyn => do
    let o ← zshCompleter ctxt c dyn
    let a ← o.1.getAction ctxt o.2
    let ls ← zshKeyDefs ctxt isList cond r a.2
    .ok (zshPushLine isList cond k d ex (S ":::" ++ a.1) :: ls.1, ls.2)
end

end CC
