import Verif.Model.BashComplete
import Verif.Model.Pattern
/-!
# Model of `crazy_complete/fish_complete.py`

As in `Model/BashComplete.lean`, `ctxt.helpers.use_function(name)` gives the name with its prefix, and the
dictionary of dynamic functions is passed along. The list `trace` is shared: the methods append to it, and what
they appended is still there for the completers that come later, so it is part of the state.
-/

namespace CC

/-- What the generators know about the place of a completer: the prefix of the helper functions, the name for
a dynamic function, `ctxt.config.line_length`, and `ctxt.option.get_positional_num()`. -/
structure FishCtxt where
  pre : Str
  base : Str
  lineLength : Int
  position : Int

/-- `trace`, and the dynamic functions. -/
structure FishState where
  trace : List Str
  dyn : Dyn

/-- The completion objects of `fish_complete.py` (24-464): `FishCompleteNone`, `FishCompletionCommand`,
`FishCompletionRawCommand`, `FishCompleteChoices`, `FishCompleteFile` (the function `filedir` and its
arguments), `FishCompleteCommand` with its code, `FishCompleteCombine` with the codes, and
`FishCompleteCommandArg` with its code. -/
inductive FishObj where
  | nothing
  | command (args : List Str)
  | raw (command : Str)
  | choices (c : Choices)
  | file (func : Str) (args : List Str)
  | path (code : Str)
  | combine (codes : List Str)
  | commandArg (code : Str)

/-- `get_code` of the completion objects, `fish_complete.py` 55-56, 69-70, 91-92, 144-147, 209-211, 408-409,
425-426 and 455-456. -/
def FishObj.getCode (ctxt : FishCtxt) : FishObj → Str
  | .nothing => []
  | .command args => joinQuoted args
  | .raw c => c
  | .choices c => fishCode ctxt.lineLength c
  | .file f args => joinQuoted (f :: args)
  | .path c => c
  | .combine cs => joinWith ['\n'] cs
  | .commandArg c => c

/-- `get_function` of the completion objects, `fish_complete.py` 43-46, 58-59, 76-81, 213-215 and 462-464. -/
def FishObj.getFunction (ctxt : FishCtxt) (dyn : Dyn) : FishObj → Except Err (Str × Dyn)
  | .nothing => .ok (S "true", dyn)
  | .command [f] => .ok (f, dyn)
  | .file f [] => .ok (f, dyn)
  | o => addDynFunc ctxt.base (o.getCode ctxt) dyn

/-- `'(%s)' % code`. -/
def inParens (code : Str) : Str := S "(" ++ code ++ S ")"

/-- The arguments that run code: `['-f', '-a', '(%s)' % code]`. -/
def runArgs (code : Str) : List Str := [S "-f", S "-a", inParens code]

/-- The arguments that call a dynamic function. -/
def runDynArgs (ctxt : FishCtxt) (code : Str) (dyn : Dyn) : Except Err (List Str × Dyn) := do
  let g ← addDynFunc ctxt.base code dyn
  .ok (runArgs g.1, g.2)

/-- `get_args` of the completion objects, `fish_complete.py` 52-53, 72-74, 94-95, 132-142, 202-207, 401-406,
428-436 and 458-460. -/
def FishObj.getArgs (ctxt : FishCtxt) (dyn : Dyn) : FishObj → Except Err (List Str × Dyn)
  | .nothing => .ok ([S "-f"], dyn)
  | .command args => .ok (runArgs (joinQuoted args), dyn)
  | .raw c => .ok (runArgs c, dyn)
  | .choices c =>
    match fishChoices ctxt.lineLength c with
    | .inline arg => .ok ([S "-f", S "-a", arg], dyn)
    | .function code => runDynArgs ctxt code dyn
  | .file f args =>
    if args.isEmpty then .ok ([S "-F"], dyn) else .ok (runArgs (joinQuoted (f :: args)), dyn)
  | .path c => if c.contains '\n' then runDynArgs ctxt c dyn else .ok (runArgs c, dyn)
  | .combine cs =>
    if !cs.any (fun c => c.contains '\n') then .ok (runArgs (joinWith (S "; ") cs), dyn)
    else runDynArgs ctxt (joinWith ['\n'] cs) dyn
  | .commandArg c => runDynArgs ctxt c dyn

/-! ## The completers -/

/-- A function of Fish with arguments. -/
def fishLibrary (words : List String) : Except Err FishObj := .ok (.command (words.map S))

/-- A helper function with arguments. -/
def fishHelper (ctxt : FishCtxt) (name : String) (args : List Str) : Except Err FishObj := do
  let f ← useHelper fishRepo ctxt.pre (S name); .ok (.command (f :: args))

/-- The signals of `ShellCompleter.signal`, `shell.py` 104-135. -/
def signalTable : List (Choice × Option Choice) := [
  ("ABRT", "Process abort signal"), ("ALRM", "Alarm clock"),
  ("BUS", "Access to an undefined portion of a memory object"),
  ("CHLD", "Child process terminated: stopped: or continued"), ("CONT", "Continue executing: if stopped"),
  ("FPE", "Erroneous arithmetic operation"), ("HUP", "Hangup"), ("ILL", "Illegal instruction"),
  ("INT", "Terminal interrupt signal"), ("KILL", "Kill (cannot be caught or ignored)"),
  ("PIPE", "Write on a pipe with no one to read it"), ("QUIT", "Terminal quit signal"),
  ("SEGV", "Invalid memory reference"), ("STOP", "Stop executing (cannot be caught or ignored)"),
  ("TERM", "Termination signal"), ("TSTP", "Terminal stop signal"),
  ("TTIN", "Background process attempting read"), ("TTOU", "Background process attempting write"),
  ("USR1", "User-defined signal 1"), ("USR2", "User-defined signal 2"), ("POLL", "Pollable event"),
  ("PROF", "Profiling timer expired"), ("SYS", "Bad system call"), ("TRAP", "Trace/breakpoint trap"),
  ("XFSZ", "File size limit exceeded"), ("VTALRM", "Virtual timer expired"), ("XCPU", "CPU time limit exceeded")
  ].map (fun e => (.str (S e.1), some (.str (S e.2))))

/-- The completers without arguments, `fish_complete.py` 511-539, 588-609 and 646-662; `signal`, `login_shell`,
`locale` and `charset`, `shell.py` 104-135 and 167-174. -/
def fishVoid (ctxt : FishCtxt) (name : Str) : Except Err FishObj :=
  if name = S "group" then fishLibrary ["__fish_complete_groups"]
  else if name = S "hostname" then fishLibrary ["__fish_print_hostnames"]
  else if name = S "pid" then fishLibrary ["__fish_complete_pids"]
  else if name = S "process" then fishLibrary ["__fish_complete_proc"]
  else if name = S "service" then fishLibrary ["__fish_systemctl_services"]
  else if name = S "user" then fishLibrary ["__fish_complete_users"]
  else if name = S "variable" then fishLibrary ["set", "-n"]
  else if name = S "environment" then fishLibrary ["set", "-n", "-x"]
  else if name = S "commandline_string" then fishHelper ctxt "commandline_string" []
  else if name = S "date_format" then fishHelper ctxt "date_format" []
  else if name = S "uid" then fishLibrary ["__fish_complete_user_ids"]
  else if name = S "gid" then fishLibrary ["__fish_complete_group_ids"]
  else if name = S "filesystem_type" then fishLibrary ["__fish_print_filesystems"]
  else if name = S "net_interface" then fishLibrary ["__fish_print_interfaces"]
  else if name = S "mountpoint" then fishLibrary ["__fish_print_mounted"]
  else if name = S "timezone" then fishHelper ctxt "timezone_list" []
  else if name = S "alsa_card" then fishHelper ctxt "alsa_list_cards" []
  else if name = S "alsa_device" then fishHelper ctxt "alsa_list_devices" []
  else if name = S "signal" then .ok (.choices (.table signalTable))
  else if name = S "login_shell" then .ok (.raw (S "command grep -E '^[^#]' /etc/shells"))
  else if name = S "locale" then .ok (.raw (S "command locale -a"))
  else if name = S "charset" then .ok (.raw (S "command locale -m"))
  else .ok .nothing   -- `complete` falls back to `none`, `shell.py` 89-92

/-- The places where the completion function strips a prefix, `fish_complete.py` 226-231. -/
def strippingPlaces : List Str := [S "list", S "key_value_list", S "key_value_pair", S "prefix"]

/-- `FishCompleteDirectory`, `fish_complete.py` 218-240. -/
def fishDirectory (ctxt : FishCtxt) (trace : List Str) (directory : Option Str) : Except Err FishObj :=
  match directory with
  | some d => fishHelper ctxt "filedir" [S "-D", S "-C", d]
  | none =>
    if strippingPlaces.any (fun p => trace.contains p) then fishHelper ctxt "filedir" [S "-D"]
    else fishLibrary ["__fish_complete_directories"]

/-- The `-C` of `FishCompleteFile`, `fish_complete.py` 181-182. -/
def fishDirArgs : Option Str → List Str
  | some d => [S "-C", d]
  | none => []

/-- `FishCompleteFile`, `fish_complete.py` 174-200. -/
def fishFile (ctxt : FishCtxt) (o : FileOpts) : Except Err FishObj := do
  let f ← useHelper fishRepo ctxt.pre (S "filedir")
  let globs ← mapE bashGlobToRegex o.ignoreGlobs
  .ok (.file f (
    fishDirArgs (truthyText o.directory) ++
    (if o.extensions.isEmpty then [] else [S "-r", fishExtensionRegex o.extensions o.fuzzy]) ++
    (if o.ignoreGlobs.isEmpty then [] else [S "-i", joinWith ['|'] (globs.map inParens)])))

/-- `integer` and `float`, `fish_complete.py` 478-493. -/
def fishNumber (ctxt : FishCtxt) (o : NumOpts) : Except Err FishObj :=
  if (suffixArgs o).isEmpty then .ok .nothing else fishHelper ctxt "number" (suffixArgs o)

/-- `ip_address`, `fish_complete.py` 618-640. -/
def fishIpAddress (type : Str) : FishObj :=
  if type = S "ipv4" then .raw (S "__fish_print_addresses | string match -e '.'")
  else if type = S "ipv6" then .raw (S "__fish_print_addresses | string match -e ':'")
  else if type = S "ipv4+" then .raw (S "__fish_print_addresses --all | string match -e '.'")
  else if type = S "ipv6+" then .raw (S "__fish_print_addresses --all | string match -e ':'")
  else if type = S "all+" then .command [S "__fish_print_addresses", S "--all"]
  else .command [S "__fish_print_addresses"]

/-- `range`, `fish_complete.py` 523-527. -/
def fishRange (start stop step : Int) : FishObj :=
  if step = 1 then .command [S "seq", intStr start, intStr stop]
  else .command [S "seq", intStr start, intStr step, intStr stop]

/-- `mkpath` in `FishCompleteCommand`, `fish_complete.py` 384-385. -/
def fishPathWords (path : Str) : Str := joinQuoted (splitOn ':' path)

/-- `FishCompleteCommand.__init__`, `fish_complete.py` 371-399. -/
def fishCommandCode (path append prepend : Option Str) : Str :=
  match truthyText path, truthyText append, truthyText prepend with
  | some p, _, _ => S "set -lx PATH " ++ fishPathWords p ++ S "\n__fish_complete_command"
  | none, some a, some p =>
    S "set -lx PATH " ++ fishPathWords p ++ S " $PATH " ++ fishPathWords a ++ S "\n__fish_complete_command"
  | none, some a, none => S "set -lx -a PATH " ++ fishPathWords a ++ S "\n__fish_complete_command"
  | none, none, some p => S "set -lx PATH " ++ fishPathWords p ++ S " $PATH\n__fish_complete_command"
  | none, none, none => S "__fish_complete_command"

/-- `FishCompleteCommandArg.__init__`, `fish_complete.py` 442-453. -/
def fishCommandArgCode (func : Str) (position : Int) : Str :=
  S "set -l pos (" ++ func ++ S " " ++ intStr (position - 1) ++ S ")\n" ++
    S "set -l cmdline (commandline -poc | string escape) (commandline -ct)\n" ++
    S "complete -C -- \"$cmdline[$pos..]\""

/-- The code that prints the values of `value_list`, `fish_complete.py` 251-260. -/
def fishValuesCode : ValueWords → Str
  | .table t => rstripContinuation (S "printf '%s\\t%s\\n' \\\n" ++
      t.flatMap (fun e => S "  " ++ quote e.1 ++ S " " ++ quote e.2 ++ S " \\\n"))
  | .list l => rstripContinuation (S "printf '%s\\n' \\\n" ++ l.flatMap (fun e => S "  " ++ quote e ++ S " \\\n"))

/-- `FishCompleteValueList`, `fish_complete.py` 243-268. -/
def fishValueList (ctxt : FishCtxt) (values : ValueWords) (o : SepOpts) (dyn : Dyn) : Except Err (FishObj × Dyn) := do
  let g ← addDynFunc ctxt.base (fishValuesCode values) dyn
  if o.duplicates then .ok (.command [S "__fish_complete_list", o.separator, g.1], g.2)
  else do
    let o ← fishHelper ctxt "list" [o.separator, g.1]
    .ok (o, g.2)

/-- The end of `list`, `fish_complete.py` 578-582. -/
def fishListObj (ctxt : FishCtxt) (o : SepOpts) (func : Str) : Except Err FishObj :=
  fishHelper ctxt "list" ((if o.duplicates then [S "-d"] else []) ++ [o.separator, func])

/-- A line of `key_value_list`, `fish_complete.py` 292-306 (`isList`), or of `key_value_pair`, 344-352, where
the condition is asked about its own name. -/
def fishPushLine (isList : Bool) (cond : Option Str) (key : Str) (desc : Option Str) (excludes : List Str)
    (func : Str) : Str :=
  let name := if isList then (starred key).1 else key
  (match cond with
   | some f => S "$c " ++ quote (if isList then name else f) ++ S " && "
   | none => []) ++
  S "set -a a " ++ joinQuoted ([name, desc.getD [], func] ++
    (if isList then [joinWith [' '] ((if (starred key).2 then [] else [name]) ++ excludes)] else []))

/-- The code of `key_value_list`, `fish_complete.py` 308-316, and of `key_value_pair`, 354-361: `call` is the
function with the separators. -/
def fishKeyValueCode (condition : Option Str) (lines : List Str) (call : Str) : Str :=
  S "set -l a\n" ++
    (match condition with
     | some f => S "set -l c " ++ quote f ++ S "\n"
     | none => []) ++
    joinWith ['\n'] lines ++ S "\n" ++ call ++ S " $a"

/-- Add a dynamic function and call it by its name, `fish_complete.py` 318-320 and 363-365. -/
def fishDynCommand (ctxt : FishCtxt) (code : Str) (st : FishState) : Except Err (FishObj × FishState) := do
  let g ← addDynFunc ctxt.base code st.dyn
  .ok (.command [g.1], ⟨st.trace, g.2⟩)

mutual
/-- The methods of `FishCompleter`, `fish_complete.py` 467-662, and `file_list` and `directory_list` of
`shell.py` 147-161. -/
def fishCompleter (ctxt : FishCtxt) : Comp → FishState → Except Err (FishObj × FishState)
  | .void name, st => do let o ← fishVoid ctxt name; .ok (o, st)
  | .none, st => .ok (.nothing, st)
  | .commandArg, st => do
    let f ← useHelper fishRepo ctxt.pre (S "positional_position")
    .ok (.commandArg (fishCommandArgCode f ctxt.position), st)
  | .date _, st => .ok (.nothing, st)
  | .choices c, st => .ok (.choices c, st)
  | .command p a b, st => .ok (.path (fishCommandCode p a b), st)
  | .directory d, st => do let o ← fishDirectory ctxt st.trace d; .ok (o, st)
  | .file o, st => do let o ← fishFile ctxt o; .ok (o, st)
  | .directoryList d l, st => do
    let o ← fishDirectory ctxt (st.trace ++ [S "list"]) d
    let g ← o.getFunction ctxt st.dyn
    let r ← fishListObj ctxt l g.1
    .ok (r, ⟨st.trace ++ [S "list"], g.2⟩)
  | .fileList o l, st => do
    let o ← fishFile ctxt o
    let g ← o.getFunction ctxt st.dyn
    let r ← fishListObj ctxt l g.1
    .ok (r, ⟨st.trace ++ [S "list"], g.2⟩)
  | .exec c, st => .ok (.raw c, st)
  | .execFast c, st => .ok (.raw c, st)
  | .execInternal c, st => .ok (.raw c, st)
  | .integer o, st => do let o ← fishNumber ctxt o; .ok (o, st)
  | .float o, st => do let o ← fishNumber ctxt o; .ok (o, st)
  | .history p, st => do let o ← fishHelper ctxt "history" [p]; .ok (o, st)
  | .mimeFile p, st => do let o ← fishHelper ctxt "mime_file" [p]; .ok (o, st)
  | .ipAddress t, st => .ok (fishIpAddress t, st)
  | .keyValueListExec p v c, st => do let o ← fishHelper ctxt "key_value_list_exec" [p, v, c]; .ok (o, st)
  | .keyValuePairExec v c, st => do let o ← fishHelper ctxt "key_value_pair_exec" [v, c]; .ok (o, st)
  | .range a b s, st => .ok (fishRange a b s, st)
  | .valueList v o, st => do let r ← fishValueList ctxt v o st.dyn; .ok (r.1, ⟨st.trace, r.2⟩)
  | .combine cs, st => do
    let r ← fishCompleters ctxt cs ⟨st.trace ++ [S "combine"], st.dyn⟩
    .ok (.combine r.1, r.2)
  | .list c o, st => do
    let r ← fishCompleter ctxt c ⟨st.trace ++ [S "list"], st.dyn⟩
    let g ← r.1.getFunction ctxt r.2.dyn
    let l ← fishListObj ctxt o g.1
    .ok (l, ⟨r.2.trace, g.2⟩)
  | .prefix p c, st => do
    let r ← fishCompleter ctxt c st
    let g ← r.1.getFunction ctxt r.2.dyn
    let o ← fishHelper ctxt "prefix" [p, g.1]
    .ok (o, ⟨r.2.trace, g.2⟩)
  | .keyValueList ps vs ks cond, st => do
    let r ← fishKeyDefs ctxt true cond ks ⟨st.trace ++ [S "key_value_list"], st.dyn⟩
    let f ← useHelper fishRepo ctxt.pre (S "key_value_list")
    fishDynCommand ctxt (fishKeyValueCode cond r.1 (f ++ S " " ++ quote ps ++ S " " ++ quote vs)) r.2
  | .keyValuePair vs ks cond, st => do
    let r ← fishKeyDefs ctxt false cond ks ⟨st.trace ++ [S "key_value_pair"], st.dyn⟩
    let f ← useHelper fishRepo ctxt.pre (S "key_value_pair")
    fishDynCommand ctxt (fishKeyValueCode cond r.1 (f ++ S " " ++ quote vs)) r.2
/-- The loop of `FishCompleteCombine`, `fish_complete.py` 421-423: the codes. -/
def fishCompleters (ctxt : FishCtxt) : Comps → FishState → Except Err (List Str × FishState)
  | .nil, st => .ok ([], st)
  | .cons c r, st => do
    let o ← fishCompleter ctxt c st
    let cs ← fishCompleters ctxt r o.2
    .ok (o.1.getCode ctxt :: cs.1, cs.2)
/-- The loops of `FishCompleteKeyValueList`, `fish_complete.py` 283-306 (`isList`), and of
`FishCompleteKeyValuePair`, 335-352: the lines, and the state. -/
def fishKeyDefs (ctxt : FishCtxt) (isList : Bool) (cond : Option Str) :
    KeyDefList → FishState → Except Err (List Str × FishState)
  | .nil, st => .ok ([], st)
  | .bare k d ex r, st => do
    let ls ← fishKeyDefs ctxt isList cond r st
    .ok (fishPushLine isList cond k d ex (S "false") :: ls.1, ls.2)
  | .cons k d ex .none r, st => do
    let ls ← fishKeyDefs ctxt isList cond r st
    .ok (fishPushLine isList cond k d ex (S "true") :: ls.1, ls.2)
  | .cons k d ex c r, st => do
    let o ← fishCompleter ctxt c st
    let g ← o.1.getFunction ctxt o.2.dyn
    let ls ← fishKeyDefs ctxt isList cond r ⟨o.2.trace, g.2⟩
    .ok (fishPushLine isList cond k d ex g.1 :: ls.1, ls.2)
end

end CC
