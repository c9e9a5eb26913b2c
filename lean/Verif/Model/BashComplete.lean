import Verif.Model.Completers
import Verif.Model.Helpers
import Verif.Model.Extensions
/-!
# Model of `crazy_complete/bash_complete.py` and `bash_versions.py`

`ctxt.helpers.use_function(name)` gives the name with its prefix (`realName`); which functions are thereby
included is the subject of `Model/Helpers.lean`. The dictionary of dynamic functions is passed along.
-/

namespace CC

/-- What the generators know about the place of a completer: the prefix of the helper functions, the name for
a dynamic function (`make_completion_funcname_for_context`), and whether `bash_completions_version` is at
least (2, 12). -/
structure BashCtxt where
  pre : Str
  base : Str
  v212 : Bool

/-- Dynamic functions: code and name (`dynamic_functions_code_to_funcname`). -/
abbrev Dyn := List (Str × Str)

/-- The completion objects of `bash_complete.py` (20-135): code that changes `$COMPREPLY`, a function with its
arguments, a list of words, a call of `compgen`, or several objects. -/
inductive BashObj where
  | code (c : Str)
  | func (args : List Str)
  | words (c : Choices)
  | compgen (args : Str) (before : Option Str)
  | combine (objs : List BashObj)

/-- `ctxt.helpers.use_function(name)`: an unknown name is a KeyError. -/
def useHelper (repo : List (Str × List Str)) (pre name : Str) : Except Err Str :=
  match assocGet repo name with
  | some _ => .ok (realName pre name)
  | none => .error .crash

/-- The first line of the code that appends, `bash_complete.py` 50 and 75. -/
def saveReplyLine : Str := S "local COMPREPLY_OLD=(\"${COMPREPLY[@]}\")"

/-- The last line of the code that appends, `bash_complete.py` 55 and 80. -/
def joinReplyLine : Str := S "COMPREPLY=(\"${COMPREPLY_OLD[@]}\" \"${COMPREPLY[@]}\")"

/-- `BashCompletionCode.get_code` after its test, 47-57, and `BashCompletionFunc.get_code`, 72-82. -/
def appended (append : Bool) (code : Str) : Str :=
  joinWith ['\n'] ((if append then [saveReplyLine] else []) ++ [code] ++ (if append then [joinReplyLine] else []))

/-- `BashCompletionCompgen.get_code`, `bash_complete.py` 120-127. -/
def compgenCode (args : Str) (before : Option Str) (append : Bool) : Str :=
  let cmd := S "COMPREPLY" ++ (if append then S "+" else []) ++ S "=($(compgen " ++ args ++ S " -- \"$cur\"))"
  match before with
  | none => cmd
  | some [] => cmd
  | some code => code ++ S "\n" ++ cmd

mutual
/-- `get_code` of the completion objects, `bash_complete.py` 43-57, 70-82, 94-107, 120-127, 143-147. -/
def BashObj.getCode (valuesFunc : Str) : BashObj → Bool → Str
  | .code c, append => if c.isEmpty then [] else appended append c
  | .func args, append => appended append (joinQuoted args)
  | .words c, append => bashChoices valuesFunc c append
  | .compgen args before, append => compgenCode args before append
  | .combine objs, append => joinWith ['\n'] (BashObj.codes valuesFunc objs append)
/-- The loop of `BashCompleteCombine.get_code`, `bash_complete.py` 143-147. -/
def BashObj.codes (valuesFunc : Str) : List BashObj → Bool → List Str
  | [], _ => []
  | o :: r, append => o.getCode valuesFunc append :: BashObj.codes valuesFunc r true
end

/-- `add_dynamic_func`, `helpers.py` 117-125, with enough rounds for the search for a name. -/
def addDynFunc (base code : Str) (dyn : Dyn) : Except Err (Str × Dyn) :=
  match addDynamic (dyn.length + 1) base code dyn with
  | some r => .ok r
  | none => .error .crash

/-- `get_function` of the completion objects, `bash_complete.py` 59-63, 84-88, 109-110, 129-130, 149-150. -/
def BashObj.getFunction (valuesFunc base : Str) (dyn : Dyn) : BashObj → Except Err (Str × Dyn)
  | .code [] => .ok (S "true", dyn)
  | .func [f] => .ok (f, dyn)
  | o => addDynFunc base (o.getCode valuesFunc false) dyn

/-! ## `bash_versions.py` -/

/-- The functions of `bash_versions.py`: the name since version 2.12, or the name before. -/
def versioned (ctxt : BashCtxt) (new old : String) : Str := if ctxt.v212 then S new else S old

/-! ## The completers -/

/-- The completers without arguments, `bash_complete.py` 339-374, 458-484, 515-542. -/
def bashVoid (ctxt : BashCtxt) (name : Str) : Except Err BashObj :=
  let helper (f : String) : Except Err BashObj := do
    let f ← useHelper bashRepo ctxt.pre (S f); .ok (.func [f])
  let action (a : String) : Except Err BashObj := .ok (.compgen (S a) none)
  let library (new old : String) : Except Err BashObj := .ok (.func [versioned ctxt new old])
  if name = S "group" then action "-A group"
  else if name = S "hostname" then action "-A hostname"
  else if name = S "pid" then library "_comp_compgen_pids" "_pids"
  else if name = S "process" then library "_comp_compgen_pnames" "_pnames"
  else if name = S "service" then action "-A service"
  else if name = S "user" then action "-A user"
  else if name = S "variable" then action "-A variable"
  else if name = S "environment" then action "-A export"
  else if name = S "commandline_string" then helper "commandline_string"
  else if name = S "date_format" then .ok (.code [])
  else if name = S "uid" then library "_comp_compgen_uids" "_uids"
  else if name = S "gid" then library "_comp_compgen_gids" "_gids"
  else if name = S "signal" then library "_comp_compgen_signals" "_signals"
  else if name = S "filesystem_type" then library "_comp_compgen -a fstypes" "_fstypes"
  else if name = S "mountpoint" then helper "mountpoint"
  else if name = S "locale" then helper "locales"
  else if name = S "charset" then helper "charsets"
  else if name = S "login_shell" then library "_comp_compgen -a shells" "_shells"
  else if name = S "net_interface" then library "_comp_compgen_available_interfaces" "_available_interfaces"
  else if name = S "timezone" then do
    let e ← useHelper bashRepo ctxt.pre (S "exec")
    let l ← useHelper bashRepo ctxt.pre (S "timezone_list")
    .ok (.func [e, l])
  else if name = S "alsa_card" then helper "alsa_list_cards"
  else if name = S "alsa_device" then helper "alsa_list_devices"
  else .ok (.code [])   -- `complete` falls back to `none`, `shell.py` 89-92

/-- A text that counts as true in Python, or nothing. -/
def truthyText : Option Str → Option Str
  | some [] => none
  | o => o

/-- The assignment to `PATH` in `command`, `bash_complete.py` 269-290, and `zsh_complete.py` 148-173. -/
def pathCode (path append prepend : Option Str) : Option Str :=
  match truthyText path, truthyText append, truthyText prepend with
  | some p, _, _ => some (S "local -x PATH=" ++ quote p)
  | none, some a, some p => some (S "local -x PATH=" ++ quote p ++ S ":\"$PATH\":" ++ quote a)
  | none, some a, none => some (S "local -x PATH=\"$PATH\":" ++ quote a)
  | none, none, some p => some (S "local -x PATH=" ++ quote p ++ S ":\"$PATH\"")
  | none, none, none => none

/-- The code that enters a directory, `bash_complete.py` 297-300 and 323-327. -/
def inDirectory (directory cmd : Str) : Str :=
  S "builtin pushd " ++ quote directory ++ S " &>/dev/null && {\n  " ++ cmd ++
    S "\n  builtin popd >/dev/null\n}"

/-- `directory`, `bash_complete.py` 292-304. -/
def bashDirectory (ctxt : BashCtxt) (directory : Option Str) : BashObj :=
  let filedir := versioned ctxt "_comp_compgen_filedir" "_filedir"
  match truthyText directory with
  | some d => .code (inDirectory d (filedir ++ S " -d"))
  | none => .func [filedir, S "-d"]

/-- `file`, `bash_complete.py` 306-337. -/
def bashFile (ctxt : BashCtxt) (o : FileOpts) : Except Err BashObj :=
  let args := [versioned ctxt "_comp_compgen_filedir" "_filedir"] ++
    (if o.extensions.isEmpty then [] else [bashExtensionPattern o.extensions o.fuzzy])
  match truthyText o.directory, o.ignoreGlobs with
  | none, [] => .ok (.func args)
  | some d, [] => .ok (.code (inDirectory d (joinQuoted args)))
  | dir, globs => do
    let f ← useHelper bashRepo ctxt.pre (S "file_filter")
    let r := match dir with
      | some d => inDirectory d (joinQuoted args)
      | none => joinQuoted args
    .ok (.code (r ++ S "\n" ++ f ++ S " " ++ joinQuoted globs))

/-- The suffixes of a number with their descriptions, `bash_complete.py` 250-253. -/
def suffixArgs (o : NumOpts) : List Str := o.suffixes.map (fun e => e.1 ++ S ":" ++ e.2)

/-- `integer` and `float`, `bash_complete.py` 247-262. -/
def bashNumber (ctxt : BashCtxt) (o : NumOpts) : Except Err BashObj :=
  if (suffixArgs o).isEmpty then .ok (.code [])
  else do let f ← useHelper bashRepo ctxt.pre (S "number"); .ok (.func (f :: suffixArgs o))

/-- `range`, `bash_complete.py` 354-358. -/
def bashRange (start stop step : Int) : BashObj :=
  .compgen (S "-W '{" ++ intStr start ++ S ".." ++ intStr stop ++
    (if step = 1 then [] else S ".." ++ intStr step) ++ S "}'") none

/-- `ip_address`, `bash_complete.py` 486-510. -/
def bashIpAddress (ctxt : BashCtxt) (type : Str) : BashObj :=
  let f := versioned ctxt "_comp_compgen_ip_addresses" "_ip_addresses"
  if type = S "ipv4" then .func [f]
  else if type = S "ipv6" then .func [f, S "-6"]
  else if type = S "ipv4+" then .code (f ++ S "\nCOMPREPLY+=($(compgen -W 0.0.0.0 -- \"$cur\"))")
  else if type = S "ipv6+" then .code (f ++ S " -6\nCOMPREPLY+=($(compgen -W :: -- \"$cur\"))")
  else if type = S "all+" then .code (f ++ S " -a\nCOMPREPLY+=($(compgen -W \"0.0.0.0 ::\" -- \"$cur\"))")
  else .func [f, S "-a"]

/-- `value_list`, `bash_complete.py` 393-406. -/
def bashValueList (ctxt : BashCtxt) (values : ValueWords) (o : SepOpts) : Except Err BashObj := do
  let f ← useHelper bashRepo ctxt.pre (S "value_list")
  .ok (.func ([f] ++ (if o.duplicates then [S "-d"] else []) ++ [o.separator] ++ values.words))

/-- The code of `list`, `bash_complete.py` 451-456. -/
def bashListCode (func code : Str) (o : SepOpts) : Str :=
  S "local cur_old=\"$cur\"\n" ++ S "cur=\"${cur##*" ++ quote o.separator ++ S "}\"\n" ++ code ++ S "\n" ++
    S "cur=\"$cur_old\"\n" ++ func ++ (if o.duplicates then S " -d" else []) ++ S " " ++ quote o.separator ++
    S " \"${COMPREPLY[@]}\""

/-- A completion function with one argument (`exec`, `exec_fast`, `history`, `mime_file`). -/
def bashHelper1 (ctxt : BashCtxt) (name : String) (arg : Str) : Except Err BashObj := do
  let f ← useHelper bashRepo ctxt.pre (S name); .ok (.func [f, arg])

/-- A line of `key_value_list`, `bash_complete.py` 178-186, or of `key_value_pair`, 223-230. -/
def pushLine (condition : Option Str) (key : Str) (args : List Str) : Str :=
  (match condition with
   | some _ => S "$c " ++ quote key ++ S " && "
   | none => []) ++ S "a+=(" ++ joinQuoted args ++ S ")"

/-- The code of `key_value_list`, `bash_complete.py` 188-196, and of `key_value_pair`, 232-239: `call` is the
function with the separators. -/
def keyValueCode (condition : Option Str) (lines : List Str) (call : Str) : Str :=
  S "local -a a=()\n" ++
    (match condition with
     | some f => S "local c=" ++ quote f ++ S "\n"
     | none => []) ++
    joinWith ['\n'] lines ++ S "\n" ++ call ++ S " \"${a[@]}\""

/-- The key of a definition without the star, and whether there was one, `utils.py` 331-333. -/
def starred (key : Str) : Str × Bool :=
  match key with
  | '*' :: k => (k, true)
  | k => (k, false)

/-- The arguments of a line: for `key_value_list` with what the key excludes, `bash_complete.py` 173-186. -/
def pushArgs (isList : Bool) (key : Str) (excludes : List Str) (func : Str) : List Str :=
  if isList then
    [(starred key).1, func, joinWith [' '] ((if (starred key).2 then [] else [(starred key).1]) ++ excludes)]
  else [key, func]

/-- The key that the condition is asked about. -/
def pushKey (isList : Bool) (key : Str) : Str := if isList then (starred key).1 else key

mutual
/-- The methods of `BashCompleter`, `bash_complete.py` 242-542, and `file_list` and `directory_list` of
`shell.py` 150-162. `trace` is not used in Bash. -/
def bashCompleter (ctxt : BashCtxt) : Comp → Dyn → Except Err (BashObj × Dyn)
  | .void name, dyn => do let o ← bashVoid ctxt name; .ok (o, dyn)
  | .none, dyn => .ok (.code [], dyn)
  | .commandArg, dyn => .ok (.code [], dyn)
  | .date _, dyn => .ok (.code [], dyn)
  | .choices c, dyn => .ok (.words c, dyn)
  | .command p a b, dyn => .ok (.compgen (S "-A command") (pathCode p a b), dyn)
  | .directory d, dyn => .ok (bashDirectory ctxt d, dyn)
  | .file o, dyn => do let o ← bashFile ctxt o; .ok (o, dyn)
  | .directoryList d l, dyn => do
    let f ← useHelper bashRepo ctxt.pre (S "value_list")
    .ok (.code (bashListCode f ((bashDirectory ctxt d).getCode (realName ctxt.pre (S "values")) false) l), dyn)
  | .fileList o l, dyn => do
    let inner ← bashFile ctxt o
    let f ← useHelper bashRepo ctxt.pre (S "value_list")
    .ok (.code (bashListCode f (inner.getCode (realName ctxt.pre (S "values")) false) l), dyn)
  | .exec c, dyn => do let o ← bashHelper1 ctxt "exec" c; .ok (o, dyn)
  | .execFast c, dyn => do let o ← bashHelper1 ctxt "exec_fast" c; .ok (o, dyn)
  | .execInternal c, dyn => .ok (.code c, dyn)
  | .integer o, dyn => do let o ← bashNumber ctxt o; .ok (o, dyn)
  | .float o, dyn => do let o ← bashNumber ctxt o; .ok (o, dyn)
  | .history p, dyn => do let o ← bashHelper1 ctxt "history" p; .ok (o, dyn)
  | .mimeFile p, dyn => do let o ← bashHelper1 ctxt "mime_file" p; .ok (o, dyn)
  | .ipAddress t, dyn => .ok (bashIpAddress ctxt t, dyn)
  | .keyValueListExec p v c, dyn => do
    let f ← useHelper bashRepo ctxt.pre (S "key_value_list_exec"); .ok (.func [f, p, v, c], dyn)
  | .keyValuePairExec v c, dyn => do
    let f ← useHelper bashRepo ctxt.pre (S "key_value_pair_exec"); .ok (.func [f, v, c], dyn)
  | .range a b s, dyn => .ok (bashRange a b s, dyn)
  | .valueList v o, dyn => do let o ← bashValueList ctxt v o; .ok (o, dyn)
  | .combine cs, dyn => do let r ← bashCompleters ctxt cs dyn; .ok (.combine r.1, r.2)
  | .list c o, dyn => do
    let r ← bashCompleter ctxt c dyn
    let f ← useHelper bashRepo ctxt.pre (S "value_list")
    .ok (.code (bashListCode f (r.1.getCode (realName ctxt.pre (S "values")) false) o), r.2)
  | .prefix p c, dyn => do
    let r ← bashCompleter ctxt c dyn
    let g ← r.1.getFunction (realName ctxt.pre (S "values")) ctxt.base r.2
    let f ← useHelper bashRepo ctxt.pre (S "prefix")
    .ok (.func [f, p, g.1], g.2)
  | .keyValueList ps vs ks cond, dyn => do
    let r ← bashKeyDefs ctxt true cond ks dyn
    let f ← useHelper bashRepo ctxt.pre (S "key_value_list")
    .ok (.code (keyValueCode cond r.1 (f ++ S " " ++ quote ps ++ S " " ++ quote vs)), r.2)
  | .keyValuePair vs ks cond, dyn => do
    let r ← bashKeyDefs ctxt false cond ks dyn
    let f ← useHelper bashRepo ctxt.pre (S "key_value_pair")
    .ok (.code (keyValueCode cond r.1 (f ++ S " " ++ quote vs)), r.2)
/-- The loop of `BashCompleteCombine`, `bash_complete.py` 139-141. -/
def bashCompleters (ctxt : BashCtxt) : Comps → Dyn → Except Err (List BashObj × Dyn)
  | .nil, dyn => .ok ([], dyn)
  | .cons c r, dyn => do
    let o ← bashCompleter ctxt c dyn
    let os ← bashCompleters ctxt r o.2
    .ok (o.1 :: os.1, os.2)
/-- The loops of `BashCompleteKeyValueList`, `bash_complete.py` 163-186 (`isList`), and of
`BashCompleteKeyValuePair`, 211-230: the lines, and the dynamic functions. -/
def bashKeyDefs (ctxt : BashCtxt) (isList : Bool) (cond : Option Str) : KeyDefList → Dyn → Except Err (List Str × Dyn)
  | .nil, dyn => .ok ([], dyn)
  | .bare k _ ex r, dyn => do
    let ls ← bashKeyDefs ctxt isList cond r dyn
    .ok (pushLine cond (pushKey isList k) (pushArgs isList k ex (S "false")) :: ls.1, ls.2)
  | .cons k _ ex .none r, dyn => do
    let ls ← bashKeyDefs ctxt isList cond r dyn
    .ok (pushLine cond (pushKey isList k) (pushArgs isList k ex (S "true")) :: ls.1, ls.2)
  | .cons k _ ex c r, dyn => do
    let o ← bashCompleter ctxt c dyn
    let g ← o.1.getFunction (realName ctxt.pre (S "values")) ctxt.base o.2
    let ls ← bashKeyDefs ctxt isList cond r g.2
    .ok (pushLine cond (pushKey isList k) (pushArgs isList k ex g.1) :: ls.1, ls.2)
end

end CC
