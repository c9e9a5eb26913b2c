import Verif.Spec.BashCode
import Verif.Model.Completers
import Verif.Model.Extensions
/-!
# What the code of a completer does in Bash (specification)

`Does` says, for every completer, which commands are run with which words; it knows nothing of quoting. Of the
model it uses the type of completers and, for file extensions, the pattern whose meaning is property C12.
-/

namespace BashCompleter
open BashCode CC

/-- The surroundings of the code: the prefix of the helper functions, whether bash-completion is at least
version 2.12, and the functions (code and name) that the script defines besides the helper functions. -/
structure Setting where
  pre : Str
  new : Bool
  functions : List (Str × Str)

/-- The name of a helper function. -/
def helper (s : Setting) (name : String) : Str := s.pre ++ "__".toList ++ name.toList

/-- Results are added to the earlier ones. -/
def appending (append : Bool) (ss : List Stmt) : List Stmt := if append then [.saveReply] ++ ss ++ [.joinReply] else ss

/-- Completers without arguments that are an action of `compgen`. -/
def actions : List (String × String) := [
  ("group", "group"), ("hostname", "hostname"), ("service", "service"), ("user", "user"),
  ("variable", "variable"), ("environment", "export")]

/-- Completers without arguments that call a helper function, and its arguments (helper functions too). -/
def helpers : List (String × List String) := [
  ("commandline_string", ["commandline_string"]), ("mountpoint", ["mountpoint"]), ("locale", ["locales"]),
  ("charset", ["charsets"]), ("timezone", ["exec", "timezone_list"]), ("alsa_card", ["alsa_list_cards"]),
  ("alsa_device", ["alsa_list_devices"])]

/-- Completers without arguments that call a function of bash-completion: since 2.12, and before. -/
def library : List (String × List String × List String) := [
  ("pid", ["_comp_compgen_pids"], ["_pids"]), ("process", ["_comp_compgen_pnames"], ["_pnames"]),
  ("uid", ["_comp_compgen_uids"], ["_uids"]), ("gid", ["_comp_compgen_gids"], ["_gids"]),
  ("signal", ["_comp_compgen_signals"], ["_signals"]),
  ("filesystem_type", ["_comp_compgen", "-a", "fstypes"], ["_fstypes"]),
  ("login_shell", ["_comp_compgen", "-a", "shells"], ["_shells"]),
  ("net_interface", ["_comp_compgen_available_interfaces"], ["_available_interfaces"])]

/-- What a completer without arguments does. -/
def DoesVoid (s : Setting) (name : Str) (append : Bool) (ss : List Stmt) : Prop :=
  (∃ e ∈ actions, e.1.toList = name ∧ ss = [.compgen append ["-A".toList, e.2.toList]]) ∨
  (∃ e ∈ helpers, e.1.toList = name ∧ ss = appending append [.call (e.2.map (helper s))]) ∨
  (∃ e ∈ library, e.1.toList = name ∧
    ss = appending append [.call ((if s.new then e.2.1 else e.2.2).map String.toList)]) ∨
  (name = "date_format".toList ∧ ss = [])

/-- `PATH` for the completion of commands. -/
def pathStmts : Option Str → Option Str → Option Str → List Stmt
  | some p, _, _ => [.path [some p]]
  | none, some a, some b => [.path [some (b ++ [':']), none, some (':' :: a)]]
  | none, some a, none => [.path [none, some (':' :: a)]]
  | none, none, some b => [.path [some (b ++ [':']), none]]
  | none, none, none => []

/-- The function of bash-completion that completes files. -/
def filedir (s : Setting) : Str := (if s.new then "_comp_compgen_filedir" else "_filedir").toList

/-- Do something in a directory. -/
def inDir (dir : Option Str) (ss : List Stmt) : List Stmt :=
  match dir with
  | some d => [.enter d] ++ ss ++ [.leave, .close]
  | none => ss

/-- What `directory` does. -/
def directoryStmts (s : Setting) (dir : Option Str) : List Stmt := inDir dir [.call [filedir s, "-d".toList]]

/-- What `file` does. -/
def fileStmts (s : Setting) (o : FileOpts) : List Stmt :=
  inDir o.directory
    [.call ([filedir s] ++ (if o.extensions = [] then [] else [bashExtensionPattern o.extensions o.fuzzy]))] ++
  (if o.ignoreGlobs = [] then [] else [.call (helper s "file_filter" :: o.ignoreGlobs)])

/-- What `integer` and `float` do. -/
def numberStmts (s : Setting) (append : Bool) (o : NumOpts) : List Stmt :=
  if o.suffixes = [] then []
  else appending append [.call (helper s "number" :: o.suffixes.map (fun e => e.1 ++ ":".toList ++ e.2))]

/-- The flag for duplicates. -/
def dupFlag (o : SepOpts) : List Str := if o.duplicates then ["-d".toList] else []

/-- What is done around the completion of one item of a list. -/
def listStmts (s : Setting) (o : SepOpts) (inner : List Stmt) : List Stmt :=
  [.saveCur, .cutCur o.separator] ++ inner ++
    [.restoreCur, .callWith ([helper s "value_list"] ++ dupFlag o ++ [o.separator]) "COMPREPLY".toList]

/-- What `ip_address` does. -/
def ipStmts (s : Setting) (append : Bool) (type : Str) : List Stmt :=
  let f := (if s.new then "_comp_compgen_ip_addresses" else "_ip_addresses").toList
  let more (flags : List String) (list : String) : List Stmt :=
    appending append [.call (f :: flags.map String.toList), .compgen true ["-W".toList, list.toList]]
  if type = "ipv4".toList then appending append [.call [f]]
  else if type = "ipv6".toList then appending append [.call [f, "-6".toList]]
  else if type = "ipv4+".toList then more [] "0.0.0.0"
  else if type = "ipv6+".toList then more ["-6"] "::"
  else if type = "all+".toList then more ["-a"] "0.0.0.0 ::"
  else appending append [.call [f, "-a".toList]]

/-- The list of numbers as a brace expansion. -/
def braces (start stop step : Int) : Str :=
  ['{'] ++ intStr start ++ "..".toList ++ intStr stop ++
    (if step = 1 then [] else "..".toList ++ intStr step) ++ ['}']

/-- A key of `key_value_list` without the star that makes it repeatable. -/
def keyName (key : Str) : Str := if key.head? = some '*' then key.tail else key

/-- What a key of `key_value_list` excludes: itself, unless it has a star, and what it lists. -/
def excluded (key : Str) (excludes : List Str) : List Str :=
  (if key.head? = some '*' then [] else [key]) ++ excludes

/-- The words that describe a key to the helper function: for a list with the excluded keys. -/
def keyWords (isList : Bool) (key : Str) (excludes : List Str) (func : Str) : List Str :=
  if isList then [keyName key, func, joinWith [' '] (excluded key excludes)] else [key, func]

/-- The beginning of `key_value_list` and `key_value_pair`. -/
def keyStart (cond : Option Str) : List Stmt :=
  [.newArray] ++ (match cond with
    | some f => [.condition f]
    | none => [])

/-- The condition of a key, if there is a condition function. -/
def keyCondition (isList : Bool) (cond : Option Str) (key : Str) : Option Str :=
  cond.map (fun _ => if isList then keyName key else key)

mutual
/-- What the code of a completer does, after earlier completers (`append`) or alone. -/
def Does (s : Setting) : Comp → Bool → List Stmt → Prop
  | .void n, append, ss => DoesVoid s n append ss
  | .none, _, ss => ss = []
  | .commandArg, _, ss => ss = []
  | .date _, _, ss => ss = []
  | .choices c, append, ss =>
    (∃ list, ss = [.compgen append ["-W".toList, list]] ∧
      Posix.words list = some ((c.words.map Choice.text).filter (· ≠ []))) ∨
    ss = [.call ([helper s "values"] ++ (if append then ["-a".toList] else []) ++ ["--".toList] ++
      c.words.map Choice.text)]
  | .command p a b, append, ss => ss = pathStmts p a b ++ [.compgen append ["-A".toList, "command".toList]]
  | .directory d, append, ss => ss = appending append (directoryStmts s d)
  | .file o, append, ss => ss = appending append (fileStmts s o)
  | .directoryList d l, append, ss => ss = appending append (listStmts s l (directoryStmts s d))
  | .fileList o l, append, ss => ss = appending append (listStmts s l (fileStmts s o))
  | .exec c, append, ss => ss = appending append [.call [helper s "exec", c]]
  | .execFast c, append, ss => ss = appending append [.call [helper s "exec_fast", c]]
  | .execInternal c, append, ss =>
    if c = [] then ss = [] else ∃ inner, read c = some inner ∧ ss = appending append inner
  | .integer o, append, ss => ss = numberStmts s append o
  | .float o, append, ss => ss = numberStmts s append o
  | .history p, append, ss => ss = appending append [.call [helper s "history", p]]
  | .mimeFile p, append, ss => ss = appending append [.call [helper s "mime_file", p]]
  | .ipAddress t, append, ss => ss = ipStmts s append t
  | .keyValueListExec p v c, append, ss => ss = appending append [.call [helper s "key_value_list_exec", p, v, c]]
  | .keyValuePairExec v c, append, ss => ss = appending append [.call [helper s "key_value_pair_exec", v, c]]
  | .range a b st, append, ss => ss = [.compgen append ["-W".toList, braces a b st]]
  | .valueList v o, append, ss =>
    ss = appending append [.call ([helper s "value_list"] ++ dupFlag o ++ [o.separator] ++ v.words)]
  | .combine cs, append, ss => DoesAll s cs append ss
  | .list c o, append, ss => ∃ inner, Does s c false inner ∧ ss = appending append (listStmts s o inner)
  | .prefix p c, append, ss =>
    ∃ g, ((Does s c false [] ∧ g = "true".toList) ∨ Does s c false [.call [g]] ∨
        ∃ code inner, (code, g) ∈ s.functions ∧ read code = some inner ∧ Does s c false inner) ∧
      ss = appending append [.call [helper s "prefix", p, g]]
  | .keyValueList ps vs ks cond, append, ss =>
    ∃ pushes, DoesKeys s true cond ks pushes ∧
      ss = appending append (keyStart cond ++ pushes ++ [.callWith [helper s "key_value_list", ps, vs] "a".toList])
  | .keyValuePair vs ks cond, append, ss =>
    ∃ pushes, DoesKeys s false cond ks pushes ∧
      ss = appending append (keyStart cond ++ pushes ++ [.callWith [helper s "key_value_pair", vs] "a".toList])
/-- One completer after the other. -/
def DoesAll (s : Setting) : Comps → Bool → List Stmt → Prop
  | .nil, _, ss => ss = []
  | .cons c r, append, ss => ∃ a b, Does s c append a ∧ DoesAll s r true b ∧ ss = a ++ b
/-- The keys: each one is described to the helper function, with a function that completes its value. -/
def DoesKeys (s : Setting) (isList : Bool) (cond : Option Str) : KeyDefList → List Stmt → Prop
  | .nil, ss => ss = []
  | .bare k _ ex r, ss =>
    ∃ b, DoesKeys s isList cond r b ∧
      ss = .push (keyCondition isList cond k) (keyWords isList k ex "false".toList) :: b
  | .cons k _ ex c r, ss =>
    ∃ g b, ((Does s c false [] ∧ g = "true".toList) ∨ Does s c false [.call [g]] ∨
        ∃ code inner, (code, g) ∈ s.functions ∧ read code = some inner ∧ Does s c false inner) ∧
      DoesKeys s isList cond r b ∧ ss = .push (keyCondition isList cond k) (keyWords isList k ex g) :: b
end

/-! ## Which completers are meant -/

/-- An option that is given is not empty. -/
def NotEmpty (o : Option Str) : Prop := o ≠ some []

mutual
/-- The arguments are as the documentation asks: known completers, separators of one character, no empty
path or directory. -/
def Proper : Comp → Prop
  | .void n => n ∈ voidNames
  | .command p a b => NotEmpty p ∧ NotEmpty a ∧ NotEmpty b
  | .directory d => NotEmpty d
  | .file o => NotEmpty o.directory
  | .directoryList d l => NotEmpty d ∧ l.separator.length = 1
  | .fileList o l => NotEmpty o.directory ∧ l.separator.length = 1
  | .combine cs => ProperAll cs
  | .list c o => Proper c ∧ o.separator.length = 1
  | .prefix _ c => Proper c
  | .keyValueList _ _ ks _ => ProperKeys ks
  | .keyValuePair _ ks _ => ProperKeys ks
  | _ => True
/-- All completers of a combination. -/
def ProperAll : Comps → Prop
  | .nil => True
  | .cons c r => Proper c ∧ ProperAll r
/-- All completers of the keys. -/
def ProperKeys : KeyDefList → Prop
  | .nil => True
  | .bare _ _ _ r => ProperKeys r
  | .cons _ _ _ c r => Proper c ∧ ProperKeys r
end

mutual
/-- Code of the user's own (`exec_internal`) can be read, and the two completers that do not work with
bash-completion 2.12 are not used with it. -/
def Works (new : Bool) : Comp → Prop
  | .void n => new = true → n ≠ "login_shell".toList ∧ n ≠ "filesystem_type".toList
  | .execInternal c => ∃ ss, read c = some ss
  | .combine cs => WorksAll new cs
  | .list c _ => Works new c
  | .prefix _ c => Works new c
  | .keyValueList _ _ ks _ => WorksKeys new ks
  | .keyValuePair _ ks _ => WorksKeys new ks
  | _ => True
/-- All completers of a combination. -/
def WorksAll (new : Bool) : Comps → Prop
  | .nil => True
  | .cons c r => Works new c ∧ WorksAll new r
/-- All completers of the keys. -/
def WorksKeys (new : Bool) : KeyDefList → Prop
  | .nil => True
  | .bare _ _ _ r => WorksKeys new r
  | .cons _ _ _ c r => Works new c ∧ WorksKeys new r
end

end BashCompleter
