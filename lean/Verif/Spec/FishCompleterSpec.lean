import Verif.Spec.FishCode
import Verif.Spec.BashCompleterSpec
import Verif.Props.ChoicesFish
import Verif.Props.Extensions
import Verif.Model.Pattern
/-!
# What a completer does in Fish (specification)

`Does` says, for every completer, which commands are to be run; it knows nothing of quoting. `Args` says what the
arguments of Fish's `complete` mean. Of the model it uses the type of completers, the candidates of choices (C63),
and the translation of globs, which has properties of its own.
-/

namespace FishCompleter
open FishCode CC

/-- The surroundings: the prefix of the helper functions, the functions (code and name) that the script defines
besides them, and the number of the positional argument that is completed. -/
structure Setting where
  pre : Str
  functions : List (Str × Str)
  position : Int

/-- The name of a helper function. -/
def helper (s : Setting) (name : String) : Str := s.pre ++ "__".toList ++ name.toList

/-- The code offers these candidates: it is a call of `printf` that prints them line by line. -/
def Prints (ss : List Stmt) (items : List (Str × Str)) : Prop :=
  ∃ args lines, ss = [call ("printf".toList :: args)] ∧ FishWords.printfLines args = some lines ∧
    (∀ l ∈ lines, '\n' ∉ l) ∧ lines.map FishWords.candidate = items

/-- Completers without arguments that call a function of Fish. -/
def library : List (String × List String) := [
  ("group", ["__fish_complete_groups"]), ("hostname", ["__fish_print_hostnames"]),
  ("pid", ["__fish_complete_pids"]), ("process", ["__fish_complete_proc"]),
  ("service", ["__fish_systemctl_services"]), ("user", ["__fish_complete_users"]),
  ("variable", ["set", "-n"]), ("environment", ["set", "-n", "-x"]),
  ("uid", ["__fish_complete_user_ids"]), ("gid", ["__fish_complete_group_ids"]),
  ("filesystem_type", ["__fish_print_filesystems"]), ("net_interface", ["__fish_print_interfaces"]),
  ("mountpoint", ["__fish_print_mounted"]), ("login_shell", ["command", "grep", "-E", "^[^#]", "/etc/shells"]),
  ("locale", ["command", "locale", "-a"]), ("charset", ["command", "locale", "-m"])]

/-- Completers without arguments that call a helper function. -/
def helpers : List (String × String) := [
  ("commandline_string", "commandline_string"), ("date_format", "date_format"), ("timezone", "timezone_list"),
  ("alsa_card", "alsa_list_cards"), ("alsa_device", "alsa_list_devices")]

/-- The names of signals, with descriptions. -/
def signals : List (String × String) := [
  ("ABRT", "Process abort signal"), ("ALRM", "Alarm clock"),
  ("BUS", "Access to an undefined portion of a memory object"),
  ("CHLD", "Child process terminated: stopped: or continued"), ("CONT", "Continue executing: if stopped"),
  ("FPE", "Erroneous arithmetic operation"), ("HUP", "Hangup"), ("ILL", "Illegal instruction"),
  ("INT", "Terminal interrupt signal"), ("KILL", "Kill (cannot be caught or ignored)"),
  ("PIPE", "Write on a pipe with no one to read it"), ("QUIT", "Terminal quit signal"),
  ("SEGV", "Invalid memory reference"), ("STOP", "Stop executing (cannot be caught or ignored)"),
  ("TERM", "Termination signal"), ("TSTP", "Terminal stop signal"),
  ("TTIN", "Background process attempting read"), ("TTOU", "Background process attempting write"),
  ("USR1", "User-defined signal 1"), ("USR2", "User-defined signal 2"), ("POLL", "Pollable event"),
  ("PROF", "Profiling timer expired"), ("SYS", "Bad system call"), ("TRAP", "Trace/breakpoint trap"),
  ("XFSZ", "File size limit exceeded"), ("VTALRM", "Virtual timer expired"), ("XCPU", "CPU time limit exceeded")]

/-- The candidates for signals. -/
def signalItems : List (Str × Str) := signals.map (fun e => (e.1.toList, e.2.toList))

/-- The candidates of a completer that offers a fixed list. -/
def fixedItems : Comp → Option (List (Str × Str))
  | .choices c => some c.candidates
  | .void n => if n = "signal".toList then some signalItems else none
  | _ => none

/-- What a completer without arguments does. -/
def VoidDoes (s : Setting) (name : Str) (ss : List Stmt) : Prop :=
  (∃ e ∈ library, e.1.toList = name ∧ ss = [call (e.2.map String.toList)]) ∨
  (∃ e ∈ helpers, e.1.toList = name ∧ ss = [call [helper s e.2]]) ∨
  (name = "signal".toList ∧ Prints ss signalItems)

/-- The parts of a text between separators. -/
def parts (sep : Char) : Str → List Str
  | [] => [[]]
  | c :: r =>
    if c = sep then [] :: parts sep r
    else match parts sep r with
      | [] => [[c]]
      | p :: ps => (c :: p) :: ps

/-- The statements that set the path, `$PATH` standing for its old value. -/
def pathStmts (path append prepend : Option Str) : List Stmt :=
  let dirs (p : Str) : Stmt := call (parts ':' p)
  let set : Stmt := call ["set".toList, "-lx".toList]
  let old : Stmt := [.word [.exp "PATH".toList]]
  let var : Stmt := call ["PATH".toList]
  match path, append, prepend with
  | some p, _, _ => [set ++ var ++ dirs p]
  | none, some a, some p => [set ++ var ++ dirs p ++ old ++ dirs a]
  | none, some a, none => [set ++ call ["-a".toList] ++ var ++ dirs a]
  | none, none, some p => [set ++ var ++ dirs p ++ old]
  | none, none, none => []

/-- A regular expression for names with one of these extensions, in upper or lower case; with `fuzzy`, more may
follow. -/
def ExtensionRegex (exts : List Str) (fuzzy : Bool) (p : Str) : Prop :=
  ∃ alts, readRegex p = some alts ∧ ∀ w, '\n' ∉ w → (Rx.AltLang alts w ↔
    ∃ e ∈ exts, ∃ p a b, w = p ++ '.' :: (a ++ b) ∧ lower a = lower e ∧ (fuzzy = false → b = []))

/-- The arguments that select files: a directory, a regular expression for the extensions, and one for the names to
be ignored. -/
def FileArgs (o : FileOpts) (args : List Str) : Prop :=
  ∃ a b, args = (match o.directory with | some d => ["-C".toList, d] | none => []) ++ a ++ b ∧
    (if o.extensions = [] then a = [] else ∃ p, a = ["-r".toList, p] ∧ ExtensionRegex o.extensions o.fuzzy p) ∧
    (if o.ignoreGlobs = [] then b = []
     else ∃ globs : List Str, o.ignoreGlobs.map bashGlobToRegex = globs.map .ok ∧
      b = ["-i".toList, joinWith ['|'] (globs.map (fun g => ['('] ++ g ++ [')']))])

/-- The calls for directories. In a place where a part of the word is already there (in a list, in the value of a
key, or behind a prefix), Fish's own function cannot be used. -/
def DirectoryCall (s : Setting) (inner : Bool) : Option Str → List Str → Prop
  | some d, ws => ws = [helper s "filedir", "-D".toList, "-C".toList, d]
  | none, ws => ws = [helper s "filedir", "-D".toList] ∨ (inner = false ∧ ws = ["__fish_complete_directories".toList])

/-- The call for addresses. -/
def ipStmt (type : Str) : Stmt :=
  let plus := type = "ipv4+".toList ∨ type = "ipv6+".toList ∨ type = "all+".toList
  let only : Option String :=
    if type = "ipv4".toList ∨ type = "ipv4+".toList then some "."
    else if type = "ipv6".toList ∨ type = "ipv6+".toList then some ":" else none
  call (["__fish_print_addresses".toList] ++ (if plus then ["--all".toList] else [])) ++
    (match only with
     | some c => .pipe :: call ["string".toList, "match".toList, "-e".toList, c.toList]
     | none => [])

/-- The call for a list, whose items a function completes. -/
def listWords (s : Setting) (o : SepOpts) (function : Str) : List Str :=
  [helper s "list"] ++ (if o.duplicates then ["-d".toList] else []) ++ [o.separator, function]

/-- The values of `value_list` with their descriptions. -/
def valueItems : ValueWords → List (Str × Str)
  | .list l => l.map (fun w => (w, []))
  | .table t => t

/-- The code for an argument of a command: the command line from that command on is completed. -/
def commandArgStmts (s : Setting) : List Stmt :=
  [call ["set".toList, "-l".toList, "pos".toList] ++
      [.word [.sub (helper s "positional_position" ++ [' '] ++ intStr (s.position - 1))]],
   call ["set".toList, "-l".toList, "cmdline".toList] ++
      [.word [.sub "commandline -poc | string escape".toList], .word [.sub "commandline -ct".toList]],
   call ["complete".toList, "-C".toList, "--".toList] ++ [.word [.exp "cmdline[$pos..]".toList]]]

/-- The variables of `key_value_list` and `key_value_pair` are declared. -/
def keyStart (cond : Option Str) : List Stmt :=
  [call ["set".toList, "-l".toList, "a".toList]] ++
    cond.toList.map (fun f => call ["set".toList, "-l".toList, "c".toList, f])

/-- A key is added, if the condition holds for it: with its description, the function that completes its value, and
(in a list) the keys that it excludes. -/
def keyPush (isList : Bool) (cond : Option Str) (key : Str) (desc : Option Str) (excludes : List Str) (function : Str) :
    Stmt :=
  let name := if isList then BashCompleter.keyName key else key
  (match cond with
   | some _ => [.word [.exp "c".toList], lit name, .and]
   | none => []) ++
  call (["set".toList, "-a".toList, "a".toList, name, desc.getD [], function] ++
    (if isList then [joinWith [' '] ((if key.head? = some '*' then [] else [name]) ++ excludes)] else []))

/-- A function of the script runs these statements. -/
def Defined (s : Setting) (g : Str) (ss : List Stmt) : Prop :=
  ∃ code, (code, g) ∈ s.functions ∧ FishCode.read code = some ss

mutual
/-- What a completer does. -/
def Does (s : Setting) (inner : Bool) : Comp → List Stmt → Prop
  | .void n, ss => VoidDoes s n ss
  | .none, ss => ss = [] ∨ ss = [call ["true".toList]]
  | .commandArg, ss => ss = commandArgStmts s
  | .date _, _ => False
  | .choices c, ss => Prints ss c.candidates
  | .command p a b, ss => ss = pathStmts p a b ++ [call ["__fish_complete_command".toList]]
  | .directory d, ss => ∃ ws, DirectoryCall s inner d ws ∧ ss = [call ws]
  | .file o, ss => ∃ args, FileArgs o args ∧ ss = [call (helper s "filedir" :: args)]
  | .directoryList d l, ss => ∃ g ws, DirectoryCall s true d ws ∧ (ws = [g] ∨ Defined s g [call ws]) ∧
      ss = [call (listWords s l g)]
  | .fileList o l, ss => ∃ g args, FileArgs o args ∧
      (helper s "filedir" :: args = [g] ∨ Defined s g [call (helper s "filedir" :: args)]) ∧
      ss = [call (listWords s l g)]
  | .exec c, ss => FishCode.read c = some ss
  | .execFast c, ss => FishCode.read c = some ss
  | .execInternal c, ss => FishCode.read c = some ss
  | .integer o, ss => ss = (if o.suffixes = [] then [] else
      [call (helper s "number" :: o.suffixes.map (fun e => e.1 ++ [':'] ++ e.2))]) ∨
      (o.suffixes = [] ∧ ss = [call ["true".toList]])
  | .float o, ss => ss = (if o.suffixes = [] then [] else
      [call (helper s "number" :: o.suffixes.map (fun e => e.1 ++ [':'] ++ e.2))]) ∨
      (o.suffixes = [] ∧ ss = [call ["true".toList]])
  | .history p, ss => ss = [call [helper s "history", p]]
  | .mimeFile p, ss => ss = [call [helper s "mime_file", p]]
  | .ipAddress y, ss => ss = [ipStmt y]
  | .keyValueListExec p v c, ss => ss = [call [helper s "key_value_list_exec", p, v, c]]
  | .keyValuePairExec v c, ss => ss = [call [helper s "key_value_pair_exec", v, c]]
  | .range a b st, ss => ss = [call (["seq".toList, intStr a] ++ (if st = 1 then [] else [intStr st]) ++ [intStr b])]
  | .valueList v o, ss => ∃ g ss', Defined s g ss' ∧ Prints ss' (valueItems v) ∧
      ss = [call [if o.duplicates then "__fish_complete_list".toList else helper s "list", o.separator, g]]
  | .combine cs, ss => DoesAll s inner cs ss
  | .list c o, ss => ∃ g, (Does s true c [call [g]] ∨ ∃ ss', Defined s g ss' ∧ Does s true c ss') ∧
      ss = [call (listWords s o g)]
  | .prefix p c, ss => ∃ g, (Does s true c [call [g]] ∨ ∃ ss', Defined s g ss' ∧ Does s true c ss') ∧
      ss = [call [helper s "prefix", p, g]]
  | .keyValueList ps vs ks cond, ss =>
    ∃ g pushes, DoesKeys s true cond ks pushes ∧ Defined s g (keyStart cond ++ pushes ++
      [call [helper s "key_value_list", ps, vs] ++ [.word [.exp "a".toList]]]) ∧ ss = [call [g]]
  | .keyValuePair vs ks cond, ss =>
    ∃ g pushes, DoesKeys s false cond ks pushes ∧ Defined s g (keyStart cond ++ pushes ++
      [call [helper s "key_value_pair", vs] ++ [.word [.exp "a".toList]]]) ∧ ss = [call [g]]
/-- The completers of a combination, one after the other. -/
def DoesAll (s : Setting) (inner : Bool) : Comps → List Stmt → Prop
  | .nil, ss => ss = []
  | .cons c r, ss => ∃ a b, Does s inner c a ∧ DoesAll s inner r b ∧ ss = a ++ b
/-- The keys: each one is added with a function that completes its value. -/
def DoesKeys (s : Setting) (isList : Bool) (cond : Option Str) : KeyDefList → List Stmt → Prop
  | .nil, ss => ss = []
  | .bare k d ex r, ss => ∃ b, DoesKeys s isList cond r b ∧ ss = keyPush isList cond k d ex "false".toList :: b
  | .cons k d ex c r, ss =>
    ∃ g b, (Does s true c [call [g]] ∨ ∃ ss', Defined s g ss' ∧ Does s true c ss') ∧ DoesKeys s isList cond r b ∧
      ss = keyPush isList cond k d ex g :: b
end

/-- A function does what a completer does: it is the one that the completer calls, or one of the script. -/
def Via (s : Setting) (inner : Bool) (c : Comp) (g : Str) : Prop :=
  Does s inner c [call [g]] ∨ ∃ ss, Defined s g ss ∧ Does s inner c ss

/-- The arguments of Fish's `complete` do what a completer does. `-f`: no files are offered. `-F`: files are
offered. `-a`: the words of the argument are offered, or, if it is a command substitution, the lines that the
commands in it print. -/
inductive Args (s : Setting) (c : Comp) : List Str → Prop
  | nothing : Does s false c [] → Args s c ["-f".toList]
  | files {o} : c = .file o → o.directory = none → o.extensions = [] → o.ignoreGlobs = [] → Args s c ["-F".toList]
  | words {arg items} : fixedItems c = some items → FishWords.offered arg = some items →
      Args s c ["-f".toList, "-a".toList, arg]
  | run {code ss} : FishCode.read code = some ss → Does s false c ss →
      Args s c ["-f".toList, "-a".toList, ['('] ++ code ++ [')']]
  | function {g} : FishCode.read g = some [call [g]] → Via s false c g →
      Args s c ["-f".toList, "-a".toList, ['('] ++ g ++ [')']]

/-! ## Which completers are meant -/

/-- The texts that are words of their own in the code. -/
def ownWords : Comp → List Str
  | .command p a b => (p.toList ++ a.toList ++ b.toList).flatMap (parts ':')
  | .directory d => d.toList
  | .file o => fileTexts o
  | .directoryList d l => d.toList ++ [l.separator]
  | .fileList o l => fileTexts o ++ [l.separator]
  | .integer o => o.suffixes.map (fun e => e.1 ++ [':'] ++ e.2)
  | .float o => o.suffixes.map (fun e => e.1 ++ [':'] ++ e.2)
  | .history p => [p]
  | .mimeFile p => [p]
  | .keyValueListExec p v c => [p, v, c]
  | .keyValuePairExec v c => [v, c]
  | .valueList v o => o.separator :: (valueItems v).flatMap (fun i => [i.1, i.2])
  | .list _ o => [o.separator]
  | .prefix p _ => [p]
  | .keyValueList ps vs _ cond => [ps, vs] ++ cond.toList
  | .keyValuePair vs _ _ => [vs]
  | _ => []
where
  /-- The texts of a file completer. -/
  fileTexts (o : FileOpts) : List Str :=
    o.directory.toList ++ [joinWith ['|'] ((o.ignoreGlobs.filterMap (fun g => (bashGlobToRegex g).toOption)).map
      (fun g => ['('] ++ g ++ [')']))]

/-- The extensions are made of characters for which the regular expression is right (C12). -/
def ExtensionsFit (o : FileOpts) : Prop :=
  ∀ e ∈ o.extensions, ∀ c ∈ e, c.isAlphanum = true ∨ c = '.' ∨ c = '+' ∨ c = '_' ∨ c = '-'

/-- The completer is one for directories, with Fish's own function. -/
def plainDirectory : Comp → Bool
  | .directory none => true
  | .combine cs => plainDirectories cs
  | _ => false
where
  /-- One of the completers of a combination is. -/
  plainDirectories : Comps → Bool
    | .nil => false
    | .cons c r => plainDirectory c || plainDirectories r

/-- The values can be printed line by line. -/
def ValuesFit (v : ValueWords) : Prop :=
  valueItems v ≠ [] ∧ ∀ i ∈ valueItems v, '\t' ∉ i.1 ∧ '\n' ∉ i.1 ∧ '\n' ∉ i.2

/-- The conditions on the arguments of a completer alone. -/
def FitsHere : Comp → Prop
  | .void n => n ∈ voidNames
  | .date _ => False
  | .choices c => FishTexts c ∧ c.words ≠ [] ∧ (c.words.map Choice.text).Nodup
  | .command p a b => BashCompleter.NotEmpty p ∧ BashCompleter.NotEmpty a ∧ BashCompleter.NotEmpty b
  | .file o => BashCompleter.NotEmpty o.directory ∧ ExtensionsFit o
  | .fileList o _ => BashCompleter.NotEmpty o.directory ∧ ExtensionsFit o
  | .exec c => ∃ ss, FishCode.read c = some ss
  | .execFast c => ∃ ss, FishCode.read c = some ss
  | .execInternal c => ∃ ss, FishCode.read c = some ss
  | .valueList v _ => ValuesFit v
  | _ => True

/-- A text that Fish reads as it is meant (C03). -/
def Readable (t : Str) : Prop := fishReadable t = true

/-- The texts of a key. -/
def keyTexts (isList : Bool) (key : Str) (desc : Option Str) (excludes : List Str) : List Str :=
  let name := if isList then BashCompleter.keyName key else key
  [name, desc.getD []] ++
    (if isList then [joinWith [' '] ((if key.head? = some '*' then [] else [name]) ++ excludes)] else [])

mutual
/-- The conditions on a completer; `inList` says that it stands in a list or in the value of a key. -/
def Fits (inList : Bool) : Comp → Prop
  | .combine cs => FitsAll inList cs
  | .list c o => Fits true c ∧ Readable o.separator
  | .prefix p c => Fits inList c ∧ Readable p ∧ (inList = true ∨ plainDirectory c = false)
  | .keyValueList ps vs ks cond => FitsKeys true ks ∧ ∀ w ∈ [ps, vs] ++ cond.toList, Readable w
  | .keyValuePair vs ks cond => FitsKeys false ks ∧ Readable vs ∧ cond = none
  | c => FitsHere c ∧ ∀ w ∈ ownWords c, Readable w
/-- The members of a combination. -/
def FitsAll (inList : Bool) : Comps → Prop
  | .nil => True
  | .cons c r => Fits inList c ∧ FitsAll inList r
/-- The keys and their completers. -/
def FitsKeys (isList : Bool) : KeyDefList → Prop
  | .nil => True
  | .bare k d ex r => (∀ w ∈ keyTexts isList k d ex, Readable w) ∧ FitsKeys isList r
  | .cons k d ex c r => (∀ w ∈ keyTexts isList k d ex, Readable w) ∧ Fits true c ∧ FitsKeys isList r
end

/-- The globs of a file completer can be translated. -/
def GlobsRead (o : FileOpts) : Prop := ∀ g ∈ o.ignoreGlobs, ∃ z, bashGlobToRegex g = .ok z

mutual
/-- The generator accepts the completer. -/
def Accepted : Comp → Prop
  | .file o => GlobsRead o
  | .fileList o _ => GlobsRead o
  | .combine cs => AcceptedAll cs
  | .list c _ => Accepted c
  | .prefix _ c => Accepted c
  | .keyValueList _ _ ks _ => AcceptedKeys ks
  | .keyValuePair _ ks _ => AcceptedKeys ks
  | _ => True
/-- The completers of a combination. -/
def AcceptedAll : Comps → Prop
  | .nil => True
  | .cons c r => Accepted c ∧ AcceptedAll r
/-- The completers of keys. -/
def AcceptedKeys : KeyDefList → Prop
  | .nil => True
  | .bare _ _ _ r => AcceptedKeys r
  | .cons _ _ _ c r => Accepted c ∧ AcceptedKeys r
end

end FishCompleter
