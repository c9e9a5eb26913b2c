import Verif.Spec.ZshCode
import Verif.Spec.BashCompleterSpec
import Verif.Model.Pattern
import Verif.Props.Choices
/-!
# What a completer does in Zsh (specification)

`Does` says, for every completer, what is to happen; it knows nothing of quoting. `Action` says what happens
for the action of an option, `Body` for the code of a function. Of the model it uses the type of completers,
the words of choices (C63), and the translation of globs, which has properties of its own.
-/

namespace ZshCompleter
open BashCode CC

/-- The surroundings: the prefix of the helper functions, the functions (code and name) that the script
defines besides them, the heading for values, and the heading for numbers. -/
structure Setting where
  pre : Str
  functions : List (Str × Str)
  metavar : Str
  help : Str

/-- The name of a helper function. -/
def helper (s : Setting) (name : String) : Str := s.pre ++ "__".toList ++ name.toList

/-- What is done when an argument is completed: nothing, words (with descriptions) are offered, the numbers of
a range are offered, or commands are run. -/
inductive Task where
  | nothing
  | offer (items : List (Str × Option Str))
  | numbers (start stop step : Int)
  | run (ss : List Stmt)

/-- A function that can be called with the options of `compadd`: every one but the helper functions, which take
their arguments by position. -/
def TakesOptions (s : Setting) (f : Str) : Prop :=
  (∀ name, f ≠ s.pre ++ "__".toList ++ name) ∨ ∃ code, (code, f) ∈ s.functions

/-- What the code of a function does: an array of words for `_describe`, the numbers that `seq` prints, or
commands. -/
inductive Body (s : Setting) : Str → Task → Prop
  | offer {t items} : ZshWords.functionOffers t s.metavar items → (∀ i ∈ items, ZshCode.keeps i.1 = true) →
      Body s t (.offer items)
  | numbers {a b st} : Body s ("compadd -- $(command seq ".toList ++ intStr a ++ [' '] ++
      (if st = 1 then [] else intStr st ++ [' ']) ++ intStr b ++ [')']) (.numbers a b st)
  | code {t ss} : ZshCode.read t = some ss → Body s t (.run ss)

/-- What `_arguments`, `_alternative` and `_values` do with an action (the manual, "Completion Functions",
`_arguments`): blanks, a list of words in parentheses, a brace expansion in parentheses, code in braces, a
function of the script, or another command; to a command the options of `compadd` are added. -/
inductive Action (s : Setting) : Str → Task → Prop
  | nothing {t} : (∀ c ∈ t, c = ' ') → Action s t .nothing
  | offer {t items} : ZshWords.offered t = some items → (∀ i ∈ items, ZshCode.keeps i.1 = true) →
      Action s t (.offer items)
  | numbers {a b st} : Action s (['('] ++ BashCompleter.braces a b st ++ [')']) (.numbers a b st)
  | code {code ss} : ZshCode.read code = some ss → Action s (['{'] ++ code ++ ['}']) (.run ss)
  | command {t f ws} : (∀ c, t.head? = some c → c.isAlpha = true ∨ c = '_') →
      ZshCode.read t = some [.call (f :: ws)] → TakesOptions s f → Action s t (.run [.call (f :: ws)])
  | function {t code task} : (∀ c, t.head? = some c → c.isAlpha = true ∨ c = '_') →
      ZshCode.read t = some [.call [t]] → (code, t) ∈ s.functions → Body s code task → Action s t task

/-! ## The completers -/

/-- Completers without arguments that call a function of Zsh. -/
def library : List (String × List String) := [
  ("group", ["_groups"]), ("hostname", ["_hosts"]), ("pid", ["_pids"]), ("process", ["_process_names", "-a"]),
  ("user", ["_users"]), ("variable", ["_vars"]), ("environment", ["_parameters", "-g", "*export*"]),
  ("commandline_string", ["_cmdstring"]), ("date_format", ["_date_formats"]),
  ("filesystem_type", ["_file_systems"]), ("signal", ["_signals"]), ("net_interface", ["_net_interfaces"]),
  ("timezone", ["_time_zone"]), ("locale", ["_locales"])]

/-- Completers without arguments that call a helper function, and its arguments. -/
def helpers : List (String × String × List String) := [
  ("uid", "uid_list", []), ("gid", "gid_list", []), ("mountpoint", "mountpoint", []),
  ("charset", "charset_list", []), ("alsa_card", "alsa_complete_cards", []),
  ("alsa_device", "alsa_complete_devices", []),
  ("login_shell", "exec", ["command grep -E '^[^#]' /etc/shells"])]

/-- What a completer without arguments calls. -/
def voidWords (s : Setting) (name : Str) (ws : List Str) : Prop :=
  (∃ e ∈ library, e.1.toList = name ∧ ws = e.2.map String.toList) ∨
  (∃ e ∈ helpers, e.1.toList = name ∧ ws = helper s e.2.1 :: e.2.2.map String.toList)

/-- The call for a directory: below a directory with a full path, or below a relative one. -/
def below (s : Setting) (function : String) (dir : Option Str) (args relative : List Str) : List Str :=
  match dir with
  | none => function.toList :: args
  | some d =>
    if d.head? = some '/' then [function.toList, "-W".toList, d] ++ args
    else [helper s "path_files_relative", d] ++ relative

/-- The text up to a character, and the text behind it. -/
def upTo (c : Char) (t : Str) : Str × Str := (t.takeWhile (· ≠ c), (t.dropWhile (· ≠ c)).drop 1)

/-- The parts of a text between separators. -/
def parts (sep : Char) : Str → List Str
  | [] => [[]]
  | c :: r =>
    if c = sep then [] :: parts sep r
    else match parts sep r with
      | [] => [[c]]
      | p :: ps => (c :: p) :: ps

/-- The extensions that a pattern `*.(#i)EXT` or `*.(#i)(EXT|EXT)` stands for, in upper or lower case, and
whether more may follow them (`*` at the end). -/
def patternExtensions (p : Str) : Option (List Str × Bool) :=
  match behind "*.(#i)".toList p with
  | some ('(' :: r) =>
    match (upTo ')' r).2 with
    | [] => some (parts '|' (upTo ')' r).1, false)
    | ['*'] => some (parts '|' (upTo ')' r).1, true)
    | _ => none
  | some r => if r.getLast? = some '*' then some ([r.dropLast], true) else some ([r], false)
  | none => none

/-- The arguments that select files: a pattern for the extensions, and a list of patterns to be ignored. -/
def FileArgs (o : FileOpts) (args : List Str) : Prop :=
  ∃ a b, args = a ++ b ∧
    (if o.extensions = [] then a = []
     else ∃ p, a = ["-g".toList, p] ∧ patternExtensions p = some (o.extensions, o.fuzzy)) ∧
    (if o.ignoreGlobs = [] then b = []
     else ∃ globs, o.ignoreGlobs.map bashGlobToZsh = globs.map .ok ∧
      b = ["-F".toList, ['('] ++ joinWith [' '] globs ++ [')']])

/-- The call for files. -/
def FileWords (s : Setting) (o : FileOpts) (ws : List Str) : Prop :=
  ∃ args, FileArgs o args ∧ ws = below s "_files" o.directory args args

/-- The call for directories. -/
def dirWords (s : Setting) (dir : Option Str) : List Str := below s "_directories" dir [] ["-/".toList]

/-- The call for numbers. -/
def numberWords (s : Setting) (flag : List Str) (o : NumOpts) : List Str :=
  ["_numbers".toList] ++ flag ++ (o.min.toList.flatMap (fun m => ["-l".toList, m])) ++
    (o.max.toList.flatMap (fun m => ["-m".toList, m])) ++ [o.help.getD s.help] ++
    o.suffixes.map (fun e => e.1 ++ ":".toList ++ e.2)

/-- The call for addresses. -/
def ipWords (type : Str) : List Str :=
  ["_bind_addresses".toList] ++
    (if type = "ipv4".toList then ["-4".toList] else if type = "ipv6".toList then ["-6".toList]
    else if type = "ipv4+".toList then ["-40".toList] else if type = "ipv6+".toList then ["-60".toList]
    else if type = "all+".toList then ["-0".toList] else [])

/-- The call for a list, whose items a function completes. -/
def sequenceWords (o : SepOpts) (function : Str) : List Str :=
  ["_sequence".toList] ++ (if o.separator = [','] then [] else ["-s".toList, o.separator]) ++
    (if o.duplicates then ["-d".toList] else []) ++ [function]

/-- The values of `value_list` with their descriptions. -/
def valueItems : ValueWords → List (Str × Option Str)
  | .list l => l.map (fun w => (w, none))
  | .table t => t.map (fun e => (e.1, some e.2))

/-- Definitions of `_values` for these values. -/
def Values (v : ValueWords) (defs : List Str) : Prop :=
  defs.map ZshCode.readDef = (valueItems v).map (fun i => some ⟨[], false, i.1, i.2, none⟩)

/-- A given text that is not empty. -/
def given : Option Str → Option Str
  | some [] => none
  | o => o

/-- What a line says about a key. -/
def keyDef (isList : Bool) (key : Str) (desc : Option Str) (excludes : List Str) (action : Option Str) : ZshCode.Def :=
  if isList then ⟨excludes, key.head? == some '*', BashCompleter.keyName key, given desc, action⟩
  else ⟨[], false, key, given desc, action⟩

/-- A function runs these commands: it is the one that they call, or one of the script. -/
def Calls (s : Setting) (g : Str) (ss : List Stmt) : Prop :=
  ss = [.call [g]] ∨ ∃ code, (code, g) ∈ s.functions ∧ ZshCode.read code = some ss

mutual
/-- What a completer does. -/
def Does (s : Setting) : Comp → Task → Prop
  | .void n, t => ∃ ws, voidWords s n ws ∧ t = .run [.call ws]
  | .none, t => t = .nothing
  | .commandArg, t => t = .run [.call ["_normal".toList]]
  | .date f, t => t = .run [.call ["_dates".toList, "-f".toList, f]]
  | .choices c, t => t = .offer c.offers
  | .command p a b, t => t = .run (BashCompleter.pathStmts p a b ++ [.call ["_command_names".toList]])
  | .directory d, t => t = .run [.call (dirWords s d)]
  | .file o, t => ∃ ws, FileWords s o ws ∧ t = .run [.call ws]
  | .directoryList d l, t => ∃ g, Calls s g [.call (dirWords s d)] ∧ t = .run [.call (sequenceWords l g)]
  | .fileList o l, t => ∃ g ws, FileWords s o ws ∧ Calls s g [.call ws] ∧ t = .run [.call (sequenceWords l g)]
  | .exec c, t => t = .run [.call [helper s "exec", c]]
  | .execFast c, t => t = .run [.call [helper s "exec", c]]
  | .execInternal c, t => ∃ ss, ZshCode.read c = some ss ∧ t = .run ss
  | .integer o, t => t = .run [.call (numberWords s [] o)]
  | .float o, t => t = .run [.call (numberWords s ["-f".toList] o)]
  | .history p, t => t = .run [.call [helper s "history", p]]
  | .mimeFile p, t => t = .run [.call [helper s "mime_file", p]]
  | .ipAddress y, t => t = .run [.call (ipWords y)]
  | .keyValueListExec p v c, t => t = .run [.call [helper s "key_value_list_exec", p, v, c]]
  | .keyValuePairExec v c, t => t = .run [.call [helper s "key_value_pair_exec", v, c]]
  | .range a b st, t => t = .numbers a b st
  | .valueList v o, t =>
    if o.duplicates then ∃ g defs, Values v defs ∧ Calls s g [.call (["_values".toList, s.metavar] ++ defs)] ∧
      t = .run [.call (sequenceWords o g)]
    else ∃ defs, Values v defs ∧ t = .run [.call (["_values".toList, "-s".toList, o.separator, s.metavar] ++ defs)]
  | .combine cs, t =>
    ∃ g actions, DoesAll s cs actions ∧
      Calls s g [.call ("_alternative".toList :: actions.map (fun a => "::".toList ++ a))] ∧ t = .run [.call [g]]
  | .list c o, t => ∃ g, (Does s c (.run [.call [g]]) ∨ ∃ code task, (code, g) ∈ s.functions ∧ Body s code task ∧ Does s c task) ∧
      t = .run [.call (sequenceWords o g)]
  | .prefix p c, t => ∃ g, (Does s c (.run [.call [g]]) ∨ ∃ code task, (code, g) ∈ s.functions ∧ Body s code task ∧ Does s c task) ∧
      t = .run [.call [helper s "prefix", p, g]]
  | .keyValueList ps vs ks cond, t =>
    ∃ g pushes, DoesKeys s true cond ks pushes ∧ Calls s g (BashCompleter.keyStart cond ++ pushes ++
      [.callWith ["_values".toList, "-s".toList, ps, "-S".toList, vs, s.metavar] "a".toList]) ∧ t = .run [.call [g]]
  | .keyValuePair vs ks cond, t =>
    ∃ g pushes, DoesKeys s false cond ks pushes ∧ Calls s g (BashCompleter.keyStart cond ++ pushes ++
      [.callWith ["_values".toList, "-S".toList, vs, s.metavar] "a".toList]) ∧ t = .run [.call [g]]
/-- The actions for the completers of a combination. -/
def DoesAll (s : Setting) : Comps → List Str → Prop
  | .nil, as => as = []
  | .cons c r, as => ∃ a b task, Action s a task ∧ Does s c task ∧ DoesAll s r b ∧ as = a :: b
/-- The keys: each one is described to `_values`, with an action that completes its value. -/
def DoesKeys (s : Setting) (isList : Bool) (cond : Option Str) : KeyDefList → List Stmt → Prop
  | .nil, ss => ss = []
  | .bare k d ex r, ss =>
    ∃ w b, ZshCode.readDef w = some (keyDef isList k d ex none) ∧ DoesKeys s isList cond r b ∧
      ss = .push (BashCompleter.keyCondition isList cond k) [w] :: b
  | .cons k d ex c r, ss =>
    ∃ w a task b, ZshCode.readDef w = some (keyDef isList k d ex (some a)) ∧ Action s a task ∧ Does s c task ∧
      DoesKeys s isList cond r b ∧ ss = .push (BashCompleter.keyCondition isList cond k) [w] :: b
end

/-- A function does what a completer does: it is the one that the completer calls, or one of the script. -/
def Via (s : Setting) (c : Comp) (g : Str) : Prop :=
  Does s c (.run [.call [g]]) ∨ ∃ code task, (code, g) ∈ s.functions ∧ Body s code task ∧ Does s c task

/-! ## Which completers are meant -/

/-- The texts that are words of their own in the code. -/
def ownWords (s : Setting) : Comp → List Str
  | .date f => [f]
  | .directory d => d.toList
  | .file o => o.directory.toList
  | .directoryList d l => d.toList ++ [l.separator]
  | .fileList o l => o.directory.toList ++ [l.separator]
  | .exec c => [c]
  | .execFast c => [c]
  | .integer o => numberWords s [] o
  | .float o => numberWords s [] o
  | .history p => [p]
  | .mimeFile p => [p]
  | .keyValueListExec p v c => [p, v, c]
  | .keyValuePairExec v c => [v, c]
  | .valueList v o => [o.separator, s.metavar] ++ (valueItems v).map (·.1)
  | .list _ o => [o.separator]
  | .prefix p _ => [p]
  | .keyValueList ps vs _ _ => [ps, vs, s.metavar]
  | .keyValuePair vs _ _ => [vs, s.metavar]
  | .choices c => c.offers.map (·.1)
  | _ => []

/-- The patterns of Zsh for globs. -/
def zshGlobs (o : FileOpts) : List Str := o.ignoreGlobs.filterMap (fun g => (bashGlobToZsh g).toOption)

/-- The texts that are part of the action. -/
def texts (s : Setting) : Comp → List Str
  | .file o => o.directory.toList ++ o.extensions ++ zshGlobs o
  | .directoryList _ l => [l.separator]
  | .fileList _ l => [l.separator]
  | .execInternal c => [c]
  | .choices c => c.offers.flatMap (fun i => i.1 :: i.2.toList)
  | .valueList v o =>
    if o.duplicates then [o.separator]
    else [o.separator, s.metavar] ++ (valueItems v).flatMap (fun i => i.1 :: i.2.toList)
  | .keyValueList _ _ _ _ => []
  | .keyValuePair _ _ _ => []
  | c => ownWords s c

/-- A text of letters, digits and a few other characters. -/
def Plain (t : Str) : Prop := t ≠ [] ∧ ∀ c ∈ t, c.isAlphanum = true ∨ c = '_' ∨ c = '-' ∨ c = '.' ∨ c = '+'

/-- The completer calls a function that can be given to another one: it does something, and code of the
user's own is a plain name of a function. -/
def NamesFunction : Comp → Prop
  | .none => False
  | .execInternal c => Plain c ∧ ZshCode.read c = some [.call [c]]
  | _ => True

/-- The choices can be written as an action and as a function (C63). -/
def ChoicesFit : Choices → Prop
  | .list l => ∀ c ∈ l, '\\' ∉ c.text ∧ '\n' ∉ c.text
  | .table t => (∀ e ∈ t, '\\' ∉ e.1.text ∧ e.2 ≠ some (.int 0)) ∧ ∀ e ∈ t, ∀ d, e.2 = some d → '\\' ∉ d.text

/-- The values can be written as definitions of `_values`. -/
def ValuesFit (v : ValueWords) : Prop :=
  ∀ i ∈ valueItems v, i.1 ≠ [] ∧ '\\' ∉ i.1 ∧ ':' ∉ i.1 ∧ i.1.head? ≠ some '(' ∧ i.1.head? ≠ some '*' ∧
    i.1.head? ≠ some '=' ∧
    ∀ d, i.2 = some d → '\\' ∉ d

/-- The key can be written as a definition of `_values`. -/
def KeyFits (isList : Bool) (key : Str) (desc : Option Str) (excludes : List Str) : Prop :=
  Plain (if isList then BashCompleter.keyName key else key) ∧ (∀ d, desc = some d → '\\' ∉ d) ∧
    ∀ e ∈ excludes, e ≠ [] ∧ ' ' ∉ e ∧ ')' ∉ e

/-- The conditions on the arguments of a completer alone. -/
def FitsHere : Comp → Prop
  | .void n => n ∈ voidNames ∧ n ≠ "service".toList
  | .command p a b => BashCompleter.NotEmpty p ∧ BashCompleter.NotEmpty a ∧ BashCompleter.NotEmpty b
  | .directory d => BashCompleter.NotEmpty d
  | .directoryList d _ => BashCompleter.NotEmpty d
  | .file o => BashCompleter.NotEmpty o.directory ∧ ∀ e ∈ o.extensions, Plain e
  | .fileList o _ => BashCompleter.NotEmpty o.directory ∧ ∀ e ∈ o.extensions, Plain e
  | .execInternal c => ∃ ss, ZshCode.read c = some ss
  | .choices c => ChoicesFit c
  | .valueList v _ => ValuesFit v
  | _ => True

mutual
/-- The conditions on a completer. -/
def Fits (s : Setting) : Comp → Prop
  | .combine cs => FitsAll s cs
  | .list c o => Fits s c ∧ NamesFunction c ∧ ZshCode.keeps o.separator = true
  | .prefix p c => Fits s c ∧ NamesFunction c ∧ ZshCode.keeps p = true
  | .keyValueList ps vs ks _ => FitsKeys s true ks ∧ ∀ w ∈ [ps, vs, s.metavar], ZshCode.keeps w = true
  | .keyValuePair vs ks _ => FitsKeys s false ks ∧ ∀ w ∈ [vs, s.metavar], ZshCode.keeps w = true
  | c => FitsHere c ∧ ∀ w ∈ ownWords s c, ZshCode.keeps w = true
/-- The members of a combination: their texts have no newline. -/
def FitsAll (s : Setting) : Comps → Prop
  | .nil => True
  | .cons c r => Fits s c ∧ (∀ t ∈ texts s c, '\n' ∉ t) ∧ FitsAll s r
/-- The keys and their completers, whose texts have no backslash. -/
def FitsKeys (s : Setting) (isList : Bool) : KeyDefList → Prop
  | .nil => True
  | .bare k d ex r => KeyFits isList k d ex ∧ FitsKeys s isList r
  | .cons k d ex c r => KeyFits isList k d ex ∧ Fits s c ∧ (∀ t ∈ texts s c, '\\' ∉ t) ∧ FitsKeys s isList r
end

/-- The choices of a list are texts (an integer has no colons to be replaced). -/
def TextChoices : Choices → Prop
  | .list l => ∀ c ∈ l, ∃ t, c = .str t
  | .table _ => True

/-- The globs of a file completer can be translated. -/
def GlobsRead (o : FileOpts) : Prop := ∀ g ∈ o.ignoreGlobs, ∃ z, bashGlobToZsh g = .ok z

mutual
/-- The generator accepts the completer. -/
def Accepted : Comp → Prop
  | .choices c => TextChoices c
  | .file o => GlobsRead o
  | .fileList o _ => GlobsRead o
  | .combine cs => AcceptedAll cs
  | .list c _ => Accepted c
  | .prefix _ c => Accepted c
  | .keyValueList _ _ ks _ => AcceptedKeys ks
  | .keyValuePair _ ks _ => AcceptedKeys ks
  | _ => True
/-- The completers of a combination. -/
def AcceptedAll : Comps → Prop
  | .nil => True
  | .cons c r => Accepted c ∧ AcceptedAll r
/-- The completers of keys. -/
def AcceptedKeys : KeyDefList → Prop
  | .nil => True
  | .bare _ _ _ r => AcceptedKeys r
  | .cons _ _ _ c r => Accepted c ∧ AcceptedKeys r
end

end ZshCompleter
