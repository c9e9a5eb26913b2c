import Verif.Model.Validator
/-!
# What a completer invocation looks like

The documented form of `complete: [command, arguments...]`, written down without reference to the
validator's functions. The only parameters are those of the validator: which texts are regular
expressions, which are patterns, and how floats compare.
-/

namespace CC

namespace Doc

/-- A string. -/
def Text (v : Val) : Prop := ∃ s, v = .str s

/-- A string of one character. -/
def OneChar (v : Val) : Prop := ∃ c, v = .str [c]

/-- A string with something other than white space. -/
def NonBlank (v : Val) : Prop := ∃ s, v = .str s ∧ ∃ c ∈ s, pyIsSpace c = false

/-- A string without blanks, tabs and newlines. -/
def NoSpaces (v : Val) : Prop := ∃ s, v = .str s ∧ ' ' ∉ s ∧ '\t' ∉ s ∧ '\n' ∉ s

/-- A boolean. -/
def Flag (v : Val) : Prop := ∃ b, v = .bool b

/-- An integer and its value. Booleans are integers. -/
inductive Integer : Val → Int → Prop
  | int (i : Int) : Integer (.int i) i
  | yes : Integer (.bool true) 1
  | no : Integer (.bool false) 0

/-- A number. -/
def Number (v : Val) : Prop := (∃ i, Integer v i) ∨ ∃ t, v = .float t

/-- A string or an integer. -/
def Word (v : Val) : Prop := Text v ∨ ∃ i, Integer v i

/-- A list that is not empty. -/
def NonEmptyList (v : Val) : Prop := ∃ a l, v = .list (a :: l)

/-- A dictionary that is not empty. -/
def NonEmptyDict (v : Val) : Prop := ∃ a l, v = .dict (a :: l)

/-- Every entry of the dictionary is one of those in the table. -/
def Entries (table : List (Str × (Val → Prop))) (d : List (Key × Val)) : Prop :=
  ∀ e ∈ d, ∃ row ∈ table, e.1 = .str row.1 ∧ row.2 e.2

/-- An optional dictionary as the only argument. -/
def OptionalDict (args : List Val) (d : List (Key × Val)) : Prop :=
  (args = [] ∧ d = []) ∨ args = [.dict d]

/-- The completers without arguments. -/
def withoutArguments : List Str := [
  S "alsa_card", S "alsa_device", S "charset", S "commandline_string", S "date_format", S "environment",
  S "filesystem_type", S "gid", S "group", S "hostname", S "locale", S "login_shell", S "mountpoint",
  S "net_interface", S "none", S "command_arg", S "pid", S "process", S "service", S "signal",
  S "timezone", S "uid", S "user", S "variable"]

/-- The options of the file and directory completers. -/
def fileTable (files list : Bool) : List (Str × (Val → Prop)) :=
  [(S "directory", NonBlank)] ++
  (if files then [(S "extensions", NonEmptyList), (S "fuzzy", Flag), (S "ignore_globs", NonEmptyList)] else []) ++
  (if list then [(S "separator", OneChar), (S "duplicates", Flag)] else [])

/-- An upper bound that is not below the lower bound. -/
def NotAbove (env : ValEnv) (a b : Val) : Prop :=
  (∀ x y, Integer a x → Integer b y → x ≤ y) ∧
  ((∃ t, a = .float t) ∨ (∃ t, b = .float t) → env.floatGt a b = false)

/-- A completer, without nested completers, and its arguments. -/
inductive Simple (env : ValEnv) : Str → List Val → Prop
  | void (c : Str) : c ∈ withoutArguments → Simple env c []
  | choices (l : List Val) : (∀ v ∈ l, Word v) → Simple env (S "choices") [.list l]
  | choicesDict (d : List (Key × Val)) : (∀ e ∈ d, Word e.1.toVal ∧ Word e.2) →
      Simple env (S "choices") [.dict d]
  | command (args : List Val) (d : List (Key × Val)) : OptionalDict args d →
      Entries [(S "path", NonBlank), (S "path_append", NonBlank), (S "path_prepend", NonBlank)] d →
      (getKey d (S "path") ≠ none → getKey d (S "path_append") = none ∧ getKey d (S "path_prepend") = none) →
      Simple env (S "command") args
  | filedir (c : Str) (files list : Bool) (args : List Val) (d : List (Key × Val)) :
      (c, files, list) ∈ [(S "directory", false, false), (S "directory_list", false, true),
        (S "file", true, false), (S "file_list", true, true)] →
      OptionalDict args d → Entries (fileTable files list) d →
      (∀ l, getKey d (S "extensions") = some (.list l) → ∀ v ∈ l, NonBlank v ∧ NoSpaces v) →
      (∀ l, getKey d (S "ignore_globs") = some (.list l) →
        ∀ v ∈ l, NonBlank v ∧ ∃ s, v = .str s ∧ env.globOk s = true) →
      Simple env c args
  | regex (c : Str) (s : Str) : c = S "mime_file" ∨ c = S "history" → env.isRegex s = true →
      Simple env c [.str s]
  | range (start stop : Val) (a b : Int) : Integer start a → Integer stop b → a ≤ b →
      Simple env (S "range") [start, stop]
  | rangeStep (start stop step : Val) (a b s : Int) : Integer start a → Integer stop b → Integer step s →
      s ≠ 0 → (0 < s → a ≤ b) → (s < 0 → b ≤ a) → Simple env (S "range") [start, stop, step]
  | exec (c s : Str) : c = S "exec" ∨ c = S "exec_fast" ∨ c = S "exec_internal" → Simple env c [.str s]
  | keyValueListExec (p v : Char) (cmd : Val) : NonBlank cmd →
      Simple env (S "key_value_list_exec") [.str [p], .str [v], cmd]
  | keyValuePairExec (v : Char) (cmd : Val) : NonBlank cmd →
      Simple env (S "key_value_pair_exec") [.str [v], cmd]
  | valueList (d : List (Key × Val)) (values : Val) :
      Entries [(S "values", fun v => (∃ l, v = .list l) ∨ ∃ l, v = .dict l),
        (S "separator", OneChar), (S "duplicates", Flag)] d →
      getKey d (S "values") = some values →
      ((∃ a l, values = .list (a :: l) ∧ ∀ v ∈ a :: l, Text v) ∨
       (∃ a l, values = .dict (a :: l) ∧ ∀ e ∈ a :: l, Text e.1.toVal ∧ Text e.2)) →
      Simple env (S "value_list") [.dict d]
  | date (s : Val) : NonBlank s → Simple env (S "date") [s]
  | ipAddress : Simple env (S "ip_address") []
  | ipAddressKind (s : Str) :
      s ∈ [S "ipv4", S "ipv6", S "all", S "ipv4+", S "ipv6+", S "all+"] → Simple env (S "ip_address") [.str s]
  | number (c : Str) (num : Val → Prop) (args : List Val) (d : List (Key × Val)) :
      (c = S "integer" ∧ num = (fun v => ∃ i, Integer v i)) ∨ (c = S "float" ∧ num = Number) →
      OptionalDict args d →
      Entries [(S "min", num), (S "max", num), (S "help", NonBlank), (S "suffixes", NonEmptyDict)] d →
      (∀ a b, getKey d (S "min") = some a → getKey d (S "max") = some b → NotAbove env a b) →
      (∀ l, getKey d (S "suffixes") = some (.dict l) → ∀ e ∈ l, NonBlank e.1.toVal ∧ NonBlank e.2) →
      Simple env c args

/-- A function name that may be left out. -/
def OptionalName (l : List Val) : Prop := l = [] ∨ l = [.none] ∨ ∃ v, l = [v] ∧ NonBlank v

/-- One definition of `key_value_list` or `key_value_pair`: `[key, description, completer]`, with `excludes`
optionally followed by the list of keys that exclude each other. -/
inductive KeyDef (excludes : Bool) : Val → Str → Val → List Val → Prop
  | plain (k : Str) (d c : Val) : NonBlank (.str k) → NoSpaces (.str k) → (d = .none ∨ Text d) →
      KeyDef excludes (.list [.str k, d, c]) k c []
  | excluding (k : Str) (d c : Val) (ex : List Val) : excludes = true →
      NonBlank (.str k) → NoSpaces (.str k) → (d = .none ∨ Text d) → (∀ x ∈ ex, NonBlank x) →
      KeyDef excludes (.list [.str k, d, c, .list ex]) k c ex

/-- A completer invocation, with all nested ones. `ok` says which completers may be used. -/
inductive Completer (env : ValEnv) (ok : Str → Prop) : Val → Prop
  | simple (c : Str) (args : List Val) : ok c → Simple env c args → Completer env ok (.list (.str c :: args))
  | combine (cmds : List Val) : 2 ≤ cmds.length → (∀ v ∈ cmds, Completer env ok v) →
      Completer env ok (.list [.str (S "combine"), .list cmds])
  | list (cmd : Val) : Completer env ok cmd → Completer env ok (.list [.str (S "list"), cmd])
  | listOptions (cmd : Val) (d : List (Key × Val)) : Completer env ok cmd →
      Entries [(S "separator", OneChar), (S "duplicates", Flag)] d →
      Completer env ok (.list [.str (S "list"), cmd, .dict d])
  | prefix (s : Str) (cmd : Val) : Completer env ok cmd →
      Completer env ok (.list [.str (S "prefix"), .str s, cmd])
  | keyValueList (p v : Char) (defs cond : List Val) : defs ≠ [] → OptionalName cond →
      (∀ x ∈ defs, ∃ k c ex, KeyDef true x k c ex) →
      defs.Pairwise (fun x y => ∀ k c ex k' c' ex', KeyDef true x k c ex → KeyDef true y k' c' ex' → k ≠ k') →
      (∀ x ∈ defs, ∀ k c ex, KeyDef true x k c ex →
        ∀ e ∈ ex, ∃ y ∈ defs, ∃ k' c' ex', KeyDef true y k' c' ex' ∧ e = .str k') →
      (∀ x ∈ defs, ∀ k c ex, KeyDef true x k c ex → c ≠ .none → Completer env ok c) →
      Completer env ok (.list (.str (S "key_value_list") :: .str [p] :: .str [v] :: .list defs :: cond))
  | keyValuePair (v : Char) (defs cond : List Val) : defs ≠ [] → OptionalName cond →
      (∀ x ∈ defs, ∃ k c ex, KeyDef false x k c ex) →
      (∀ x ∈ defs, ∀ k c ex, KeyDef false x k c ex → c ≠ .none → Completer env ok c) →
      Completer env ok (.list (.str (S "key_value_pair") :: .str [v] :: .list defs :: cond))

/-- The place where `command_arg` makes sense: in a repeatable positional, with the positional just before it
completing a command. (A dictionary as completer is rejected when that positional is checked.) -/
def AfterCommand (ctx : ValCtx) : Prop :=
  ∃ p v n ps q m, ctx.positional = some p ∧
    getKey p (S "repeatable") = some v ∧ v ≠ .none ∧ v ≠ .bool false ∧
    getKey p (S "number") = some n ∧
    getKey ctx.definition (S "positionals") = some (.list ps) ∧ .dict q ∈ ps ∧
    getKey q (S "number") = some m ∧ (∃ i, Integer m i ∧ Integer n (i + 1)) ∧
    ((∃ rest, getKey q (S "complete") = some (.list (.str (S "command") :: rest))) ∨
      ∃ d, getKey q (S "complete") = some (.dict d))

/-! ## Options, positionals and definitions -/

/-- A list. -/
def IsList (v : Val) : Prop := ∃ l, v = .list l

/-- None counts as not given. -/
def OrNone (P : Val → Prop) (v : Val) : Prop := v = .none ∨ P v

/-- A boolean or `INHERIT`. -/
def ExtendedFlag (v : Val) : Prop := Flag v ∨ v = .str (S "INHERIT")

/-- The attribute is given and not None. -/
def Given (d : List (Key × Val)) (k : Str) : Prop := ∃ v, getKey d k = some v ∧ v ≠ .none

/-- The attribute is `true`. -/
def On (d : List (Key × Val)) (k : Str) : Prop := getKey d k = some (.bool true)

/-- The attributes of options. -/
def optionTable : List (Str × (Val → Prop)) := [
  (S "option_strings", IsList), (S "metavar", OrNone Text), (S "help", OrNone Text),
  (S "optional_arg", OrNone Flag), (S "group", OrNone Text), (S "groups", OrNone IsList),
  (S "repeatable", ExtendedFlag), (S "final", OrNone Flag), (S "hidden", OrNone Flag),
  (S "nosort", OrNone Flag), (S "complete", OrNone IsList), (S "when", OrNone Text),
  (S "capture", OrNone Text), (S "long_opt_arg_sep", Text)]

/-- The attributes of positionals. -/
def positionalTable : List (Str × (Val → Prop)) := [
  (S "number", fun v => ∃ i, Integer v i), (S "metavar", OrNone Text), (S "help", OrNone Text),
  (S "repeatable", OrNone Flag), (S "nosort", OrNone Flag), (S "complete", OrNone IsList),
  (S "when", OrNone Text), (S "capture", OrNone Text)]

/-- The attributes of definitions. -/
def definitionTable : List (Str × (Val → Prop)) := [
  (S "prog", Text), (S "help", OrNone Text), (S "aliases", OrNone IsList), (S "wraps", OrNone Text),
  (S "abbreviate_commands", ExtendedFlag), (S "abbreviate_options", ExtendedFlag),
  (S "inherit_options", ExtendedFlag), (S "options", OrNone IsList), (S "positionals", OrNone IsList)]

/-- What options and positionals have in common: a documented completer, a condition that can be parsed and a
variable name to capture into. -/
structure Common (env : ValEnv) (ok : Str → Prop) (d : List (Key × Val)) : Prop where
  complete : ∀ v, getKey d (S "complete") = some v → v ≠ .none → Completer env ok v
  when : ∀ v, getKey d (S "when") = some v → v ≠ .none →
    ∃ s toks, v = .str s ∧ parseWhen env.isRegex s = .ok toks
  capture : ∀ v, getKey d (S "capture") = some v → v ≠ .none →
    ∃ s, v = .str s ∧ isValidVariableName s = true

/-- A documented option. -/
structure OptionDef (env : ValEnv) (ok : Str → Prop) (d : List (Key × Val)) : Prop where
  entries : Entries optionTable d
  strings : ∃ a l, getKey d (S "option_strings") = some (.list (a :: l)) ∧
    ∀ v ∈ a :: l, ∃ s, v = .str s ∧ isValidOptionString s = true
  metavar : Given d (S "metavar") → Given d (S "complete")
  optionalArg : On d (S "optional_arg") → Given d (S "complete")
  hidden : ¬ (On d (S "repeatable") ∧ On d (S "hidden"))
  groups : ¬ (Given d (S "group") ∧ Given d (S "groups"))
  groupNames : ∀ l, getKey d (S "groups") = some (.list l) → ∀ v ∈ l, Text v
  common : Common env ok d
  sep : ∀ v, getKey d (S "long_opt_arg_sep") = some v →
    v ∈ [.str (S "space"), .str (S "equals"), .str (S "both"), .str (S "INHERIT")]

/-- A documented positional. -/
structure PositionalDef (env : ValEnv) (ok : Str → Prop) (d : List (Key × Val)) : Prop where
  entries : Entries positionalTable d
  number : ∃ v i, getKey d (S "number") = some v ∧ Integer v i ∧ 1 ≤ i
  common : Common env ok d

/-- A documented definition; `options` and `positionals` are lists of documented ones, and `command_arg` is
used only where it makes sense. `ok` says which completers may be used. -/
structure Definition (env : ValEnv) (ok : Str → Prop) (d : List (Key × Val)) : Prop where
  entries : Entries definitionTable d
  prog : ∃ s, getKey d (S "prog") = some (.str s) ∧ validProg s = true
  aliases : ∀ l, getKey d (S "aliases") = some (.list l) → ∀ v ∈ l, NonBlank v ∧ NoSpaces v
  wraps : ∀ v, getKey d (S "wraps") = some v → v ≠ .none →
    NonBlank v ∧ NoSpaces v ∧ ∀ w, getKey d (S "prog") = some w → NoSpaces w
  options : ∀ l, getKey d (S "options") = some (.list l) → ∀ v ∈ l, ∃ o, v = .dict o ∧
    OptionDef env (fun c => ok c ∧ c ≠ S "command_arg") o
  positionals : ∀ l, getKey d (S "positionals") = some (.list l) → ∀ v ∈ l, ∃ p, v = .dict p ∧
    PositionalDef env (fun c => ok c ∧ (c = S "command_arg" → AfterCommand ⟨d, some p⟩)) p

/-! ## Lists of definitions -/

/-- The definition of a program or subcommand: a dictionary with a valid name; its path are the words of
the name. -/
def HasPath (v : Val) (path : List Str) : Prop :=
  ∃ d s, v = .dict d ∧ getKey d (S "prog") = some (.str s) ∧ validProg s = true ∧ path = splitOn ' ' s

/-- The definitions have these paths. -/
inductive HavePaths : List Val → List (List Str) → Prop
  | nil : HavePaths [] []
  | cons (v : Val) (vs : List Val) (p : List Str) (ps : List (List Str)) : HasPath v p → HavePaths vs ps →
      HavePaths (v :: vs) (p :: ps)

/-- A command follows its parent, and is defined only once. -/
def InOrder (paths : List (List Str)) : Prop :=
  ∀ before path after, paths = before ++ path :: after →
    path ∉ before ∧ (1 < path.length → path.dropLast ∈ before)

/-- There is one program: the commands are its subcommands. -/
def OneProgram (paths : List (List Str)) : Prop := ∃ r, [r] ∈ paths ∧ ∀ p ∈ paths, p.head? = some r

/-- A positional and its number. -/
def NumberOf (p : Val) (n : Int) : Prop := ∃ d v, p = .dict d ∧ getKey d (S "number") = some v ∧ Integer v n

/-- A positional that may be repeated. -/
def Repeats (p : Val) : Prop := ∃ d, p = .dict d ∧ getKey d (S "repeatable") = some (.bool true)

/-- The positionals of a definition. -/
def PositionalsOf (v : Val) (ps : List Val) : Prop := ∃ d, v = .dict d ∧ getKey d (S "positionals") = some (.list ps)

/-- No positional has a higher number than a repeatable one. -/
def RepeatableLast (ps : List Val) : Prop :=
  ∀ p ∈ ps, ∀ q ∈ ps, ∀ n m, Repeats p → NumberOf p n → NumberOf q m → m ≤ n

/-- The command has a subcommand among the definitions. -/
def HasSubcommand (defs : List Val) (path : List Str) : Prop := ∃ w ∈ defs, ∃ sub, HasPath w (path ++ [sub])

end Doc

end CC
