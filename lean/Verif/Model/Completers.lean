import Verif.Model.Value
import Verif.Model.Choices
/-!
# The arguments of the completers

The Python code hands the values of a definition's `complete` to the methods of the completer classes. The
validator has looked at their types (`Model/Validator.lean`), so they are modelled as a type of their own:
one constructor for each completer, with its arguments as the methods take them (`bash_complete.py` 245-542,
`zsh_complete.py` 318-612, `fish_complete.py` 447-662, `shell.py` 150-162). `readCompleter` is the unpacking
`command, *args = definition` (`shell.py` 97-99) together with the defaults of the parameters.
Simplification: a truth value in place of a number (`isinstance(True, int)`) is not modelled there.
-/

namespace CC

/-- The options of `file` (`opts.get(…)`, `bash_complete.py` 310-314). -/
structure FileOpts where
  fuzzy : Bool := false
  directory : Option Str := none
  extensions : List Str := []
  ignoreGlobs : List Str := []
  deriving DecidableEq

/-- The options of `list` (`bash_complete.py` 437-438). -/
structure SepOpts where
  separator : Str := [',']
  duplicates : Bool := false
  deriving DecidableEq

/-- The options of `integer` and `float` (`zsh_complete.py` 334-343). Numbers are kept as `str` writes them. -/
structure NumOpts where
  min : Option Str := none
  max : Option Str := none
  help : Option Str := none
  suffixes : List (Str × Str) := []
  deriving DecidableEq

/-- The values of `value_list`: a list, or a dictionary with descriptions. -/
inductive ValueWords where
  | list (l : List Str)
  | table (t : List (Str × Str))
  deriving DecidableEq

/-- The words of `value_list` (`list(values.keys())`, `bash_complete.py` 397-398). -/
def ValueWords.words : ValueWords → List Str
  | .list l => l
  | .table t => t.map (·.1)

mutual
/-- A completer with its arguments. -/
inductive Comp where
  /-- A completer without arguments, except `none` and `command_arg`. -/
  | void (name : Str)
  | none
  | commandArg
  | choices (c : Choices)
  | command (path append prepend : Option Str)
  | date (format : Str)
  | directory (dir : Option Str)
  | file (o : FileOpts)
  | directoryList (dir : Option Str) (l : SepOpts)
  | fileList (o : FileOpts) (l : SepOpts)
  | exec (command : Str)
  | execFast (command : Str)
  | execInternal (command : Str)
  | integer (o : NumOpts)
  | float (o : NumOpts)
  | history (pattern : Str)
  | mimeFile (pattern : Str)
  | ipAddress (type : Str)
  | keyValueListExec (pairSep valueSep command : Str)
  | keyValuePairExec (valueSep command : Str)
  | range (start stop step : Int)
  | valueList (values : ValueWords) (o : SepOpts)
  | combine (commands : Comps)
  | list (command : Comp) (o : SepOpts)
  | prefix (pre : Str) (command : Comp)
  | keyValueList (pairSep valueSep : Str) (values : KeyDefList) (condition : Option Str)
  | keyValuePair (valueSep : Str) (values : KeyDefList) (condition : Option Str)
/-- The commands of `combine`. -/
inductive Comps where
  | nil
  | cons (c : Comp) (r : Comps)
/-- The definitions of `key_value_list` and `key_value_pair`: a key, a description, excludes, and a completer
or `None`. -/
inductive KeyDefList where
  | nil
  | bare (key : Str) (desc : Option Str) (excludes : List Str) (r : KeyDefList)
  | cons (key : Str) (desc : Option Str) (excludes : List Str) (c : Comp) (r : KeyDefList)
end

/-- The commands of `combine`, as a list. -/
def Comps.toList : Comps → List Comp
  | .nil => []
  | .cons c r => c :: r.toList

/-! ## Reading the arguments -/

/-- A string. -/
def strOf : Val → Option Str
  | .str s => some s
  | _ => Option.none

/-- A number as `str` writes it. -/
def numText : Val → Option Str
  | .int i => some (intStr i)
  | .float t => some t
  | .bool b => some (if b then S "True" else S "False")
  | _ => Option.none

/-- An entry that may be missing. -/
def optKey {α : Type} (f : Val → Option α) (d : List (Key × Val)) (k : Str) : Option (Option α) :=
  match getKey d k with
  | Option.none => some Option.none
  | some v => (f v).map some

/-- A list of strings. -/
def strsOf : Val → Option (List Str)
  | .list l => l.mapM strOf
  | _ => Option.none

/-- A truth value. -/
def boolOf : Val → Option Bool
  | .bool b => some b
  | _ => Option.none

/-- A string, or a number without point. -/
def choiceOf : Val → Option Choice
  | .str s => some (.str s)
  | .int i => some (.int i)
  | _ => Option.none

/-- A dictionary key as a string. -/
def keyStr : Key → Option Str
  | .str s => some s
  | _ => Option.none

/-- A dictionary key as a word. -/
def keyChoice : Key → Option Choice
  | .str s => some (.str s)
  | .int i => some (.int i)
  | _ => Option.none

/-- An entry of a dictionary from strings to strings. -/
def strEntry (e : Key × Val) : Option (Str × Str) := do
  let k ← keyStr e.1; let v ← strOf e.2; some (k, v)

/-- A dictionary from strings to strings. -/
def strTableOf : Val → Option (List (Str × Str))
  | .dict d => d.mapM strEntry
  | _ => Option.none

/-- An entry of the dictionary of `choices`. -/
def choiceEntry (e : Key × Val) : Option (Choice × Option Choice) := do
  let k ← keyChoice e.1; let v ← choiceOf e.2; some (k, some v)

/-- The argument of `choices`. -/
def choicesVal : Val → Option Choices
  | .list l => (l.mapM choiceOf).map .list
  | .dict d => (d.mapM choiceEntry).map .table
  | _ => Option.none

/-- An optional dictionary argument. -/
def dictArg : List Val → Option (List (Key × Val))
  | [] => some []
  | [.dict d] => some d
  | _ => Option.none

/-- The options of `file`. -/
def fileOptsOf (d : List (Key × Val)) : Option FileOpts := do
  let fuzzy ← optKey boolOf d (S "fuzzy")
  let directory ← optKey strOf d (S "directory")
  let extensions ← optKey strsOf d (S "extensions")
  let globs ← optKey strsOf d (S "ignore_globs")
  some ⟨fuzzy.getD false, directory, extensions.getD [], globs.getD []⟩

/-- The options of `list`. -/
def listOptsOf (d : List (Key × Val)) : Option SepOpts := do
  let separator ← optKey strOf d (S "separator")
  let duplicates ← optKey boolOf d (S "duplicates")
  some ⟨separator.getD [','], duplicates.getD false⟩

/-- The options of `integer` and `float`. -/
def numOptsOf (d : List (Key × Val)) : Option NumOpts := do
  let min ← optKey numText d (S "min")
  let max ← optKey numText d (S "max")
  let help ← optKey strOf d (S "help")
  let suffixes ← optKey strTableOf d (S "suffixes")
  some ⟨min, max, help, suffixes.getD []⟩

/-- The values of `value_list`. -/
def valueWordsOf : Val → Option ValueWords
  | .list l => (l.mapM strOf).map .list
  | .dict d => (strTableOf (.dict d)).map .table
  | _ => Option.none

/-- The completers without arguments (`_check_void`, `scheme_validator.py` 623-672). -/
def voidNames : List Str := [
  S "alsa_card", S "alsa_device", S "charset", S "commandline_string", S "date_format", S "environment",
  S "filesystem_type", S "gid", S "group", S "hostname", S "locale", S "login_shell", S "mountpoint",
  S "net_interface", S "pid", S "process", S "service", S "signal", S "timezone", S "uid", S "user",
  S "variable"]

/-- The arguments of the completers that call no other completer. -/
def readSimple (c : Str) (args : List Val) : Option Comp :=
  if voidNames.contains c then (if args.isEmpty then some (.void c) else Option.none)
  else if c = S "none" then (if args.isEmpty then some .none else Option.none)
  else if c = S "command_arg" then (if args.isEmpty then some .commandArg else Option.none)
  else if c = S "choices" then match args with
    | [v] => (choicesVal v).map .choices
    | _ => Option.none
  else if c = S "command" then do
    let d ← dictArg args
    let path ← optKey strOf d (S "path")
    let append ← optKey strOf d (S "path_append")
    let prepend ← optKey strOf d (S "path_prepend")
    some (.command path append prepend)
  else if c = S "date" then match args with
    | [.str s] => some (.date s)
    | _ => Option.none
  else if c = S "directory" then do
    let d ← dictArg args; let dir ← optKey strOf d (S "directory"); some (.directory dir)
  else if c = S "directory_list" then do
    let d ← dictArg args
    let dir ← optKey strOf d (S "directory")
    let l ← listOptsOf d
    some (.directoryList dir l)
  else if c = S "file" then do let d ← dictArg args; let o ← fileOptsOf d; some (.file o)
  else if c = S "file_list" then do
    let d ← dictArg args; let o ← fileOptsOf d; let l ← listOptsOf d; some (.fileList o l)
  else if c = S "exec" then match args with
    | [.str s] => some (.exec s)
    | _ => Option.none
  else if c = S "exec_fast" then match args with
    | [.str s] => some (.execFast s)
    | _ => Option.none
  else if c = S "exec_internal" then match args with
    | [.str s] => some (.execInternal s)
    | _ => Option.none
  else if c = S "integer" then do let d ← dictArg args; let o ← numOptsOf d; some (.integer o)
  else if c = S "float" then do let d ← dictArg args; let o ← numOptsOf d; some (.float o)
  else if c = S "history" then match args with
    | [.str s] => some (.history s)
    | _ => Option.none
  else if c = S "mime_file" then match args with
    | [.str s] => some (.mimeFile s)
    | _ => Option.none
  else if c = S "ip_address" then match args with
    | [] => some (.ipAddress (S "all"))
    | [.str s] => some (.ipAddress s)
    | _ => Option.none
  else if c = S "key_value_list_exec" then match args with
    | [.str p, .str v, .str s] => some (.keyValueListExec p v s)
    | _ => Option.none
  else if c = S "key_value_pair_exec" then match args with
    | [.str v, .str s] => some (.keyValuePairExec v s)
    | _ => Option.none
  else if c = S "range" then match args with
    | [.int a, .int b] => some (.range a b 1)
    | [.int a, .int b, .int s] => some (.range a b s)
    | _ => Option.none
  else if c = S "value_list" then match args with
    | [.dict d] => do
      let values ← (getKey d (S "values")).bind valueWordsOf
      let l ← listOptsOf d
      some (.valueList values l)
    | _ => Option.none
  else Option.none

/-- The condition function of `key_value_list` and `key_value_pair`. -/
def conditionOf : List Val → Option (Option Str)
  | [] => some Option.none
  | [.none] => some Option.none
  | [.str s] => some (some s)
  | _ => Option.none

/-- A description or `None`. -/
def descOf : Val → Option (Option Str)
  | .none => some Option.none
  | .str s => some (some s)
  | _ => Option.none

/-- The excludes of a definition. -/
def excludesOf : List Val → Option (List Str)
  | [] => some []
  | [v] => strsOf v
  | _ => Option.none

mutual
/-- `complete_from_def`, `shell.py` 97-99: the completer and its arguments. -/
def readCompleter : List Val → Option Comp
  | .str c :: args =>
    match readSimple c args with
    | some r => some r
    | Option.none =>
      if c = S "combine" then match args with
        | [.list cmds] => (readCompleters cmds).map .combine
        | _ => Option.none
      else if c = S "list" then match args with
        | [.list cmd] => (readCompleter cmd).map (fun r => .list r {})
        | [.list cmd, .dict d] => (readCompleter cmd).bind (fun r => (listOptsOf d).map (fun o => .list r o))
        | _ => Option.none
      else if c = S "prefix" then match args with
        | [.str p, .list cmd] => (readCompleter cmd).map (fun r => .prefix p r)
        | _ => Option.none
      else if c = S "key_value_list" then match args with
        | .str ps :: .str vs :: .list values :: cond =>
          (readKeyDefs values).bind (fun r => (conditionOf cond).map (fun f => .keyValueList ps vs r f))
        | _ => Option.none
      else if c = S "key_value_pair" then match args with
        | .str vs :: .list values :: cond =>
          (readKeyDefs values).bind (fun r => (conditionOf cond).map (fun f => .keyValuePair vs r f))
        | _ => Option.none
      else Option.none
  | _ => Option.none
/-- The commands of `combine`. -/
def readCompleters : List Val → Option Comps
  | [] => some .nil
  | .list c :: r => (readCompleter c).bind (fun x => (readCompleters r).map (fun y => .cons x y))
  | _ :: _ => Option.none
/-- The definitions of `key_value_list` and `key_value_pair`. -/
def readKeyDefs : List Val → Option KeyDefList
  | [] => some .nil
  | .list (.str k :: d :: .none :: ex) :: r =>
    (descOf d).bind (fun desc => (excludesOf ex).bind (fun e => (readKeyDefs r).map (fun y => .bare k desc e y)))
  | .list (.str k :: d :: .list c :: ex) :: r =>
    (descOf d).bind (fun desc => (excludesOf ex).bind (fun e =>
      (readCompleter c).bind (fun x => (readKeyDefs r).map (fun y => .cons k desc e x y))))
  | _ :: _ => Option.none
end

end CC
