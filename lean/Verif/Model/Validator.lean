import Verif.Model.Dictionary
import Verif.Model.When
/-!
# Model of `crazy_complete/scheme_validator.py`

Values are the values without their line and column. `Err.schemaError` is `CrazySchemaValidationError`;
any other exception that leaves the validator is `Err.crash`. Messages are left out, but the code that
builds them is modelled where it can raise an exception.

Simplifications, besides those of `Model/Value.lean`: the external `grep` (regular expressions) and the
conversion of globs are parameters; comparisons with a float are a parameter.
-/

namespace CC

/-- What is outside this model: does `grep` accept the regular expression (`str_utils.py` 28-42); do the
conversions of `pattern.py` accept the glob; is the first number greater, if one is a float. -/
structure ValEnv where
  isRegex : Str → Bool
  globOk : Str → Bool
  floatGt : Val → Val → Bool

/-- The Python types of `_check_type`, `scheme_validator.py` 88-105. -/
inductive Ty where
  | str | int | float | list | dict | bool | none
  deriving DecidableEq, Repr

/-- `isinstance(value, type)`; a bool is an int. -/
def Ty.has : Ty → Val → Bool
  | .str, .str _ => true
  | .int, .int _ => true
  | .int, .bool _ => true
  | .float, .float _ => true
  | .list, .list _ => true
  | .dict, .dict _ => true
  | .bool, .bool _ => true
  | .none, .none => true
  | _, _ => false

/-- A condition that must hold, otherwise the validation error. -/
def need (b : Bool) : Except Err Unit := if b then .ok () else .error .schemaError

/-- `_check_type`, `scheme_validator.py` 88-105. -/
def checkType (v : Val) (ts : List Ty) : Except Err Unit := need (ts.any (fun t => t.has v))

/-- The type of a dictionary key, as a value. -/
def Key.toVal : Key → Val
  | .none => .none
  | .bool b => .bool b
  | .int i => .int i
  | .float t => .float t
  | .str s => .str s

/-- One rule of `_check_dictionary`: name, required, types, further check. -/
structure Rule where
  name : Str
  required : Bool
  types : List Ty
  check : Val → Except Err Unit := fun _ => .ok ()

/-- The first loop of `_check_dictionary`, `scheme_validator.py` 108-122. -/
def checkEntries (rules : List Rule) : List (Key × Val) → Except Err Unit
  | [] => .ok ()
  | (k, v) :: r => do
    match rules.find? (fun q => decide (Key.str q.name = k)) with
    | none => .error .schemaError
    | some q => do
      checkType v q.types
      q.check v
    checkEntries rules r

/-- `_check_dictionary`, `scheme_validator.py` 108-122. -/
def checkDictionary (v : Val) (rules : List Rule) : Except Err Unit :=
  match v with
  | .dict d => do
    checkEntries rules d
    need (rules.all (fun q => !q.required || hasKey d q.name))
  | _ => .error .schemaError

/-- `_check_char`, `scheme_validator.py` 130-133. Used on strings. -/
def checkChar : Val → Except Err Unit
  | .str s => need (s.length == 1)
  | _ => .error .crash

/-- `_check_variable_name`, `scheme_validator.py` 136-138. Used on strings. -/
def checkVariableName : Val → Except Err Unit
  | .str s => need (isValidVariableName s)
  | _ => .error .crash

/-- `_check_non_empty_string`, `scheme_validator.py` 141-143. Used on strings. -/
def checkNonEmptyString : Val → Except Err Unit
  | .str s => need (!isBlank s)
  | _ => .error .crash

/-- `_check_no_spaces`, `scheme_validator.py` 146-149. Used on strings. -/
def checkNoSpaces : Val → Except Err Unit
  | .str s => need (!containsSpace s)
  | _ => .error .crash

/-- `_check_non_empty_list`, `scheme_validator.py` 152-154, and `_check_non_empty_dict`, 157-159. -/
def checkNonEmpty : Val → Except Err Unit
  | .list l => need (!l.isEmpty)
  | .dict d => need (!d.isEmpty)
  | _ => .error .crash

/-- `_check_extended_bool`, `scheme_validator.py` 162-166. Used on booleans, strings and None. -/
def checkExtendedBool : Val → Except Err Unit
  | .bool _ => .ok ()
  | .str s => need (decide (s = S "INHERIT"))
  | _ => .error .schemaError

/-- `_check_regex`, `scheme_validator.py` 125-127. Used on strings. -/
def checkRegex (env : ValEnv) : Val → Except Err Unit
  | .str s => need (env.isRegex s)
  | _ => .error .crash

/-- `_has_set` for a dictionary, `scheme_validator.py` 78-80. -/
def isSet (d : List (Key × Val)) (k : Str) : Bool :=
  match getKey d k with
  | none => false
  | some .none => false
  | some _ => true

/-- `_is_true`, `scheme_validator.py` 83-85. -/
def isTrue? (d : List (Key × Val)) (k : Str) : Bool := decide (getKey d k = some (.bool true))

/-- `k in s` for strings. -/
def isSubstring (k : Str) : Str → Bool
  | [] => k.isEmpty
  | c :: cs => startsWith (c :: cs) k || isSubstring k cs

/-- `_has_set` for any value: `key in value` works on strings (as substring) and lists, but the lookup
that follows does not. -/
def hasSet (v : Val) (k : Str) : Except Err Bool :=
  match v with
  | .dict d => .ok (isSet d k)
  | .str s => if isSubstring k s then .error .crash else .ok false
  | .list l => if l.any (fun x => decide (x = .str k)) then .error .crash else .ok false
  | _ => .error .crash

/-- Run a check over a list. -/
def checkEach (f : Val → Except Err Unit) : List Val → Except Err Unit
  | [] => .ok ()
  | v :: r => do f v; checkEach f r

/-- Run a check over the entries of a dictionary. -/
def checkEachEntry (f : Val → Val → Except Err Unit) : List (Key × Val) → Except Err Unit
  | [] => .ok ()
  | (k, v) :: r => do f k.toVal v; checkEachEntry f r

/-- Run a check over the items of an attribute, if it is there and a list. -/
def checkListAttr (d : List (Key × Val)) (k : Str) (f : Val → Except Err Unit) : Except Err Unit :=
  match getKey d k with
  | some (.list l) => checkEach f l
  | _ => .ok ()

/-- Run a check over the entries of an attribute, if it is there and a dictionary. -/
def checkDictAttr (d : List (Key × Val)) (k : Str) (f : Val → Val → Except Err Unit) : Except Err Unit :=
  match getKey d k with
  | some (.dict e) => checkEachEntry f e
  | _ => .ok ()

/-- The context of the validation, `scheme_validator.py` 28-41: the definition being checked, and the
positional if a positional is being checked. The trace is passed separately. -/
structure ValCtx where
  definition : List (Key × Val)
  positional : Option (List (Key × Val)) := none

/-! ## Completers without nested completers -/

/-- `_check_choices`, `scheme_validator.py` 193-205. -/
def checkChoices : List Val → Except Err Unit
  | [.list l] => checkEach (fun v => checkType v [.str, .int]) l
  | [.dict d] => checkEachEntry (fun k v => do checkType k [.str, .int]; checkType v [.str, .int]) d
  | _ => .error .schemaError

/-- An optional dictionary of options. -/
def optionsArg : List Val → Except Err (List (Key × Val))
  | [] => .ok []
  | [.dict d] => .ok d
  | _ => .error .schemaError

/-- `_check_command`, `scheme_validator.py` 208-229. -/
def checkCommand (args : List Val) : Except Err Unit := do
  let d ← optionsArg args
  checkDictionary (.dict d) [
    ⟨S "path", false, [.str], checkNonEmptyString⟩,
    ⟨S "path_append", false, [.str], checkNonEmptyString⟩,
    ⟨S "path_prepend", false, [.str], checkNonEmptyString⟩]
  need (!(hasKey d (S "path") && hasKey d (S "path_append")))
  need (!(hasKey d (S "path") && hasKey d (S "path_prepend")))

/-- The value of an int or bool. -/
def numOf : Val → Option Int
  | .int i => some i
  | .bool b => some (if b then 1 else 0)
  | _ => none

/-- `positional.value['complete'].value[0] == 'command'`, `scheme_validator.py` 251. -/
def firstIsCommand : Val → Except Err Bool
  | .list [] => .error .crash
  | .list (v :: _) => .ok (decide (v = .str (S "command")))
  | .str [] => .error .crash
  | .str (_ :: _) => .ok false
  | .dict d => match d.find? (fun e => decide (e.1 = .int 0)) with
    | some e => .ok (decide (e.2 = .str (S "command")))
    | none => .error .crash
  | _ => .error .crash

/-- `command_is_previous_to_command_arg`, `scheme_validator.py` 248-253. Simplification: a number that is
a float is never the number before. -/
def commandBefore (number : Option Val) (p : Val) : Except Err Bool := do
  if ← hasSet p (S "complete") then
    match p with
    | .dict d => do
      if ← firstIsCommand ((getKey d (S "complete")).getD .none) then
        match getKey d (S "number") with
        | some (.float _) => .ok false
        | some v => match numOf v with
          | some i => .ok (decide (number.bind numOf = some (i + 1)))
          | none => .error .crash
        | none => .error .crash
      else .ok false
    | _ => .error .crash
  else .ok false

/-- `any(filter(...))`, `scheme_validator.py` 256: stops at the first one. -/
def anyCommandBefore (number : Option Val) : List Val → Except Err Bool
  | [] => .ok false
  | p :: ps => do if ← commandBefore number p then .ok true else anyCommandBefore number ps

/-- `_check_command_arg`, `scheme_validator.py` 232-258. -/
def checkCommandArg (ctx : ValCtx) (trace : List Str) (args : List Val) : Except Err Unit := do
  need args.isEmpty
  need (!([S "combine", S "list", S "key_value_list", S "key_value_pair"].contains (trace.getLastD [])))
  match ctx.positional with
  | none => .error .schemaError
  | some p => do
    need (isSet p (S "repeatable") && decide (getKey p (S "repeatable") ≠ some (.bool false)))
    match getKey ctx.definition (S "positionals") with
    | some (.list ps) => do need (← anyCommandBefore (getKey p (S "number")) ps)
    | _ => .error .crash

/-- `_check_none`, `scheme_validator.py` 185-190. -/
def checkNone (trace : List Str) (args : List Val) : Except Err Unit := do
  need args.isEmpty
  need (!([S "combine", S "list", S "prefix"].contains (trace.getLastD [])))

/-- An item of `extensions`, `scheme_validator.py` 281-283, or of `aliases`, 889-891. -/
def checkWord (v : Val) : Except Err Unit := do
  checkType v [.str]; checkNonEmptyString v; checkNoSpaces v

/-- An item of `ignore_globs`, `scheme_validator.py` 287-293. -/
def checkGlob (env : ValEnv) (v : Val) : Except Err Unit := do
  checkType v [.str]; checkNonEmptyString v
  match v with
  | .str s => need (env.globOk s)
  | _ => .error .crash

/-- `_check_filedir`, `scheme_validator.py` 261-293. -/
def checkFiledir (env : ValEnv) (fileOpts listOpts : Bool) (args : List Val) : Except Err Unit := do
  let d ← optionsArg args
  checkDictionary (.dict d) (
    [⟨S "directory", false, [.str], checkNonEmptyString⟩] ++
    (if fileOpts then [⟨S "extensions", false, [.list], checkNonEmpty⟩, { name := S "fuzzy", required := false, types := [.bool] },
      ⟨S "ignore_globs", false, [.list], checkNonEmpty⟩] else []) ++
    (if listOpts then [⟨S "separator", false, [.str], checkChar⟩, { name := S "duplicates", required := false, types := [.bool] }]
      else []))
  checkListAttr d (S "extensions") checkWord
  checkListAttr d (S "ignore_globs") (checkGlob env)

/-- `_check_mime_file`, `scheme_validator.py` 312-316, and `_check_history`, 561-565. -/
def checkPattern (env : ValEnv) : List Val → Except Err Unit
  | [.str s] => need (env.isRegex s)
  | _ => .error .schemaError

/-- `_check_range`, `scheme_validator.py` 319-339 (numbers as integers). -/
def checkRangeNums (start stop step : Option Int) : Except Err Unit :=
  match start, stop, step with
  | some a, some b, some s => do
    need (s != 0)
    need (!(decide (s > 0) && decide (a > b)))
    need (!(decide (s < 0) && decide (b > a)))
  | _, _, _ => .error .schemaError

/-- `_check_range`, `scheme_validator.py` 319-339. -/
def checkRangeArgs : List Val → Except Err Unit
  | [start, stop] => checkRangeNums (numOf start) (numOf stop) (some 1)
  | [start, stop, step] => checkRangeNums (numOf start) (numOf stop) (numOf step)
  | _ => .error .schemaError

/-- `_check_exec`, `scheme_validator.py` 342-345. -/
def checkExec : List Val → Except Err Unit
  | [.str _] => .ok ()
  | _ => .error .schemaError

/-- `_check_key_value_list_exec`, `scheme_validator.py` 348-359. -/
def checkKeyValueListExec : List Val → Except Err Unit
  | [.str p, .str v, .str c] => need (p.length == 1 && v.length == 1 && !isBlank c)
  | _ => .error .schemaError

/-- `_check_key_value_pair_exec`, `scheme_validator.py` 362-370. -/
def checkKeyValuePairExec : List Val → Except Err Unit
  | [.str v, .str c] => need (v.length == 1 && !isBlank c)
  | _ => .error .schemaError

/-- `_check_value_list`, `scheme_validator.py` 373-396. -/
def checkValueList : List Val → Except Err Unit
  | [.dict d] => do
    checkDictionary (.dict d) [
      { name := S "values", required := true, types := [.list, .dict] },
      ⟨S "separator", false, [.str], checkChar⟩,
      { name := S "duplicates", required := false, types := [.bool] }]
    match getKey d (S "values") with
    | some (.dict e) => do
      need (!e.isEmpty)
      checkEachEntry (fun k v => do checkType k [.str]; checkType v [.str]) e
    | some (.list l) => do
      need (!l.isEmpty)
      checkEach (fun v => checkType v [.str]) l
    | _ => .error .crash
  | _ => .error .schemaError

/-- `_check_date`, `scheme_validator.py` 568-572. -/
def checkDate : List Val → Except Err Unit
  | [.str s] => need (!isBlank s)
  | _ => .error .schemaError

/-- `_check_ip_address`, `scheme_validator.py` 575-585. -/
def checkIpAddress : List Val → Except Err Unit
  | [] => .ok ()
  | [.str s] => need ([S "ipv4", S "ipv6", S "all", S "ipv4+", S "ipv6+", S "all+"].contains s)
  | _ => .error .schemaError

/-- `a > b` for two numbers. -/
def numGt (env : ValEnv) (a b : Val) : Bool :=
  match numOf a, numOf b with
  | some x, some y => decide (x > y)
  | _, _ => env.floatGt a b

/-- `min` is not above `max`, `scheme_validator.py` 600-605. -/
def checkMinMax (env : ValEnv) (d : List (Key × Val)) : Except Err Unit :=
  match getKey d (S "min"), getKey d (S "max") with
  | some a, some b => need (!numGt env a b)
  | _, _ => .ok ()

/-- A suffix and its description, `scheme_validator.py` 609-612. -/
def checkSuffix (k v : Val) : Except Err Unit := do
  checkType k [.str]; checkType v [.str]; checkNonEmptyString k; checkNonEmptyString v

/-- `_check_integer_float`, `scheme_validator.py` 588-612. -/
def checkNumber (env : ValEnv) (types : List Ty) (args : List Val) : Except Err Unit := do
  let d ← optionsArg args
  checkDictionary (.dict d) [
    { name := S "min", required := false, types := types },
    { name := S "max", required := false, types := types },
    ⟨S "help", false, [.str], checkNonEmptyString⟩,
    ⟨S "suffixes", false, [.dict], checkNonEmpty⟩]
  checkMinMax env d
  checkDictAttr d (S "suffixes") checkSuffix

/-- The completers without arguments of `_COMMANDS`, `scheme_validator.py` 623-672 (`_check_void`). -/
def voidCompleters : List Str := [
  S "alsa_card", S "alsa_device", S "charset", S "commandline_string", S "date_format", S "environment",
  S "filesystem_type", S "gid", S "group", S "hostname", S "locale", S "login_shell", S "mountpoint",
  S "net_interface", S "pid", S "process", S "service", S "signal", S "timezone", S "uid", S "user",
  S "variable"]

/-- The entries of `_COMMANDS` that call no other completer, `scheme_validator.py` 623-672; `none` if the
command is not one of them. -/
def checkSimple (env : ValEnv) (ctx : ValCtx) (trace : List Str) (c : Str) (args : List Val) :
    Option (Except Err Unit) :=
  if voidCompleters.contains c then some (need args.isEmpty)
  else if c = S "choices" then some (checkChoices args)
  else if c = S "command" then some (checkCommand args)
  else if c = S "command_arg" then some (checkCommandArg ctx trace args)
  else if c = S "date" then some (checkDate args)
  else if c = S "directory" then some (checkFiledir env false false args)
  else if c = S "directory_list" then some (checkFiledir env false true args)
  else if c = S "exec" then some (checkExec args)
  else if c = S "exec_fast" then some (checkExec args)
  else if c = S "exec_internal" then some (checkExec args)
  else if c = S "file" then some (checkFiledir env true false args)
  else if c = S "file_list" then some (checkFiledir env true true args)
  else if c = S "float" then some (checkNumber env [.int, .float] args)
  else if c = S "history" then some (checkPattern env args)
  else if c = S "integer" then some (checkNumber env [.int] args)
  else if c = S "ip_address" then some (checkIpAddress args)
  else if c = S "key_value_list_exec" then some (checkKeyValueListExec args)
  else if c = S "key_value_pair_exec" then some (checkKeyValuePairExec args)
  else if c = S "mime_file" then some (checkPattern env args)
  else if c = S "none" then some (checkNone trace args)
  else if c = S "range" then some (checkRangeArgs args)
  else if c = S "value_list" then some (checkValueList args)
  else none

/-! ## Completers with nested completers -/

/-- The options of `list`, `scheme_validator.py` 540-543. -/
def checkListOptions (v : Val) : Except Err Unit :=
  checkDictionary v [⟨S "separator", false, [.str], checkChar⟩,
    { name := S "duplicates", required := false, types := [.bool] }]

/-- The condition function of `key_value_list` and `key_value_pair`: a non-blank string or None,
`scheme_validator.py` 409, 416-417, 481, 487-488. -/
def checkConditionFunc : List Val → Except Err Unit
  | [] => .ok ()
  | [.none] => .ok ()
  | [.str s] => need (!isBlank s)
  | _ => .error .schemaError

/-- The key and the description of a definition, `scheme_validator.py` 437-441, 502-506. -/
def checkKeyDescription : Val → Val → Except Err Str
  | .str k, .none => do need (!isBlank k && !containsSpace k); .ok k
  | .str k, .str _ => do need (!isBlank k && !containsSpace k); .ok k
  | _, _ => .error .schemaError

/-- The excludes of a definition, `scheme_validator.py` 453-458. -/
def checkExcludes : List Val → Except Err Unit
  | [] => .ok ()
  | [.list l] => checkEach (fun v => do checkType v [.str]; checkNonEmptyString v) l
  | _ => .error .schemaError

/-- The keys of the definitions, and the second loop of `_check_key_value_list`,
`scheme_validator.py` 460-470. -/
def excludesExist (keys : List Val) : List Val → Except Err Unit
  | [] => .ok ()
  | .list [_, _, _, .list ex] :: r => do
    need (ex.all (fun x => keys.any (fun k => decide (k = x))))
    excludesExist keys r
  | _ :: r => excludesExist keys r

/-- The keys of the definitions of `key_value_list`. -/
def definedKeys : List Val → List Val
  | [] => []
  | .list (k :: _) :: r => k :: definedKeys r
  | _ :: r => definedKeys r

mutual
/-- `_check_complete`, `scheme_validator.py` 675-689, with `_check_combine` 514-529, `_check_list` 532-546,
`_check_prefix` 549-558, `_check_key_value_list` 399-470 and `_check_key_value_pair` 473-511. The result is
the trace, which is only ever appended to. -/
def checkComplete (env : ValEnv) (ctx : ValCtx) (trace : List Str) : List Val → Except Err (List Str)
  | .str c :: args =>
    match checkSimple env ctx trace c args with
    | some r => do r; .ok trace
    | none =>
      if c = S "combine" then
        match args with
        | [.list cmds] => do
          need (decide (2 ≤ cmds.length))
          checkCompleters env ctx (trace ++ [S "combine"]) cmds
        | _ => .error .schemaError
      else if c = S "list" then
        match args with
        | [.list cmd] => checkComplete env ctx (trace ++ [S "list"]) cmd
        | [.list cmd, opts] => do
          checkListOptions opts
          checkComplete env ctx (trace ++ [S "list"]) cmd
        | _ => .error .schemaError
      else if c = S "prefix" then
        match args with
        | [.str _, .list cmd] => checkComplete env ctx (trace ++ [S "prefix"]) cmd
        | _ => .error .schemaError
      else if c = S "key_value_list" then
        match args with
        | .str ps :: .str vs :: .list values :: cond => do
          checkConditionFunc cond
          need (ps.length == 1 && vs.length == 1 && !values.isEmpty)
          let t ← checkKeyValues env ctx true [] (trace ++ [S "key_value_list"]) values
          excludesExist (definedKeys values) values
          .ok t
        | _ => .error .schemaError
      else if c = S "key_value_pair" then
        match args with
        | .str vs :: .list values :: cond => do
          checkConditionFunc cond
          need (vs.length == 1 && !values.isEmpty)
          checkKeyValues env ctx false [] (trace ++ [S "key_value_pair"]) values
        | _ => .error .schemaError
      else .error .schemaError
  | _ => .error .schemaError
/-- The loop of `_check_combine`, `scheme_validator.py` 514-529. -/
def checkCompleters (env : ValEnv) (ctx : ValCtx) (trace : List Str) : List Val → Except Err (List Str)
  | [] => .ok trace
  | .list c :: r => do
    let t ← checkComplete env ctx trace c
    checkCompleters env ctx t r
  | _ :: _ => .error .schemaError
/-- The loops of `_check_key_value_list`, `scheme_validator.py` 399-470 (`isList`; keys must differ and
excludes are allowed), and of `_check_key_value_pair`, 473-511. `seen` are the keys so far. -/
def checkKeyValues (env : ValEnv) (ctx : ValCtx) (isList : Bool) (seen : List Str) (trace : List Str) :
    List Val → Except Err (List Str)
  | [] => .ok trace
  | .list (k :: d :: .none :: ex) :: r => do
    need (if isList then decide (ex.length ≤ 1) else ex.isEmpty)
    let key ← checkKeyDescription k d
    need (!(isList && seen.contains key))
    checkExcludes ex
    checkKeyValues env ctx isList (key :: seen) trace r
  | .list (k :: d :: .list c :: ex) :: r => do
    need (if isList then decide (ex.length ≤ 1) else ex.isEmpty)
    let key ← checkKeyDescription k d
    need (!(isList && seen.contains key))
    let t ← checkComplete env ctx trace c
    checkExcludes ex
    checkKeyValues env ctx isList (key :: seen) t r
  | _ :: _ => .error .schemaError
end

/-! ## Options, positionals, definitions -/

/-- `_check_when`, `scheme_validator.py` 174-178. -/
def checkWhen (env : ValEnv) : Val → Except Err Unit
  | .str s => match parseWhen env.isRegex s with
    | .ok _ => .ok ()
    | .error .crazyError => .error .schemaError
    | .error _ => .error .crash
  | _ => .error .crash

/-- The rules for options, `scheme_validator.py` 734-749. -/
def optionRules : List Rule := [
  { name := S "option_strings", required := true, types := [.list] },
  { name := S "metavar", required := false, types := [.str, .none] },
  { name := S "help", required := false, types := [.str, .none] },
  { name := S "optional_arg", required := false, types := [.bool, .none] },
  { name := S "group", required := false, types := [.str, .none] },
  { name := S "groups", required := false, types := [.list, .none] },
  { name := S "repeatable", required := false, types := [.bool, .str, .none], check := checkExtendedBool },
  { name := S "final", required := false, types := [.bool, .none] },
  { name := S "hidden", required := false, types := [.bool, .none] },
  { name := S "nosort", required := false, types := [.bool, .none] },
  { name := S "complete", required := false, types := [.list, .none] },
  { name := S "when", required := false, types := [.str, .none] },
  { name := S "capture", required := false, types := [.str, .none] },
  { name := S "long_opt_arg_sep", required := false, types := [.str] }]

/-- `_check_complete` on an attribute that may be missing or None. -/
def checkCompleteAttr (env : ValEnv) (ctx : ValCtx) (d : List (Key × Val)) : Except Err Unit :=
  match getKey d (S "complete") with
  | some (.list c) => do let _ ← checkComplete env ctx [] c; .ok ()
  | _ => .ok ()

/-- `when` of options and positionals, `scheme_validator.py` 788-789 and 838-839. -/
def checkWhenAttr (env : ValEnv) (d : List (Key × Val)) : Except Err Unit :=
  if isSet d (S "when") then checkWhen env ((getKey d (S "when")).getD .none) else .ok ()

/-- `capture` of options and positionals, `scheme_validator.py` 791-792 and 841-842. -/
def checkCaptureAttr (d : List (Key × Val)) : Except Err Unit :=
  if isSet d (S "capture") then checkVariableName ((getKey d (S "capture")).getD .none) else .ok ()

/-- One option string, `scheme_validator.py` 756-760. -/
def checkOptionString : Val → Except Err Unit
  | .str s => need (isValidOptionString s)
  | _ => .error .schemaError

/-- The option strings, `scheme_validator.py` 751-760. -/
def checkOptionStrings (d : List (Key × Val)) : Except Err Unit :=
  match getKey d (S "option_strings") with
  | some (.list l) => do
    need (!l.isEmpty)
    checkEach checkOptionString l
  | _ => .error .crash

/-- The separator, `scheme_validator.py` 794-799. -/
def checkArgSep (d : List (Key × Val)) : Except Err Unit :=
  match getKey d (S "long_opt_arg_sep") with
  | some (.str s) => need ([S "space", S "equals", S "both", S "INHERIT"].contains s)
  | _ => .ok ()

/-- `_check_option0`, `scheme_validator.py` 731-799. -/
def checkOption0 (env : ValEnv) (ctx : ValCtx) (v : Val) : Except Err Unit := do
  checkDictionary v optionRules
  match v with
  | .dict d => do
    checkOptionStrings d
    need (!(isSet d (S "metavar") && !isSet d (S "complete")))
    need (!(isTrue? d (S "optional_arg") && !isSet d (S "complete")))
    need (!(isTrue? d (S "repeatable") && isTrue? d (S "hidden")))
    need (!(isSet d (S "group") && isSet d (S "groups")))
    checkListAttr d (S "groups") (fun v => checkType v [.str])
    checkCompleteAttr env { ctx with positional := none } d
    checkWhenAttr env d
    checkCaptureAttr d
    checkArgSep d
  | _ => .error .crash

/-- The handler of `_check_option`, `scheme_validator.py` 802-813: what is raised after a validation error.
Iterating over a string gives characters, which have no `value`. -/
def optionHandler : Val → Err
  | .dict d => match getKey d (S "option_strings") with
    | some (.str (_ :: _)) => .crash
    | _ => .schemaError
  | _ => .schemaError

/-- Turn a validation error into what the handler raises. -/
def handle {α} (h : Err) : Except Err α → Except Err α
  | .error .schemaError => .error h
  | r => r

/-- `_check_option`, `scheme_validator.py` 802-813. -/
def checkOption (env : ValEnv) (ctx : ValCtx) (v : Val) : Except Err Unit :=
  handle (optionHandler v) (checkOption0 env ctx v)

/-- The rules for positionals, `scheme_validator.py` 817-826. -/
def positionalRules : List Rule := [
  { name := S "number", required := true, types := [.int] },
  { name := S "metavar", required := false, types := [.str, .none] },
  { name := S "help", required := false, types := [.str, .none] },
  { name := S "repeatable", required := false, types := [.bool, .none] },
  { name := S "nosort", required := false, types := [.bool, .none] },
  { name := S "complete", required := false, types := [.list, .none] },
  { name := S "when", required := false, types := [.str, .none] },
  { name := S "capture", required := false, types := [.str, .none] }]

/-- The number of a positional, `scheme_validator.py` 828-830. -/
def checkPosNumber (d : List (Key × Val)) : Except Err Unit :=
  match (getKey d (S "number")).bind numOf with
  | some i => need (decide (1 ≤ i))
  | none => .error .crash

/-- `_check_positional0`, `scheme_validator.py` 816-842. -/
def checkPositional0 (env : ValEnv) (ctx : ValCtx) (v : Val) : Except Err Unit := do
  checkDictionary v positionalRules
  match v with
  | .dict d => do
    checkPosNumber d
    checkCompleteAttr env { ctx with positional := some d } d
    checkWhenAttr env d
    checkCaptureAttr d
  | _ => .error .crash

/-- The handler of `_check_positional`, `scheme_validator.py` 845-864: the lookup of the metavar in
something that is not a dictionary is not caught. Simplification: a float as number is formatted
without error. -/
def positionalHandler : Val → Err
  | .dict _ => .schemaError
  | _ => .crash

/-- `_check_positional`, `scheme_validator.py` 845-864. -/
def checkPositional (env : ValEnv) (ctx : ValCtx) (v : Val) : Except Err Unit :=
  handle (positionalHandler v) (checkPositional0 env ctx v)

/-- The rules for definitions, `scheme_validator.py` 870-880. -/
def definitionRules : List Rule := [
  { name := S "prog", required := true, types := [.str] },
  { name := S "help", required := false, types := [.str, .none] },
  { name := S "aliases", required := false, types := [.list, .none] },
  { name := S "wraps", required := false, types := [.str, .none] },
  { name := S "abbreviate_commands", required := false, types := [.bool, .str, .none], check := checkExtendedBool },
  { name := S "abbreviate_options", required := false, types := [.bool, .str, .none], check := checkExtendedBool },
  { name := S "inherit_options", required := false, types := [.bool, .str, .none], check := checkExtendedBool },
  { name := S "options", required := false, types := [.list, .none] },
  { name := S "positionals", required := false, types := [.list, .none] }]

/-- The value of a string attribute. -/
def strKey (d : List (Key × Val)) (k : Str) : Str :=
  match getKey d k with
  | some (.str s) => s
  | _ => []

/-- The wrapped command, `scheme_validator.py` 893-900. -/
def checkWraps (d : List (Key × Val)) : Except Err Unit :=
  if isSet d (S "wraps") then do
    checkNonEmptyString ((getKey d (S "wraps")).getD .none)
    checkNoSpaces ((getKey d (S "wraps")).getD .none)
    need (!containsSpace (strKey d (S "prog")))
  else .ok ()

/-- `_check_commandline_definition0`, `scheme_validator.py` 867-908. The handler of
`_check_commandline_definition`, 911-921, cannot fail on a definition of the tree. -/
def checkDefinition (env : ValEnv) (d : List (Key × Val)) : Except Err Unit := do
  checkDictionary (.dict d) definitionRules
  need (validProg (strKey d (S "prog")))
  checkListAttr d (S "aliases") checkWord
  checkWraps d
  checkListAttr d (S "options") (checkOption env { definition := d })
  checkListAttr d (S "positionals") (checkPositional env { definition := d })

/-! ## The tree of definitions -/

/-- `DefinitionTree`, `scheme_validator.py` 924-929: the definition (none for the root) and the
subcommands in the order of insertion. -/
inductive DefTree where
  | node (definition : List (Key × Val)) (subs : List (Str × DefTree))

/-- The subcommands. -/
def DefTree.subs : DefTree → List (Str × DefTree)
  | .node _ s => s

/-- The definition. -/
def DefTree.definition : DefTree → List (Key × Val)
  | .node d _ => d

/-- `node.subcommands[name]`. -/
def subTree (n : Str) : List (Str × DefTree) → Option DefTree
  | [] => none
  | (m, t) :: r => if m = n then some t else subTree n r

/-- Replace a subcommand. -/
def setSubTree (n : Str) (t : DefTree) : List (Str × DefTree) → List (Str × DefTree)
  | [] => []
  | (m, u) :: r => if m = n then (m, t) :: r else (m, u) :: setSubTree n t r

/-- The end of `add_definition`, `scheme_validator.py` 931-962: follow the words of the path, then add a
new node. -/
def addAt (d : List (Key × Val)) : List Str → DefTree → Except Err DefTree
  | [], t => .ok t
  | [n], .node d0 subs =>
    match subTree n subs with
    | some _ => .error .schemaError
    | none => .ok (.node d0 (subs ++ [(n, .node d [])]))
  | n :: m :: ns, .node d0 subs =>
    match subTree n subs with
    | none => .error .schemaError
    | some t => do
      let t' ← addAt d (m :: ns) t
      .ok (.node d0 (setSubTree n t' subs))

/-- `add_definition`, `scheme_validator.py` 931-962. A name that is not a string has no `strip`. -/
def addDefinition (t : DefTree) (v : Val) : Except Err DefTree :=
  match v with
  | .dict d =>
    if isSet d (S "prog") then
      match getKey d (S "prog") with
      | some (.str p) => do
        need (validProg p)
        addAt d (splitOn ' ' p) t
      | _ => .error .crash
    else .error .schemaError
  | _ => .error .schemaError

/-- `make_tree`, `scheme_validator.py` 992-1000. -/
def makeTree : DefTree → List Val → Except Err DefTree
  | t, [] => .ok t
  | t, v :: r => do
    let t' ← addDefinition t v
    makeTree t' r

/-- `get_definition`, `scheme_validator.py` 964-973. -/
def getDefinition : DefTree → List Str → Option DefTree
  | t, [] => some t
  | t, n :: ns => (subTree n t.subs).bind (fun u => getDefinition u ns)

/-- `visit` and `get_all`, `scheme_validator.py` 975-985: the node and its direct subcommands. -/
def DefTree.getAll (t : DefTree) : List DefTree := t :: t.subs.map (·.2)

/-- The number of a positional as `sorted` compares it. -/
def posNumber (v : Val) : Int :=
  match v with
  | .dict d => ((getKey d (S "number")).bind numOf).getD 0
  | _ => 0

/-- Is the positional repeatable? `scheme_validator.py` 700-702. -/
def posRepeatable (v : Val) : Bool :=
  match v with
  | .dict d => decide (getKey d (S "repeatable") = some (.bool true))
  | _ => false

/-- Insert into a list sorted by number, behind those with the same number. -/
def insertPos (x : Val) : List Val → List Val
  | [] => [x]
  | y :: r => if posNumber x < posNumber y then x :: y :: r else y :: insertPos x r

/-- `sorted(positionals, key=number)`, `scheme_validator.py` 699 (stable). -/
def sortPositionals (l : List Val) : List Val := l.foldl (fun acc x => insertPos x acc) []

/-- The loop of `_check_positionals_repeatable0`, `scheme_validator.py` 692-719; the result is
`repeatable_number`. -/
def repeatableLoop : Option Int → List Val → Except Err (Option Int)
  | r, [] => .ok r
  | r, p :: ps =>
    if posRepeatable p then
      match r with
      | some n => if n ≠ posNumber p then .error .schemaError else repeatableLoop (some (posNumber p)) ps
      | none => repeatableLoop (some (posNumber p)) ps
    else match r with
      | some n => if posNumber p > n then .error .schemaError else repeatableLoop r ps
      | none => repeatableLoop r ps

/-- `_check_positionals_repeatable0`, `scheme_validator.py` 692-719. The positionals have been checked
before. -/
def checkRepeatable (root : DefTree) (d : List (Key × Val)) : Except Err Unit :=
  match getKey d (S "positionals") with
  | some (.list ps) => do
    let r ← repeatableLoop none (sortPositionals ps)
    match getDefinition root (splitOn ' ' (strKey d (S "prog"))) with
    | none => .error .crash
    | some node => need (!(r.isSome && !node.subs.isEmpty))
  | _ => .ok ()

/-- Run the checks over the nodes, `scheme_validator.py` 1019-1022. -/
def checkNodes (env : ValEnv) (root : DefTree) : List DefTree → Except Err Unit
  | [] => .ok ()
  | t :: ts => do
    checkDefinition env t.definition
    checkRepeatable root t.definition
    checkNodes env root ts

/-- `validate`, `scheme_validator.py` 1003-1022. -/
def validate (env : ValEnv) (defs : List Val) : Except Err Unit := do
  let root ← makeTree (.node [] []) defs
  match root.subs with
  | [(_, t)] => checkNodes env root t.getAll
  | _ => .error .schemaError

end CC
