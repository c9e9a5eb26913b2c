import Verif.Model.Cli
import Verif.Model.Shell
/-!
# Model of `crazy_complete/helpers.py`

The repository of helper functions and the dictionaries are association lists in insertion order.
A set of macro names is a list. Of a function's code only what `replace_function_name` does is
modelled here; `preprocess`, `indent` and `strip_comments` have their own models.
-/

namespace CC

/-- `d.get(k)` on an association list. -/
def assocGet {α : Type} (d : List (Str × α)) (k : Str) : Option α :=
  match d with
  | [] => none
  | (k', v) :: r => if k' = k then some v else assocGet r k

/-- `d[k] = v` on an association list. -/
def assocSet {α : Type} (d : List (Str × α)) (k : Str) (v : α) : List (Str × α) :=
  match d with
  | [] => [(k, v)]
  | (k', v') :: r => if k' = k then (k', v) :: r else (k', v') :: assocSet r k v

/-! ## Names -/

/-- `make_completion_funcname`, `helpers.py` 220-250. `names` are the program names from the root
to the command. -/
def completionFuncname (pre : Str) (names : List Str) (suffix : Str) : Str :=
  makeIdentifier (joinWith ['_'] (pre :: names.tail)) ++ suffix

/-- What a context's `option` is, `helpers.py` 80-88. -/
inductive CtxtOption where
  | opt (o : Opt)
  | pos (p : Pos) (num : Nat)

/-- `make_completion_funcname_for_context`, `helpers.py` 71-90. `num` of a positional is
`get_positional_num()`; an option has at least one option string. -/
def contextFuncname (pre : Str) (names : List Str) (o : CtxtOption) : Str :=
  let funcname := makeIdentifier (joinWith ['_'] (pre :: names.tail))
  match o with
  | .opt o => funcname ++ S "__" ++ o.strings.headD []
  | .pos p num =>
    let identifier := match p.metavar with
      | some (c :: cs) => makeIdentifier (c :: cs)
      | _ => S "arg" ++ natStr num
    funcname ++ S "__" ++ identifier

/-- `get_real_function_name`, `helpers.py` 179-182. -/
def realName (pre name : Str) : Str := pre ++ S "__" ++ name

/-! ## Dynamic functions -/

/-- The `while` loop of `get_dynamic_funcname`, `helpers.py` 133-135: `cand` is
`funcname_plus_num`. `fuel` bounds the number of iterations; `none` means that the loop did not end
within the bound. -/
def nameLoop (base : Str) (taken : List Str) : Nat → Nat → Str → Option Str
  | 0, _, _ => none
  | fuel + 1, num, cand =>
    if taken.contains cand then nameLoop base taken fuel (num + 1) (base ++ natStr num) else some cand

/-- `get_dynamic_funcname`, `helpers.py` 127-136, with the base name computed for the context. -/
def dynamicFuncname (fuel : Nat) (base : Str) (dyn : List (Str × Str)) : Option Str :=
  nameLoop base (dyn.map (·.2)) fuel 0 base

/-- `add_dynamic_func`, `helpers.py` 117-125. The dictionary maps code to a function name. -/
def addDynamic (fuel : Nat) (base code : Str) (dyn : List (Str × Str)) : Option (Str × List (Str × Str)) :=
  match assocGet dyn code with
  | some n => some (n, dyn)
  | none => (dynamicFuncname fuel base dyn).map (fun n => (n, assocSet dyn code n))

/-- A sequence of `add_dynamic_func` calls: the names handed out and the final dictionary. -/
def addDynamics (fuel : Nat) : List (Str × Str) → List (Str × Str) → Option (List Str × List (Str × Str))
  | dyn, [] => some ([], dyn)
  | dyn, (base, code) :: calls =>
    match addDynamic fuel base code dyn with
    | none => none
    | some (n, dyn') => (addDynamics fuel dyn' calls).map (fun r => (n :: r.1, r.2))

/-! ## Built-in functions -/

/-- `self.used_functions[function_name] = set(defines)` or `.update(defines)`, `helpers.py` 168-171. -/
def addUse (used : List (Str × List Str)) (name : Str) (defines : List Str) : List (Str × List Str) :=
  match assocGet used name with
  | none => assocSet used name defines
  | some ds => assocSet used name (ds ++ defines)

/-- `use_function`, `helpers.py` 162-177. `repo` maps a function name to its dependencies. `depth` is
Python's recursion limit; reaching it (RecursionError) and an unknown name (KeyError) are `crash`. -/
def useFunction (repo : List (Str × List Str)) :
    Nat → Str → List Str → List (Str × List Str) → Except Err (List (Str × List Str))
  | 0, _, _, _ => .error .crash
  | depth + 1, name, defines, used =>
    match assocGet repo name with
    | none => .error .crash
    | some deps => deps.foldlM (fun u d => useFunction repo depth d [] u) (addUse used name defines)

/-- A sequence of `use_function` calls. -/
def useFunctions (repo : List (Str × List Str)) (depth : Nat) (calls : List (Str × List Str)) :
    Except Err (List (Str × List Str)) :=
  calls.foldlM (fun u c => useFunction repo depth c.1 c.2 u) []

/-- The names of the functions in the result of `get_used_functions_code`, `helpers.py` 189-214:
the helper functions that are used, then the dynamic functions. -/
def emittedNames (pre : Str) (used : List (Str × List Str)) (dyn : List (Str × Str)) : List Str :=
  used.map (fun u => realName pre u.1) ++ dyn.map (·.2)

/-! ## `replace_function_name` -/

/-- Whether the text begins with a word character. -/
def wordAt (w : Char → Bool) : Str → Bool
  | [] => false
  | c :: _ => w c

/-- `re.sub(r'\bSEARCH\b', replace, s)`, `helpers.py` 18-22, for a name of word characters.
`prev` says whether the character before the current position is a word character, `skip` counts the
characters of a match that are still to be dropped. `w` is the regex class `\w`. A backslash in
`replace` is taken literally (simplification). -/
def subWord (w : Char → Bool) (search replace : Str) : Bool → Nat → Str → Str
  | _, _, [] => []
  | _, skip + 1, c :: cs => subWord w search replace (w c) skip cs
  | prev, 0, c :: cs =>
    if !prev && startsWith (c :: cs) search && !wordAt w ((c :: cs).drop search.length) then
      replace ++ subWord w search replace (w c) (search.length - 1) cs
    else c :: subWord w search replace (w c) 0 cs

/-- The loop over the dependencies in `get_used_functions_code`, `helpers.py` 199-201. -/
def replaceDeps (w : Char → Bool) (pre : Str) (deps : List Str) (code : Str) : Str :=
  deps.foldl (fun c d => subWord w d (realName pre d) false 0 c) code

/-! ## The repositories -/

/-- Dependencies of the Bash helper functions, `bash_helpers.py`, the tables of `BashHelpers.__init__`
808-842; `parse_commandline` is added by `bash.py` 151-152. -/
def bashRepo : List (Str × List Str) :=
  [(S "values", []), (S "dequote", []), (S "dequote_words", [S "dequote"]),
   (S "prefix", [S "get_last_break_position", S "strip_prefix_keep_quoting"]),
   (S "strip_prefix_keep_quoting", []), (S "array_contains", []), (S "array_contains_nocase", []),
   (S "array_match", []), (S "get_last_break_position", []), (S "parse_line", []),
   (S "get_prefix_suffix_len", []),
   (S "commandline_string", [S "dequote", S "parse_line", S "get_prefix_suffix_len"]),
   (S "exec", []), (S "exec_fast", []), (S "value_list", [S "dequote", S "array_contains"]),
   (S "key_value_list", [S "dequote"]),
   (S "key_value_pair", [S "dequote", S "array_contains", S "values"]),
   (S "key_value_list_exec", [S "dequote", S "exec"]),
   (S "key_value_pair_exec", [S "dequote", S "exec"]),
   (S "file_filter", []), (S "prefix_compreply", []), (S "history", []), (S "number", []),
   (S "mime_file", [S "dequote"]), (S "mountpoint", []), (S "locales", []), (S "charsets", []),
   (S "timezone_list", []), (S "alsa_list_cards", []), (S "alsa_list_devices", []),
   (S "parse_commandline", [])]

/-- Dependencies of the Zsh helper functions, `zsh_helpers.py`, `ZshHelpers.__init__`. -/
def zshRepo : List (Str × List Str) :=
  [(S "array_contains", []), (S "query", [S "array_contains"]), (S "option_match", [S "array_contains"]),
   (S "exec", []), (S "key_value_pair_exec", [S "exec"]), (S "key_value_list_exec", [S "exec"]),
   (S "prefix", []), (S "history", []), (S "path_files_relative", []), (S "mime_file", []),
   (S "uid_list", []), (S "gid_list", []), (S "charset_list", []), (S "mountpoint", []),
   (S "alsa_complete_cards", []), (S "alsa_complete_devices", [])]

/-- Dependencies of the Fish helper functions, `fish_helpers.py`, `FishHelpers.__init__`; `prepare` is
added by `fish_prepare.py` 96-97. -/
def fishRepo : List (Str × List Str) :=
  [(S "query_init", []), (S "positional_contains", [S "query_init"]), (S "has_option", [S "query_init"]),
   (S "option_is", [S "query_init"]), (S "option_match", [S "query_init"]),
   (S "num_of_positionals", [S "query_init"]), (S "positional_position", [S "query_init"]),
   (S "capture_option", [S "query_init"]), (S "get_completing_arg", []),
   (S "filedir", [S "get_completing_arg"]), (S "list", [S "get_completing_arg"]),
   (S "prefix", [S "get_completing_arg"]), (S "key_value_list", [S "get_completing_arg"]),
   (S "key_value_pair", [S "get_completing_arg"]), (S "key_value_list_exec", [S "get_completing_arg"]),
   (S "key_value_pair_exec", [S "get_completing_arg"]), (S "history", []),
   (S "date_format", [S "get_completing_arg"]), (S "number", [S "get_completing_arg"]),
   (S "mime_file", [S "get_completing_arg"]), (S "subtract_prefix_suffix", []),
   (S "commandline_string", [S "subtract_prefix_suffix", S "get_completing_arg"]),
   (S "timezone_list", []), (S "alsa_list_cards", []), (S "alsa_list_devices", []), (S "prepare", [])]

end CC
