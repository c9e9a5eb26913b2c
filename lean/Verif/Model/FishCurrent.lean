import Verif.Model.FishQuery
/-!
# Model of the end of the Fish helper `query_init`: the argument that is being typed
-/

namespace CC

/-- `contains -- (get_option …) '1' '?'`, `fish_helpers.py` 228 and 239. -/
def takesArgument : Option ArgKind → Bool
  | some .required => true
  | some .optional => true
  | _ => false

/-- The loop over the letters of the word, `fish_helpers.py` 234-246; the list is what is left of the word. -/
def fishCurrentScan (get : Str → Option ArgKind) (word : Str) : Str → Str
  | [] => word
  | c :: rest => if takesArgument (get ['-', c]) then rest else fishCurrentScan get word rest

/-- `$__QUERY_CACHE_CURRENT_ARG`, `fish_helpers.py` 220-247. `word` is the word up to the cursor with its quotes
removed; `pending` is `$last_arg_is_option_argument`. -/
def fishCurrentArg (short : Bool) (get : Str → Option ArgKind) (pending : Bool) (word : Str) : Str :=
  if pending then word
  else if word.contains '=' && takesArgument (get (beforeEq word)) then afterEq word
  else if short then fishCurrentScan get word word.tail
  else word

/-- `query_init` with the word that is being typed: what is set in `$__QUERY_CACHE_CURRENT_ARG`. The options are
looked up with the positionals found, as `get_option` reads the variable `$positionals`. -/
def fishCurrent (long short old subcommands : Bool) (defs : List (List FishComp × Str)) (words : List Str)
    (word : Str) : Str :=
  let p := fishQueryInit long short old subcommands defs words
  fishCurrentArg short (fishGetOption subcommands defs p.positionals) (!p.incomplete.isEmpty) word

end CC
