import Verif.Model.BashValueList
import Verif.Model.Choices
/-!
# Model of the helper functions `key_value_list` and `key_value_pair` of `bash_helpers.py`

`run func value` is what `$COMPREPLY` holds after the command `func` with the current word `value`, when it was empty
before. The keys of an associative array come in no particular order; here in that of the last definitions.
-/

namespace CC

/-- One key: its name, the command for its values, and the keys that may not follow it, as one text. -/
structure KeyArgs where
  key : Str
  func : Str
  excludes : Str
  deriving DecidableEq, Repr

/-- The keys of the associative arrays, `bash_helpers.py` 324-327: a later definition replaces an earlier one. -/
def keyNames : List KeyArgs → List Str
  | [] => []
  | e :: es => if (keyNames es).contains e.key then keyNames es else e.key :: keyNames es

/-- `${funcs[$key]}` and `${excludes[$key]}`: the last definition of the key. -/
def keyLookup (es : List KeyArgs) (k : Str) : Option KeyArgs := es.reverse.find? (fun e => e.key = k)

/-- `strip_chars`, `bash_helpers.py` 329-333 and 414-417. -/
def stripChars (breaks seps : List Char) (cur : Str) : List Char :=
  if cur.head? = some '"' ∨ cur.head? = some '\'' then [] else seps.filter (fun c => breaks.contains c)

/-- `${text##*[$chars]}`, and the text itself if `chars` is empty: what follows the last of the characters. -/
def behindLast (chars : List Char) (text : Str) : Str :=
  (text.reverse.takeWhile (fun c => !chars.contains c)).reverse

/-- `${text%%"$sep"*}` -/
def beforeFirst (sep : Char) (text : Str) : Str := text.takeWhile (· != sep)

/-- `${text#*"$sep"}`, for a text with the separator. -/
def behindFirst (sep : Char) (text : Str) : Str := (text.dropWhile (· != sep)).drop 1

/-- `having_keys`, `bash_helpers.py` 345-351: the excluded keys of all pairs. -/
def excludedKeys (es : List KeyArgs) (sep1 sep2 : Char) (u : Str) : List Str :=
  (readFields sep1 u).flatMap fun pair =>
    match keyLookup es (beforeFirst sep2 pair) with
    | some e => readFields ' ' e.excludes
    | none => []

/-- `remaining_keys`, `bash_helpers.py` 353-366. -/
def remainingKeys (es : List KeyArgs) (sep1 sep2 : Char) (u : Str) : List Str :=
  (keyNames es).filter (fun k => !(excludedKeys es sep1 sep2 u).contains k)

/-- The values of a key, `bash_helpers.py` 381-392 and 428-439: `u` is the text, `value` its end. -/
def valueReplies (run : Str → Str → List Str) (strip : List Char) (func : Str) (u value : Str) : List Str :=
  (run func value).map (behindLast strip (u.take (u.length - value.length)) ++ ·)

/-- `key_value_list`, `bash_helpers.py` 317-403: `$COMPREPLY` after the call. -/
def keyValueListHelper (breaks : List Char) (run : Str → Str → List Str) (sep1 sep2 : Char) (es : List KeyArgs)
    (cur : Str) : List Str :=
  let strip := stripChars breaks [sep1, sep2] cur
  let u := (dequote breaks cur).result
  if u.isEmpty then keyNames es
  else if u.getLast? = some sep1 then (remainingKeys es sep1 sep2 u).map (behindLast strip u ++ ·)
  else
    let pair := behindLast [sep1] u
    if pair.contains sep2 then
      match keyLookup es (beforeFirst sep2 pair) with
      | some e => valueReplies run strip e.func u (behindFirst sep2 pair)
      | none => []
    else
      ((remainingKeys es sep1 sep2 u).filter (fun k => pair.isPrefixOf k)).map
        (removeSuffix pair (behindLast strip u) ++ ·)

/-- `key_value_pair`, `bash_helpers.py` 405-440: `$COMPREPLY` after the call. `printfQ` is `printf %q`. -/
def keyValuePairHelper (breaks : List Char) (run : Str → Str → List Str) (printfQ : Str → Str) (sep : Char)
    (es : List KeyArgs) (cur : Str) : List Str :=
  let strip := stripChars breaks [sep] cur
  let u := (dequote breaks cur).result
  if u.contains sep then
    match keyLookup es (beforeFirst sep u) with
    | some e => valueReplies run strip e.func u (behindFirst sep u)
    | none => []
  else bashValues printfQ u [] (keyNames es)

end CC
