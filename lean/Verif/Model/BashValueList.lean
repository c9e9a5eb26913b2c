import Verif.Model.BashWords
/-!
# Model of the helper function `value_list` of `bash_helpers.py`
-/

namespace CC

/-- The fields of a text for a separator that is no blank, as `read -a` stores them: an empty field at the end is
dropped (Bash manual, "Word Splitting"). `acc` is the part of the current field read so far. -/
def fieldsLoop (sep : Char) : Str → Str → List Str
  | acc, [] => if acc.isEmpty then [] else [acc]
  | acc, c :: cs => if c = sep then acc :: fieldsLoop sep [] cs else fieldsLoop sep (acc ++ [c]) cs

/-- `IFS="$separator" read -r -a having_values <<< "$cur_unquoted"`, `bash_helpers.py` 270: the fields of the first
line. Blanks as separators are collapsed. -/
def readFields (sep : Char) (s : Str) : List Str :=
  let fields := fieldsLoop sep [] (s.takeWhile (· != '\n'))
  if sep = ' ' ∨ sep = '\t' ∨ sep = '\n' then fields.filter (fun f => !f.isEmpty) else fields

/-- `${text%"$suffix"}` -/
def removeSuffix (suffix text : Str) : Str :=
  if suffix.isSuffixOf text then text.take (text.length - suffix.length) else text

/-- `remaining_values`, `bash_helpers.py` 272-289; `array_contains` (227-231) is membership. -/
def remainingValues (dup : Bool) (values having : List Str) : List Str :=
  if dup then values else values.filter (fun v => !having.contains v)

/-- The text behind the last break character, `bash_helpers.py` 293-296. -/
def afterBreak (pos : Option Nat) (text : Str) : Str :=
  match pos with
  | some n => text.drop n
  | none => text

/-- `value_list`, `bash_helpers.py` 251-315: `$COMPREPLY` after the call, `cur` being the current word. -/
def valueListHelper (breaks : List Char) (dup : Bool) (sep : Char) (values : List Str) (cur : Str) : List Str :=
  let d := dequote breaks cur
  if d.result.isEmpty then values
  else
    let having := readFields sep d.result
    let remaining := remainingValues dup values having
    let stripped := afterBreak d.breakPos d.result
    if d.result.getLast? = some sep then remaining.map (stripped ++ ·)
    else if remaining.isEmpty then []
    else if values.contains (having.getLastD []) then [stripped ++ [sep]]
    else if having.isEmpty then []
    else
      let last := having.getLastD []
      (remaining.filter (fun v => last.isPrefixOf v)).map (removeSuffix last stripped ++ ·)

end CC
