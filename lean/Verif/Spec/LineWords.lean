import Verif.Spec.TypedWord
/-!
# The words of a line that is being typed (specification, independent of the model)

The words are separated by blanks outside quotes; they keep their quotes. The last one is the one at the cursor, it
is empty after a blank and for an empty line (Bash manual, `COMP_WORDS`). Operators and break characters are not
looked at.
-/

namespace Typed

/-- The words of a line; `acc` is the part of the current word read so far. -/
def lineWords : Quoting → List Char → List Char → List (List Char)
  | _, acc, [] => [acc]
  | .bare, acc, c :: cs =>
    if c = ' ' then if acc = [] then lineWords .bare [] cs else acc :: lineWords .bare [] cs
    else if c = '\'' then lineWords .single (acc ++ [c]) cs
    else if c = '"' then lineWords .double (acc ++ [c]) cs
    else if c = '\\' then
      match cs with
      | [] => [acc ++ [c]]
      | d :: ds => lineWords .bare (acc ++ [c, d]) ds
    else lineWords .bare (acc ++ [c]) cs
  | .single, acc, c :: cs =>
    if c = '\'' then lineWords .bare (acc ++ [c]) cs else lineWords .single (acc ++ [c]) cs
  | .double, acc, c :: cs =>
    if c = '"' then lineWords .bare (acc ++ [c]) cs
    else if c = '\\' then
      match cs with
      | [] => [acc ++ [c]]
      | d :: ds => lineWords .double (acc ++ [c, d]) ds
    else lineWords .double (acc ++ [c]) cs

end Typed
