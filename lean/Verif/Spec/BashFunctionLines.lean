/-!
# The functions in a script, line by line (specification)

A function begins with a line that ends with `() {` and goes on up to the first line that is only a closing brace. Between functions there are empty lines.
-/

namespace BashFunctions

/-- The name in the first line of a function. -/
def header (l : List Char) : Option (List Char) := if "() {".toList <:+ l then some (l.take (l.length - 4)) else none

/-- The functions in the lines of a script, with the lines of their bodies; `cur` is the function whose lines are read. `none` if there is another line outside of a
function or the last function does not end. -/
def functions : Option (List Char × List (List Char)) → List (List Char) → Option (List (List Char × List (List Char)))
  | none, [] => some []
  | some _, [] => none
  | none, l :: r => if l = [] then functions none r else (header l).bind (fun n => functions (some (n, [])) r)
  | some f, l :: r => if l = "}".toList then (functions none r).map (f :: ·) else functions (some (f.1, f.2 ++ [l])) r

/-- A line written two columns further to the right; lines of blanks stay. -/
def shifted (blank : Char → Bool) (l : List Char) : List Char := if l.all blank then l else ' ' :: ' ' :: l

/-- The lines of several pieces of code, with an empty line between them. -/
def listing (lines : List Char → List (List Char)) : List (List Char) → List (List Char)
  | [] => []
  | [p] => lines p
  | p :: q :: r => lines p ++ [] :: listing lines (q :: r)

/-- The pieces that are there and not empty. -/
def present : List (Option (List Char)) → List (List Char)
  | [] => []
  | none :: r => present r
  | some p :: r => if p = [] then present r else p :: present r

end BashFunctions
