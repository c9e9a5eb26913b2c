import Verif.Spec.BashCalls
/-!
# How Bash reads and runs the code that hands the line over to another command (specification)

The text is an `if` command with a `for` loop over the places of an array. In the loop, the element at the place is compared with an element of another array; if
they are equal, a command is called with the place and the function returns 0. Blanks at the beginning of lines mean nothing.
-/

namespace BashHandOver

open BashText

/-- `if (( ${#counted[@]} >= least )); then local var; for var in "${!words[@]}"; do [[ "${words[var]}" == "${array[place]}" ]] && { call $var; return 0; }; done; fi`.
The place `none` is written -1: the last element. -/
structure Loop where
  counted : List Char
  least : Nat
  words : List Char
  array : List Char
  place : Option Nat
  call : List Char
  deriving DecidableEq, Repr

/-- `if (( ${#x[@]} >= 1 )); then` -/
def readAtLeast (l : List Char) : Option (List Char × Nat) :=
  (between "if (( ${#".toList " )); then".toList l).bind (fun u => (spanName u).bind (fun p =>
    (without "[@]} >= ".toList p.2).bind (fun n => (Decimal.digits n).map (fun n => (p.1, n)))))

/-- `for v in "${!x[@]}"; do` -/
def readFor (l : List Char) : Option (List Char × List Char) :=
  (between "for ".toList "[@]}\"; do".toList l).bind (fun u => (spanName u).bind (fun p =>
    (without " in \"${!".toList p.2).bind (fun x => if isName x then some (p.1, x) else none)))

/-- A place of an array. -/
def readPlace (t : List Char) : Option (Option Nat) := if t = "-1".toList then some none else (Decimal.digits t).map some

/-- `[[ "${x[v]}" == "${y[1]}" ]] && {` -/
def readTest (l : List Char) : Option ((List Char × List Char) × List Char × Option Nat) :=
  (between "[[ \"${".toList "]}\" ]] && {".toList l).bind (fun u => (spanName u).bind (fun x =>
    (without "[".toList x.2).bind (fun u => (spanName u).bind (fun v =>
      (without "]}\" == \"${".toList v.2).bind (fun u => (spanName u).bind (fun y =>
        (without "[".toList y.2).bind (fun k => (readPlace k).map (fun k => ((x.1, v.1), y.1, k))))))))) 

/-- `f $v` -/
def readCall (l : List Char) : Option (List Char × List Char) :=
  (spanName l).bind (fun f => (without " $".toList f.2).bind (fun v => if isName v then some (f.1, v) else none))

/-- The text. -/
def read (t : List Char) : Option Loop :=
  match (CC.splitOn '\n' t).map (fun l => l.dropWhile (· == ' ')) with
  | [a, b, c, d, e, f, g, h, i] =>
    if f = "return 0;".toList ∧ g = "}".toList ∧ h = "done".toList ∧ i = "fi".toList then
      (readAtLeast a).bind (fun n => (without "local ".toList b).bind (fun v => (readFor c).bind (fun w => (readTest d).bind (fun s => (readCall e).bind (fun k =>
        if w.1 = v ∧ s.1.2 = v ∧ k.2 = v ∧ s.1.1 = w.2 then some ⟨n.1, n.2, w.2, s.2.1, s.2.2, k.1⟩ else none)))))
    else none
  | _ => none

/-- The first place with an equal element; the places are counted from `i`. -/
def first (w : List Char) : Nat → List (List Char) → Option Nat
  | _, [] => none
  | i, x :: r => if x = w then some i else first w (i + 1) r

/-- Running the loop: the call with its argument, after which the function returns 0, or nothing. -/
def run (arrays : List Char → List (List Char)) (l : Loop) : Option (List Char × Nat) :=
  if l.least ≤ (arrays l.counted).length then
    (first (match l.place with
      | some k => ((arrays l.array)[k]?).getD []
      | none => ((arrays l.array).getLast?).getD []) 0 (arrays l.words)).map (fun i => (l.call, i))
  else none

end BashHandOver
