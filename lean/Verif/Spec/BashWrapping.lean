import Verif.Spec.BashText
import Verif.Spec.Posix
/-!
# What Bash does with the function of a program that wraps another one (specification, independent of the model)

The body of the function is read line by line. Values are texts in quotes (`Posix.words`), `"$x"`, `("${x[@]}" ...)`,
`"${x/$1/$w}"` and `$(( p + ${#w} - ${#1} ))`. The reader fails (`none`) on everything else. Variables and functions are
those of `BashText`. References: the Bash manual, "Shell Parameter Expansion" (pattern substitution), "Arrays", "Shell
Functions".
-/

namespace BashWrap

open BashText

/-- What is assigned. -/
inductive Value where
  | text (v : List Char)
  | copy (x : List Char)
  | arrays (xs : List (List Char))
  | subst (x w : List Char)
  | shift (p w : List Char)
  deriving DecidableEq, Repr

/-- Lines: `local x=...`, `x=...`, `x[0]=...`, a call with arguments, a call with the arguments of the function. -/
inductive Stmt where
  | local_ (x : List Char) (v : Value)
  | set (x : List Char) (v : Value)
  | setFirst (x : List Char) (v : List Char)
  | call (f : List Char) (args : List (List Char))
  | pass (f : List Char)
  deriving DecidableEq, Repr

/-- `"${x[@]}"` -/
def readAll (t : List Char) : Option (List Char) := (between "\"${".toList "[@]}\"".toList t).filter isName

/-- What is written behind `=`. -/
def readValue (t : List Char) : Option Value :=
  match Posix.words t with
  | some [v] => some (.text v)
  | some _ => none
  | none => match (between "\"$".toList "\"".toList t).filter isName with
    | some x => some (.copy x)
    | none => match between "(".toList ")".toList t with
      | some u => (allSome ((fields [] u).map readAll)).map .arrays
      | none => match between "\"${".toList "}\"".toList t with
        | some u => (spanName u).bind (fun p => ((without "/$1/$".toList p.2).filter isName).map (.subst p.1))
        | none => match (between "$((".toList "))".toList t).map (fields []) with
          | some [p, plus, w, minus, one] =>
            if isName p ∧ plus = "+".toList ∧ minus = "-".toList ∧ one = "${#1}".toList then
              ((between "${#".toList "}".toList w).filter isName).map (.shift p)
            else none
          | _ => none

/-- A line without the blanks in front. -/
def readStmt (t : List Char) : Option Stmt :=
  match without "local ".toList t with
  | some u => (spanName u).bind (fun p => (without "=".toList p.2).bind (fun v => (readValue v).map (.local_ p.1)))
  | none => match (spanName t).bind (fun p => (without "=".toList p.2).map (fun v => (p.1, v))) with
    | some p => (readValue p.2).map (.set p.1)
    | none => match (spanName t).bind (fun p => (without "[0]=".toList p.2).map (fun v => (p.1, v))) with
      | some p => match readValue p.2 with
        | some (.text v) => some (.setFirst p.1 v)
        | _ => none
      | none => match (between [] " \"$@\"".toList t).filter isName with
        | some f => some (.pass f)
        | none => match Posix.words t with
          | some (f :: args) => if isName f then some (.call f args) else none
          | _ => none

/-- The statements of some lines. Empty lines are nothing. -/
def readLines (ts : List (List Char)) : Option (List Stmt) :=
  allSome (((ts.map (fun t => t.dropWhile (· == ' '))).filter (fun t => !t.isEmpty)).map readStmt)

/-- A function: `f() {`, lines, `}`. -/
def readFunction (t : List Char) : Option (List Char × List Stmt) :=
  match CC.splitOn '\n' t with
  | [] => none
  | h :: ls => ((between [] "() {".toList h).filter isName).bind (fun f =>
      if ls.getLast? = some "}".toList then (readLines ls.dropLast).map (fun b => (f, b)) else none)

open Classical in
/-- The length of the longest beginning of a text that matches. -/
noncomputable def longest (L : List Char → Prop) (t : List Char) : Option Nat :=
  (List.range (t.length + 1)).reverse.find? (fun n => decide (L (t.take n)))

/-- The first place that matches is replaced, the longest text there. -/
noncomputable def replaceFirst (L : List Char → Prop) (r : List Char) : List Char → List Char
  | [] => match longest L [] with
    | some _ => r
    | none => []
  | c :: t => match longest L (c :: t) with
    | some n => r ++ (c :: t).drop n
    | none => c :: replaceFirst L r t

/-- `${t/$p/$r}` with the values of the variables. The value of `p` is a pattern. Patterns that begin with `#` or `%`,
quotes in patterns, and `&` and `\` in the replacement (they mean the matched text in newer versions) are not described. -/
noncomputable def substitute (p r t : List Char) : Option (List Char) :=
  if p = [] ∨ p.head? = some '#' ∨ p.head? = some '%' ∨ (∃ c ∈ p, c ∈ "'\"\\|".toList) ∨ '&' ∈ r ∨ '\\' ∈ r then none
  else (CC.readGlob CC.caseCtx p).map (fun alts => replaceFirst (CC.Glob.AltLang alts) r t)

/-- The value that is assigned. -/
noncomputable def Value.eval (e : Env) : Value → Option Val
  | .text v => some (.str v)
  | .copy x => (value e x).map (fun v => .str v.text)
  | .arrays xs => (allSome (xs.map (value e))).map (fun vs => .array (vs.flatMap Val.elements))
  | .subst x w => (value e x).bind (fun v => (value e w).bind (fun r => (substitute (e.args.headD []) r.text v.text).map Val.str))
  | .shift p w => (numberOf e p).bind (fun n => (value e w).bind (fun v =>
      if n + v.text.length < (e.args.headD []).length then none
      else some (.str (decimal (n + v.text.length - (e.args.headD []).length)))))

/-- Call a function. -/
def invoke (fs : Funs) (f : List Char) (args : List (List Char)) (e : Env) : Option Env :=
  (fs.find? (fun g => decide (g.1 = f))).bind (fun g => g.2 args e)

/-- One line. -/
noncomputable def Stmt.run (fs : Funs) (e : Env) : Stmt → Option Env
  | .local_ x v => (v.eval e).map (declare e x)
  | .set x v => (v.eval e).bind (fun v => (target e x).map (fun x => e.put x v))
  | .setFirst x v => (target e x).map (fun x => e.put x (.array (v :: (e.vars x).elements.drop 1)))
  | .call f args => invoke fs f args e
  | .pass f => invoke fs f e.args e

/-- Lines, one after the other. -/
noncomputable def runAll (fs : Funs) : List Stmt → Env → Option Env
  | [], e => some e
  | s :: r, e => (s.run fs e).bind (runAll fs r)

/-- Call the function that a text defines. -/
noncomputable def call (fs : Funs) (t : List Char) (args : List (List Char)) (e : Env) : Option Env :=
  (readFunction t).bind (fun f => closure (fun e => (runAll fs f.2 e).map (fun e => (e, Flow.next))) args e)

end BashWrap

namespace CC

open BashText

/-- Functions give back what they have made local, and do not change the arguments of the function that calls them. Every
function written in Bash does. -/
def ProperFunction (g : List Str → Env → Option Env) : Prop :=
  ∀ args e e', g args e = some e' → e'.saved = e.saved ∧ e'.args = e.args

/-- No variable is a reference to another one. -/
def NoReferences (e : Env) : Prop := ∀ x y, e.vars x ≠ .ref y

/-- The names that the wrapper uses itself. -/
def wrapperNames : List Str := [S "WRAPS", S "COMP_LINE_OLD", S "COMP_POINT_OLD", S "COMP_WORDS_OLD"]

/-- Bash's variables for a command line: the text of the line, the words, and the place of the cursor in the text. The
command is the first word, the line begins with it, and the cursor is `k` characters behind it. -/
structure AtLine (e : Env) (cmd rest : Str) (words : List Str) (k : Nat) : Prop where
  line : e.vars (S "COMP_LINE") = .str (cmd ++ rest)
  words : e.vars (S "COMP_WORDS") = .array (cmd :: words)
  point : e.vars (S "COMP_POINT") = .str (decimal (cmd.length + k))

/-- The names of Bash's variables for a command line. -/
def lineNames : List Str := [S "COMP_LINE", S "COMP_WORDS", S "COMP_POINT"]

/-- The name by which the command was called is an ordinary word: no quotes, nothing that means something in a pattern. -/
def OrdinaryCommand (cmd : Str) : Prop := cmd ≠ [] ∧ cmd.head? ≠ some '%' ∧ ∀ c ∈ cmd, c.toNat < 128 ∧ c ∉ S "\\'\"[]()|?*$`&;<>#~ \t\n"

/-- The name of the wrapped command has no line break, `&` and `\`. -/
def OrdinaryWrapped (w : Str) : Prop := '\n' ∉ w ∧ '&' ∉ w ∧ '\\' ∉ w

end CC
