/-!
# And-or lists of the shells (specification, independent of the model)

The grammar shared by Bash, Zsh and Fish for conditions: `!` negates one command, `&&` and `||`
have the same precedence and associate to the left, and a group (`{ ...; }` or `begin ...; end`)
is a command. The same grammar is the one of a `when` expression with `( ... )` as the group.

`DenotesAt` gives the grammar as a relation from token lists to expressions,
`parse` is a deterministic shift-reduce reader for it (so the grammar is unambiguous, see
`parse_complete` in the lemmas).
-/

namespace ShellGrammar

/-- Tokens; `cmd` is one simple command, `lpar`/`rpar` open and close a group. -/
inductive Tok (α : Type) where
  | bang | lpar | rpar | and | or
  | cmd (a : α)
  deriving DecidableEq, Repr

/-- Boolean expressions over primitive commands. -/
inductive Expr (α : Type) where
  | atom (a : α)
  | not (e : Expr α)
  | and (e f : Expr α)
  | or (e f : Expr α)
  deriving Repr

/-- Truth value when each primitive command succeeds or not according to `v`. -/
def Expr.eval {α} (v : α → Bool) : Expr α → Bool
  | .atom a => v a
  | .not e => !e.eval v
  | .and e f => e.eval v && f.eval v
  | .or e f => e.eval v || f.eval v

/-- The two syntactic categories: an and-or list, and a single command with any number of `!`. -/
inductive Level where
  | list | command

/-- `DenotesAt .list ts e`: `ts` is an and-or list with meaning `e`;
`DenotesAt .command ts e`: `ts` is a command, possibly negated, with meaning `e`. -/
inductive DenotesAt {α : Type} : Level → List (Tok α) → Expr α → Prop
  | pipe {ts e} : DenotesAt .command ts e → DenotesAt .list ts e
  | and {ts us e f} : DenotesAt .list ts e → DenotesAt .command us f →
      DenotesAt .list (ts ++ .and :: us) (.and e f)
  | or {ts us e f} : DenotesAt .list ts e → DenotesAt .command us f →
      DenotesAt .list (ts ++ .or :: us) (.or e f)
  | cmd (a) : DenotesAt .command [.cmd a] (.atom a)
  | not {ts e} : DenotesAt .command ts e → DenotesAt .command (.bang :: ts) (.not e)
  | group {ts e} : DenotesAt .list ts e → DenotesAt .command (.lpar :: (ts ++ [.rpar])) e

/-- `ts` is a complete condition with meaning `e`. -/
abbrev Denotes {α : Type} (ts : List (Tok α)) (e : Expr α) : Prop := DenotesAt .list ts e

/-- The part of an and-or list read so far on one nesting level: nothing or an expression
followed by an operator (`true` is `&&`), then a number of `!`. -/
structure Frame (α : Type) where
  left : Option (Expr α × Bool)
  bangs : Nat

/-- Apply pending negations. -/
def negate {α} : Nat → Expr α → Expr α
  | 0, e => e
  | n + 1, e => .not (negate n e)

/-- Combine a finished command with what precedes it on the level. -/
def Frame.close {α} (f : Frame α) (e : Expr α) : Expr α :=
  match f.left with
  | none => negate f.bangs e
  | some (l, true) => .and l (negate f.bangs e)
  | some (l, false) => .or l (negate f.bangs e)

/-- Deterministic reader. `stack` holds the enclosing levels. The current level is either
waiting for a command (`Sum.inl frame`) or complete so far (`Sum.inr expr`). -/
def parseGo {α} : List (Frame α) → (Frame α ⊕ Expr α) → List (Tok α) → Option (Expr α)
  | [], .inr e, [] => some e
  | _ :: _, .inr _, [] => none
  | _, .inl _, [] => none
  | st, .inl f, .cmd a :: ts => parseGo st (.inr (f.close (.atom a))) ts
  | st, .inl f, .bang :: ts => parseGo st (.inl { f with bangs := f.bangs + 1 }) ts
  | st, .inl f, .lpar :: ts => parseGo (f :: st) (.inl ⟨none, 0⟩) ts
  | _, .inl _, .rpar :: _ => none
  | _, .inl _, .and :: _ => none
  | _, .inl _, .or :: _ => none
  | st, .inr e, .and :: ts => parseGo st (.inl ⟨some (e, true), 0⟩) ts
  | st, .inr e, .or :: ts => parseGo st (.inl ⟨some (e, false), 0⟩) ts
  | f :: st, .inr e, .rpar :: ts => parseGo st (.inr (f.close e)) ts
  | [], .inr _, .rpar :: _ => none
  | _, .inr _, .bang :: _ => none
  | _, .inr _, .lpar :: _ => none
  | _, .inr _, .cmd _ :: _ => none

/-- Read a complete token list. -/
def parse {α} (ts : List (Tok α)) : Option (Expr α) := parseGo [] (.inl ⟨none, 0⟩) ts

/-- Exit status (success or not) of a condition text, `none` on a syntax error. -/
def run {α} (v : α → Bool) (ts : List (Tok α)) : Option Bool := (parse ts).map (Expr.eval v)

end ShellGrammar
