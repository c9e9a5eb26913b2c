import Verif.Spec.Glob
/-!
# Globs of Bash and of Zsh

Two contexts for the reader of `Spec/Glob.lean`. Both describe a pattern that stands on its own, not as
part of a command: quotes are honoured, but characters such as `;` have no meaning unless stated.
-/

namespace CC

/-- A pattern of Bash with `extglob`, as in `[[ word == pattern ]]`. Expansions are not described, and
neither are brackets in brackets: character classes such as `[[:alpha:]]`, and `]` as the first
character of a bracket expression. -/
def bashGlob : GlobCtx where
  ext := true
  paren := false
  special c := (S "$`").contains c
  clsSpecial c := (S "$`[]").contains c

/-- A pattern in a list of patterns of Zsh with `EXTENDED_GLOB` and without `KSH_GLOB`: parentheses group
alternatives, unquoted blanks separate patterns. The operators `# ^ ~ < >` are not described, and neither
are expansions. -/
def zshGlob : GlobCtx where
  ext := false
  paren := true
  special c := (S "#^~<>$`&; \t\n").contains c
  clsSpecial c := (S "$`[]^ \t\n").contains c

mutual
/-- Every literal character of a pattern satisfies `L` and every range in brackets satisfies `R`. A
single character in brackets is a range from it to itself. -/
def Glob.Each (L : Char → Prop) (R : Char × Char → Prop) : Glob → Prop
  | .lit c => L c
  | .any => True
  | .star => True
  | .cls _ rs => ∀ r ∈ rs, R r
  | .ext _ alts => Glob.AltEach L R alts
/-- The same for a sequence of elements. -/
def Glob.SeqEach (L : Char → Prop) (R : Char × Char → Prop) : List Glob → Prop
  | [] => True
  | g :: gs => g.Each L R ∧ Glob.SeqEach L R gs
/-- The same for alternatives. -/
def Glob.AltEach (L : Char → Prop) (R : Char × Char → Prop) : List (List Glob) → Prop
  | [] => True
  | g :: gs => Glob.SeqEach L R g ∧ Glob.AltEach L R gs
end

end CC
