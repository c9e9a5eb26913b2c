import Verif.Model.Walk
/-!
# Model of `get_zstyles` in `crazy_complete/zsh.py`

The `zstyle` commands at the end of a Zsh script.
-/

namespace CC

/-- `get_program_name`, `cli.py` 358-362. -/
def rootProg (parents : List Cmd) (c : Cmd) : Str :=
  match parents ++ [c] with
  | [] => []
  | r :: _ => r.data.prog

/-- The line for an option string, `zsh.py` 239. -/
def zstyleOption (prog s : Str) : Str := S "zstyle ':completion:*:*:" ++ prog ++ S ":option" ++ s ++ S "-*' sort false"

/-- The line for a positional, `zsh.py` 243-244. The number is that of the positional in its command. -/
def zstylePositional (prog : Str) (number : Nat) : Str :=
  S "zstyle ':completion:*:*:" ++ prog ++ S ":argument-" ++ natStr number ++ S ":*' sort false"

/-- `get_zstyles`, `zsh.py` 232-245. -/
def getZstyles (parents : List Cmd) (c : Cmd) : List Str :=
  (c.data.options.filter (·.nosort)).flatMap (fun o => o.strings.map (zstyleOption (rootProg parents c))) ++
    (c.data.positionals.filter (·.nosort)).map (fun p => zstylePositional (rootProg parents c) p.number)

/-- The lines of the script, `zsh.py` 284-285. -/
def zstyleLines (root : Cmd) : List Str := (root.walk []).flatMap (fun e => getZstyles e.1 e.2)

/-- The part of the script, `zsh.py` 286-287. It is left out if there are no lines. -/
def zstyleText (root : Cmd) : Str := joinWith ['\n'] (zstyleLines root)

end CC
