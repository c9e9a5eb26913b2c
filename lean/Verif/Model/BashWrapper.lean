import Verif.Model.Cli
import Verif.Model.Shell
import Verif.Model.Helpers
import Verif.Model.BashComplete
/-!
# Model of the Bash function for a program that wraps another one

`_generate_wrapper` and the registration of `generate_completion` in `bash.py`, and the names of `bash_versions.py` that
they use.
-/

namespace CC

/-- `completion_loader`, `bash_versions.py` 27-31. -/
def completionLoader (ctxt : BashCtxt) : Str := versioned ctxt "_comp_complete_load" "_completion_loader"

/-- `command_offset`, `bash_versions.py` 83-87. -/
def commandOffset (ctxt : BashCtxt) : Str := versioned ctxt "_comp_command_offset" "_command_offset"

/-- The first line of `_generate_wrapper`, `bash.py` 173, without the line break. -/
def wrapperLoad (loader wraps : Str) : Str := loader ++ S " " ++ wraps

/-- The function of `_generate_wrapper`, `bash.py` 175-192. -/
def wrapperFunction (offset own wrapper wraps : Str) : Str :=
  wrapper ++ S "() {\n" ++
  S "  local WRAPS=" ++ quote wraps ++ S "\n" ++
  S "  local COMP_LINE_OLD=\"$COMP_LINE\"\n" ++
  S "  local COMP_POINT_OLD=\"$COMP_POINT\"\n" ++
  S "  local COMP_WORDS_OLD=(\"${COMP_WORDS[@]}\")\n" ++
  S "\n" ++
  S "  COMP_LINE=\"${COMP_LINE/$1/$WRAPS}\"\n" ++
  S "  COMP_WORDS[0]=" ++ quote wraps ++ S "\n" ++
  S "  COMP_POINT=$(( COMP_POINT + ${#WRAPS} - ${#1} ))\n" ++
  S "\n" ++
  S "  " ++ offset ++ S " 0\n" ++
  S "\n" ++
  S "  COMP_LINE=\"$COMP_LINE_OLD\"\n" ++
  S "  COMP_POINT=\"$COMP_POINT_OLD\"\n" ++
  S "  COMP_WORDS=(\"${COMP_WORDS_OLD[@]}\")\n" ++
  S "  local COMPREPLY_OLD=(\"${COMPREPLY[@]}\")\n" ++
  S "  " ++ own ++ S " \"$@\"\n" ++
  S "\n" ++
  S "  COMPREPLY=(\"${COMPREPLY_OLD[@]}\" \"${COMPREPLY[@]}\")\n" ++
  S "}"

/-- `_generate_wrapper`, `bash.py` 165-194: the function that is registered, and the code of the wrapper. `pre` is the
prefix of the names of functions. -/
def bashWrapper (ctxt : BashCtxt) (pre : Str) (c : Cmd) : Str × Option Str :=
  let own := completionFuncname pre [c.data.prog] []
  let wrapper := completionFuncname pre [c.data.prog] (S "__wrapper")
  match c.data.wraps with
  | some (w :: ws) =>
    (wrapper, some (wrapperLoad (completionLoader ctxt) (w :: ws) ++ S "\n" ++ S "\n" ++ wrapperFunction (commandOffset ctxt) own wrapper (w :: ws)))
  | _ => (own, none)

/-- The last line of the script, `bash.py` 224-226. -/
def registration (ctxt : BashCtxt) (pre : Str) (c : Cmd) : Str :=
  S "complete -F " ++ (bashWrapper ctxt pre c).1 ++ S " " ++ joinWith [' '] (c.data.prog :: c.data.aliases)

end CC
