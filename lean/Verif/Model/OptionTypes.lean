import Verif.Model.FishQuery
/-!
# Model of `utils.get_defined_option_types` and of the choice of parts of the query helpers
-/

namespace CC

/-- The named tuple of `get_defined_option_types`, `utils.py` 243-254, without the three fields that
are computed from others. -/
structure OptionTypes where
  positionals : Bool := false
  subcommands : Bool := false
  shortRequired : Bool := false
  shortOptional : Bool := false
  shortFlag : Bool := false
  longRequired : Bool := false
  longOptional : Bool := false
  longFlag : Bool := false
  oldRequired : Bool := false
  oldOptional : Bool := false
  oldFlag : Bool := false
  deriving DecidableEq, Repr

/-- `types.short`, `utils.py` 250. -/
def OptionTypes.short (t : OptionTypes) : Bool := t.shortRequired || t.shortOptional || t.shortFlag
/-- `types.long`, `utils.py` 252. -/
def OptionTypes.long (t : OptionTypes) : Bool := t.longRequired || t.longOptional || t.longFlag
/-- `types.old`, `utils.py` 254. -/
def OptionTypes.old (t : OptionTypes) : Bool := t.oldRequired || t.oldOptional || t.oldFlag

/-- The long option strings of an option, `utils.py` 218-224. -/
def OptionTypes.addLong (t : OptionTypes) (o : Opt) : OptionTypes :=
  if o.longStrings.isEmpty then t
  else if o.hasRequiredArg then { t with longRequired := true }
  else if o.hasOptionalArg then { t with longOptional := true }
  else { t with longFlag := true }

/-- The old-style option strings of an option, `utils.py` 226-232. -/
def OptionTypes.addOld (t : OptionTypes) (o : Opt) : OptionTypes :=
  if o.oldStrings.isEmpty then t
  else if o.hasRequiredArg then { t with oldRequired := true }
  else if o.hasOptionalArg then { t with oldOptional := true }
  else { t with oldFlag := true }

/-- The short option strings of an option, `utils.py` 234-240. -/
def OptionTypes.addShort (t : OptionTypes) (o : Opt) : OptionTypes :=
  if o.shortStrings.isEmpty then t
  else if o.hasRequiredArg then { t with shortRequired := true }
  else if o.hasOptionalArg then { t with shortOptional := true }
  else { t with shortFlag := true }

/-- One option, `utils.py` 217-240. -/
def OptionTypes.addOption (t : OptionTypes) (o : Opt) : OptionTypes :=
  ((t.addLong o).addOld o).addShort o

/-- One command, `utils.py` 209-240. -/
def OptionTypes.addCmd (t : OptionTypes) (c : Cmd) : OptionTypes :=
  let t := if c.data.positionals.isEmpty then t else { t with positionals := true }
  let t := if c.sub.isSome && !c.children.isEmpty then { t with positionals := true, subcommands := true } else t
  c.data.options.foldl OptionTypes.addOption t

/-- `get_defined_option_types`, `utils.py` 193-254. -/
def definedOptionTypes (root : Cmd) : OptionTypes := root.all.foldl OptionTypes.addCmd {}

/-- The Zsh helper `query` as it is put into the script: the parts of `zsh.py` 260-267. `opts` is the
option table given in a call. -/
def zshQueryOf (root : Cmd) (opts : Str) (q : Str → Str) (words : List Str) : Parsed :=
  let t := definedOptionTypes root
  zshQueryInit t.long t.short t.old opts q words

/-- The Fish helper `query_init` as it is put into the script: the parts of `fish.py` 290-299. The
definitions are those of `fish_prepare.py`. -/
def fishQueryOf (root : Cmd) (words : List Str) : Parsed :=
  let t := definedOptionTypes root
  fishQueryInit t.long t.short t.old t.subcommands (fishTreeDefs root) words

end CC
