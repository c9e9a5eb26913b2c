import Verif.Model.Py
/-!
# Model of the list completers and of the dictionaries they share

`file_list` and `directory_list` (`shell.py` 147-161) take `separator` and `duplicates` out of their
dictionary with `pop`. The dictionary belongs to the command line: `CommandLine.copy` (`cli.py` 388-435)
hands on the same object, and `replace_defines_in_documents` (`dictionary_source.py` 148-160) puts the same
object in every place where a define is used. So dictionaries have addresses.
-/

namespace CC

/-- The dictionary of a `file_list` or `directory_list`: the two entries that are taken out, and the others. -/
structure ListOpts where
  separator : Option Str := none
  duplicates : Option Bool := none
  rest : List (Str × Str) := []
  deriving DecidableEq

/-- The dictionaries by their addresses. -/
abbrev OptsHeap := Nat → ListOpts

/-- A completer definition, as far as it leads to lists. `none` in place of an address: no dictionary. The
dictionary of `list` is only read (`bash_complete.py` 427-428, `zsh_complete.py` 514-515, `fish_complete.py`
571-572), so its entries are kept here. The definitions of `key_value_list` and `key_value_pair` may lack a
completer. -/
inductive CompDef where
  | fileList (opts : Option Nat)
  | directoryList (opts : Option Nat)
  | list (inner : CompDef) (separator : Str) (duplicates : Bool)
  | combine (parts : List CompDef)
  | keyValues (parts : List CompDef)
  | prefix (text : Str) (inner : CompDef)
  | other (text : Str)

/-- What a completer object is made from. -/
inductive CompObj where
  | fileList (separator : Str) (duplicates : Bool) (rest : List (Str × Str))
  | directoryList (separator : Str) (duplicates : Bool) (rest : List (Str × Str))
  | list (inner : CompObj) (separator : Str) (duplicates : Bool)
  | combine (parts : List CompObj)
  | keyValues (parts : List CompObj)
  | prefix (text : Str) (inner : CompObj)
  | other (text : Str)

/-- `opts.pop('separator', ',')` and `opts.pop('duplicates', False)`, `shell.py` 148-151 and 156-159: the values,
the rest, and the heap afterwards. -/
def popOpts (h : OptsHeap) : Option Nat → (Str × Bool × List (Str × Str)) × OptsHeap
  | none => (([','], false, []), h)
  | some a =>
    (((h a).separator.getD [','], (h a).duplicates.getD false, (h a).rest),
      fun b => if b = a then { h a with separator := none, duplicates := none } else h b)

mutual
/-- Making a completer object: `ShellCompleter.complete`, `shell.py` 89-98, with `file_list`, `directory_list`
147-161, `list`, `combine`, `key_value_list`, `key_value_pair` and `prefix` of the three shells. -/
def CompDef.make (h : OptsHeap) : CompDef → CompObj × OptsHeap
  | .fileList a => let r := popOpts h a; (.fileList r.1.1 r.1.2.1 r.1.2.2, r.2)
  | .directoryList a => let r := popOpts h a; (.directoryList r.1.1 r.1.2.1 r.1.2.2, r.2)
  | .list c s d => let r := c.make h; (.list r.1 s d, r.2)
  | .combine cs => let r := CompDef.makeAll h cs; (.combine r.1, r.2)
  | .keyValues cs => let r := CompDef.makeAll h cs; (.keyValues r.1, r.2)
  | .prefix t c => let r := c.make h; (.prefix t r.1, r.2)
  | .other t => (.other t, h)
/-- The completers of several definitions, one after the other: the parts of `combine` and of the key-value
completers, and the options and positionals of a command line when a script is generated. -/
def CompDef.makeAll (h : OptsHeap) : List CompDef → List CompObj × OptsHeap
  | [] => ([], h)
  | c :: cs => let r := c.make h; let s := CompDef.makeAll r.2 cs; (r.1 :: s.1, s.2)
end

end CC
