import Verif.Model.Sharing
/-!
# What the list completers are meant to use (specification)
-/

namespace CC

/-- The entries written in a dictionary, with their defaults. -/
def writtenOpts (h : OptsHeap) : Option Nat → Str × Bool × List (Str × Str)
  | none => ([','], false, [])
  | some a => ((h a).separator.getD [','], (h a).duplicates.getD false, (h a).rest)

mutual
/-- The completer as written in the definition. -/
def CompDef.written (h : OptsHeap) : CompDef → CompObj
  | .fileList a => .fileList (writtenOpts h a).1 (writtenOpts h a).2.1 (writtenOpts h a).2.2
  | .directoryList a => .directoryList (writtenOpts h a).1 (writtenOpts h a).2.1 (writtenOpts h a).2.2
  | .list c s d => .list (c.written h) s d
  | .combine cs => .combine (CompDef.writtenAll h cs)
  | .keyValues cs => .keyValues (CompDef.writtenAll h cs)
  | .prefix t c => .prefix t (c.written h)
  | .other t => .other t
/-- The completers of a list of definitions as written. -/
def CompDef.writtenAll (h : OptsHeap) : List CompDef → List CompObj
  | [] => []
  | c :: cs => c.written h :: CompDef.writtenAll h cs
end

mutual
/-- The places where dictionaries of `file_list` and `directory_list` are used, in order. -/
def CompDef.uses : CompDef → List Nat
  | .fileList a => a.toList
  | .directoryList a => a.toList
  | .list c _ _ => c.uses
  | .combine cs => CompDef.usesAll cs
  | .keyValues cs => CompDef.usesAll cs
  | .prefix _ c => c.uses
  | .other _ => []
/-- The same for a list of definitions. -/
def CompDef.usesAll : List CompDef → List Nat
  | [] => []
  | c :: cs => c.uses ++ CompDef.usesAll cs
end

/-- The dictionary says nothing but the defaults. -/
def DefaultOpts (o : ListOpts) : Prop := o.separator.getD [','] = [','] ∧ o.duplicates.getD false = false

end CC
