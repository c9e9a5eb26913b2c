import Verif.Model.Cli
/-!
# Commands inside a tree
-/

namespace CC

/-- `At root parents c`: `c` is a command of the tree `root`, and `parents` are its ancestors from
the root down. -/
inductive At (root : Cmd) : List Cmd → Cmd → Prop
  | root : At root [] root
  | child {parents c d} : At root parents c → d ∈ c.children → At root (parents ++ [c]) d

/-- `-x` -/
def IsShort (s : Str) : Prop := ∃ c, s = ['-', c] ∧ c ≠ '-'
/-- `--xyz` -/
def IsLong (s : Str) : Prop := ∃ c cs, s = '-' :: '-' :: c :: cs
/-- `-xyz` -/
def IsOld (s : Str) : Prop := ∃ c d cs, s = '-' :: c :: d :: cs ∧ c ≠ '-'

/-- The options share a mutually exclusive group. -/
def ShareGroup (a b : Opt) : Prop := ∃ g ga gb, a.groups = some ga ∧ b.groups = some gb ∧ g ∈ ga ∧ g ∈ gb


/-- What an option string looks like: a dash, then one or more characters other than blanks and
commas, and not `--`. -/
def IsOption (o : Str) : Prop :=
  o ≠ ['-', '-'] ∧ ∃ c cs, o = '-' :: c :: cs ∧ ∀ x ∈ c :: cs, pyIsSpace x = false ∧ x ≠ ','

/-- The number of command line words that the positionals of a command and its subcommand slot
occupy: the highest positional number, plus one if there are subcommands. -/
def width (c : Cmd) : Nat :=
  (c.data.positionals.map (·.number)).foldr max 0 + (if c.sub.isSome then 1 else 0)

/-- The subcommand slot has the number after the highest positional. -/
def WellNumbered (c : Cmd) : Prop :=
  ∀ n, c.sub = some n → n = (c.data.positionals.map (·.number)).foldr max 0 + 1

/-- The command at an address (a list of child positions). -/
def Cmd.at : Cmd → List Nat → Option Cmd
  | c, [] => some c
  | .node _ _ ch, i :: is => match ch[i]? with
    | none => none
    | some c => c.at is

/-- Lexicographic order of addresses: a command comes before its subcommands, and siblings come in
their order. -/
def addrLt : List Nat → List Nat → Prop
  | _, [] => False
  | [], _ :: _ => True
  | i :: is, j :: js => i < j ∨ (i = j ∧ addrLt is js)

/-- The options of a command that a caller asks for: all, or only those with an argument. -/
def eligible (onlyArgs : Bool) (c : Cmd) : List Opt :=
  c.data.options.filter (fun o => !onlyArgs || truthyList o.complete)

/-- The commands that a caller asks for: the command and, if wanted, its ancestors, nearest first. -/
def searched (parents : List Cmd) (c : Cmd) (withParents : Bool) : List Cmd :=
  if withParents then c :: parents.reverse else [c]

/-- The names along an address, starting with the name of the root. -/
def Cmd.namesAt : Cmd → List Nat → Option (List Str)
  | c, [] => some [c.data.prog]
  | .node d _ ch, i :: is => match ch[i]? with
    | none => none
    | some c => (c.namesAt is).map (d.prog :: ·)

/-- Subcommands of every command have different names. -/
def UniqueNames (c : Cmd) : Prop :=
  ∀ a x, c.at a = some x → (x.children.map (fun y => y.data.prog)).Nodup

/-- Being built by calls of the API. `Api none c`: the command line `c` can be built.
`Api (some a) b`: one call, on `a` or on a command inside `a`, turns `a` into `b`. -/
inductive Api : Option Cmd → Cmd → Prop
  | new {d} : d.check = true → d.options = [] → d.positionals = [] → Api none (.node d none [])
  | step {a b} : Api none a → Api (some a) b → Api none b
  | addOption {d s ch o o'} : Opt.init o = .ok o' →
      Api (some (.node d s ch)) (.node { d with options := d.options ++ [o'] } s ch)
  | addPositional {d s ch p p'} : Pos.init p = .ok p' →
      Api (some (.node d s ch)) (.node { d with positionals := d.positionals ++ [p'] } s ch)
  | addToGroup {d s ch pre o post g} : d.options = pre ++ o :: post →
      Api (some (.node d s ch)) (.node { d with options := pre ++ { o with groups := some [g] } :: post } s ch)
  | addSubcommands {a b} : a.addSubcommands = .ok b → Api (some a) b
  | addSubcommand {d n ch c ch'} : Api none c → addSub ch c = .ok ch' →
      Api (some (.node d (some n) ch)) (.node d (some n) ch')
  | inside {d s pre a post b} : Api (some a) b →
      Api (some (.node d s (pre ++ a :: post))) (.node d s (pre ++ b :: post))

mutual
/-- The same command line with every subcommand slot numbered after the positionals. -/
def Cmd.renumber : Cmd → Cmd
  | .node d s ch => .node d (s.map (fun _ => (d.positionals.map (·.number)).foldr max 0 + 1)) (Cmd.renumberList ch)
/-- The same for a list. -/
def Cmd.renumberList : List Cmd → List Cmd
  | [] => []
  | c :: cs => c.renumber :: Cmd.renumberList cs
end

end CC
