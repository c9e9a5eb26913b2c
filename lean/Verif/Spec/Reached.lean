import Verif.Spec.CliSpec
/-!
# Which command is meant after some positionals (specification)
-/

namespace CC

/-- The word selects the subcommand `d` of `c`: it is its name or an alias, or, if commands may be
abbreviated, the beginning of its name but not of the name of another subcommand. -/
def SelectsSub (c d : Cmd) (w : Str) : Prop :=
  w = d.data.prog ∨ w ∈ d.data.aliases ∨
  (d.data.abbreviateCommands = .val true ∧ w ≠ [] ∧ w <+: d.data.prog ∧
    ∀ e ∈ c.children, e.data.prog ≠ d.data.prog → ¬ w <+: e.data.prog)

/-- The place (from 0) among the positionals of the word that names a subcommand of `c`: after the words
of the parents and the positionals of `c`. -/
def SubPlace (parents : List Cmd) (c : Cmd) (n : Nat) : Prop :=
  c.sub.isSome = true ∧ n = (parents.map width).sum + (c.data.positionals.map (·.number)).foldr max 0

instance (parents : List Cmd) (c : Cmd) (n : Nat) : Decidable (SubPlace parents c n) :=
  inferInstanceAs (Decidable (_ ∧ _))

/-- `Reached root ps parents c`: after the positionals `ps`, the words typed belong to the command
`c`, whose parents are `parents`. A positional at the place of the subcommand must name a
subcommand and selects it; other positionals stay in the command. -/
inductive Reached (root : Cmd) : List Str → List Cmd → Cmd → Prop
  | start : Reached root [] [] root
  | word {ps parents c} (w : Str) : Reached root ps parents c → ¬ SubPlace parents c ps.length →
      Reached root (ps ++ [w]) parents c
  | sub {ps parents c d w} : Reached root ps parents c → SubPlace parents c ps.length →
      d ∈ c.children → SelectsSub c d w → Reached root (ps ++ [w]) (parents ++ [c]) d

/-- No word names two subcommands of the same command, no name is empty, siblings have different
names, and the place of the subcommand is the one after the positionals; throughout the tree. -/
structure CleanTree (root : Cmd) : Prop where
  distinct : ∀ parents c, At root parents c → ∀ d ∈ c.children, ∀ e ∈ c.children, ∀ w,
    SelectsSub c d w → SelectsSub c e w → d = e
  nonempty : ∀ parents c, At root parents c → ∀ d ∈ c.children, d.data.prog ≠ [] ∧ [] ∉ d.data.aliases
  names : ∀ parents c, At root parents c → (c.children.map (fun x => x.data.prog)).Nodup
  numbered : ∀ parents c, At root parents c → WellNumbered c
  slot : ∀ parents c, At root parents c → c.children ≠ [] → c.sub.isSome = true

/-- The commands of a chain, each with the commands before it. -/
def chainEntries : List Cmd → List Cmd → List (List Cmd × Cmd)
  | _, [] => []
  | ps, c :: cs => (ps, c) :: chainEntries (ps ++ [c]) cs

end CC
