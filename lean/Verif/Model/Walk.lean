import Verif.Model.Cli
import Verif.Model.Abbrev
/-!
# Commands with their parents, and their names
-/

namespace CC

mutual
/-- `get_all_commandlines`, `cli.py` 373-386, where every command comes with its parents
(`get_parents`, `cli.py` 266-286), which Python reads from the parent link. -/
def Cmd.walk (parents : List Cmd) : Cmd → List (List Cmd × Cmd)
  | .node d s ch => (parents, .node d s ch) :: Cmd.walkList (parents ++ [.node d s ch]) ch
/-- The loop over the subcommands. -/
def Cmd.walkList (parents : List Cmd) : List Cmd → List (List Cmd × Cmd)
  | [] => []
  | c :: cs => c.walk parents ++ Cmd.walkList parents cs
end

/-- `get_all_command_variations`, `utils.py` 173-190, for a subcommand `c` of `p`. The KeyError of
`get_abbreviations` cannot occur, `c` being a subcommand of `p`. -/
def variations (p c : Cmd) : List Str :=
  (if c.data.abbreviateCommands = .val true then
    abbreviationsOf 1 (p.children.map (fun x => x.data.prog)) c.data.prog
  else [c.data.prog]) ++ c.data.aliases

/-- The position (from 0) of the word that names the subcommand: `get_subcommands()` and
`get_positional_index`, `cli.py` 539-558. -/
def subSlot (parents : List Cmd) (c : Cmd) : Option Nat := c.sub.map (positionalIndex parents)

end CC
