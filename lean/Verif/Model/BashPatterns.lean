import Verif.Model.Algo
import Verif.Model.Cli
/-!
# Model of `crazy_complete/bash_patterns.py`
-/

namespace CC

/-- `TrieNode`, `bash_patterns.py` 11-18. The children are in insertion order. -/
inductive Trie where
  | node (terminal : Bool) (children : List (Char × Trie))

/-- `node.children[char]` on a `defaultdict`, together with the update of the child. -/
def updateChild (f : Trie → Trie) (c : Char) : List (Char × Trie) → List (Char × Trie)
  | [] => [(c, f (.node false []))]
  | (d, t) :: r => if d = c then (d, f t) :: r else (d, t) :: updateChild f c r

/-- `TrieNode.insert`, `bash_patterns.py` 20-26. -/
def Trie.insert : Str → Trie → Trie
  | [], .node _ ch => .node true ch
  | c :: s, .node t ch => .node t (updateChild (Trie.insert s) c ch)

/-- `sorted(map(int, parts))` unless a part is not a number, `bash_patterns.py` 34. -/
def partInts (parts : List Str) : Option (List Int) := (parts.mapM pyInt).map sortInts

/-- `"@(" + "|".join(sorted(parts)) + ")"`, `bash_patterns.py` 40. -/
def altPattern (parts : List Str) : Str := ['@', '('] ++ joinWith ['|'] (sortStrs parts) ++ [')']

/-- `_build_pattern`, `bash_patterns.py` 29-40. -/
def buildPattern (parts : List Str) : Str := match parts with
  | [p] => p
  | _ => match partInts parts with
    | some ints =>
      if numbersAreContiguous ints then
        ['['] ++ intStr (ints.head?.getD 0) ++ ['-'] ++ intStr (ints.getLast?.getD 0) ++ [']']
      else altPattern parts
    | none => altPattern parts

mutual
/-- `trie_to_pattern`, `bash_patterns.py` 43-62. `token` if `sub` is empty and `token + sub` otherwise
are the same. -/
def Trie.toPattern : Trie → Str
  | .node t ch => if ch.isEmpty then [] else buildPattern (Trie.parts ch ++ if t then [[]] else [])
/-- The parts for the children. -/
def Trie.parts : List (Char × Trie) → List Str
  | [] => []
  | (c, t) :: r => (c :: t.toPattern) :: Trie.parts r
end

/-- `compact_glob_trie`, `bash_patterns.py` 65-79. -/
def compactGlobTrie (strings : List Str) : Str := match sortStrs (uniq strings) with
  | [s] => s
  | l => (l.foldl (fun (t : Trie) s => Trie.insert s t) (Trie.node false [])).toPattern

/-- `make_pattern`, `bash_patterns.py` 82-88. -/
def makePattern (strings : List Str) : Str :=
  let candidate0 := joinWith ['|'] strings
  let candidate1 := compactGlobTrie strings
  if candidate0.length < candidate1.length then candidate0 else candidate1

end CC
