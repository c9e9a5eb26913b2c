import Verif.Model.BashValueList
/-!
# Model of the helper functions for the completer `commandline_string`, `bash_helpers.py` 74-204
-/

namespace CC

/-- The `for` loop for double quotes, `bash_helpers.py` 92-99. It starts at the opening quote. The word and the rest. -/
def copyDouble : Str → Str → Str × Str
  | [], word => (word, [])
  | c :: cs, word =>
    if c = '\\' then
      match cs with
      | [] => (word, [])
      | x :: xs => copyDouble xs (word ++ [x])
    else if c = '"' then (word ++ [c], cs)
    else copyDouble cs (word ++ [c])

/-- The `for` loop for single quotes, `bash_helpers.py` 102-105. It starts at the opening quote. -/
def copySingle : Str → Str → Str × Str
  | [], word => (word, [])
  | c :: cs, word => if c = '\'' then (word ++ [c], cs) else copySingle cs (word ++ [c])

/-- The variables `out`, `word` and `active` of `parse_line`. -/
structure LineState where
  out : List Str := []
  word : Str := []
  active : Bool := false

/-- The outer loop of `parse_line`, `bash_helpers.py` 83-115. The rest of the text gets shorter in every step; the
number bounds the steps. -/
def parseLoop : Nat → Str → LineState → LineState
  | 0, _, st => st
  | _, [], st => st
  | n + 1, c :: cs, st =>
    if c = ' ' then
      parseLoop n cs (if st.active then { out := st.out ++ [st.word], word := [], active := false } else st)
    else if c = '"' then
      let r := copyDouble (c :: cs) st.word
      parseLoop n r.2 { st with word := r.1, active := true }
    else if c = '\'' then
      let r := copySingle (c :: cs) st.word
      parseLoop n r.2 { st with word := r.1, active := true }
    else if c = '\\' then
      match cs with
      | [] => { st with word := st.word ++ [c], active := true }
      | x :: xs => parseLoop n xs { st with word := st.word ++ [c, x], active := true }
    else parseLoop n cs { st with word := st.word ++ [c], active := true }

/-- The end of `parse_line`, `bash_helpers.py` 117-121. -/
def parseEnd (line : Str) (st : LineState) : List Str :=
  if st.active then st.out ++ [st.word]
  else if line.getLast? = some ' ' then st.out ++ [[]]
  else st.out

/-- `parse_line`, `bash_helpers.py` 74-122. -/
def parseLine (line : Str) : List Str :=
  if line.isEmpty then [[]] else parseEnd line (parseLoop line.length line {})

/-- The loop of `get_prefix_suffix_len`, `bash_helpers.py` 137-152, for `k`. -/
def overlapLoop (s1 s2 : Str) : Nat → Nat
  | 0 => s1.length
  | k + 1 => if s1.drop (s1.length - (k + 1)) = s2.take (k + 1) then s1.length - (k + 1) else overlapLoop s1 s2 k

/-- `get_prefix_suffix_len`, `bash_helpers.py` 124-155. -/
def prefixSuffixLen (s1 s2 : Str) : Nat := overlapLoop s1 s2 (min s1.length s2.length)

/-- `commandline_string`, `bash_helpers.py` 157-204: `$COMPREPLY` after the call. `offset words` is what the command
offset function of bash-completion leaves in `$COMPREPLY` for `COMP_WORDS=words` and the last one as the current word;
`printfQ` is `printf %q`. -/
def commandlineString (breaks : List Char) (offset : List Str → List Str) (printfQ : Str → Str) (cur : Str) : List Str :=
  let d := dequote breaks cur
  let replies := offset (parseLine d.result)
  let line := afterBreak d.breakPos d.result
  match replies with
  | [] => []
  | first :: _ =>
    let kept := line.take (prefixSuffixLen line first)
    replies.map (fun r => if d.inQuotes then kept ++ r else printfQ (kept ++ r))

end CC
