import Verif.Model.Py
/-!
# File extension patterns: `bash_utils.make_file_extension_pattern` and `fish_complete._get_extension_regex`

`str.isalpha`, `lower` and `upper` are modelled for ASCII letters only.
-/

namespace CC

/-- `'[%s%s]' % (c.lower(), c.upper())`. -/
def bothCases (c : Char) : Str := ['[', asciiLower c, asciiUpper c, ']']

/-- The inner loop of `make_file_extension_pattern`, `bash_utils.py` 96-102. -/
def bashExtension (e : Str) : Str := e.flatMap (fun c => if c.isAlpha then bothCases c else [c])

/-- `make_file_extension_pattern`, `bash_utils.py` 84-109. -/
def bashExtensionPattern (exts : List Str) (fuzzy : Bool) : Str :=
  ['@', '('] ++ joinWith ['|'] (exts.map bashExtension) ++ [')'] ++ (if fuzzy then ['*'] else [])

/-- One character of `_get_extension_regex`, `fish_complete.py` 156-161. -/
def fishExtChar (c : Char) : Str :=
  if c.isAlpha then bothCases c else if c = '.' ∨ c = '+' then ['\\', c] else [c]

/-- `_get_extension_regex`, `fish_complete.py` 150-168. -/
def fishExtensionRegex (exts : List Str) (fuzzy : Bool) : Str :=
  joinWith ['|'] (exts.map (fun e =>
    ['('] ++ (S ".*\\." ++ e.flatMap fishExtChar ++ (if fuzzy then S ".*" else [])) ++ [')']))

end CC
