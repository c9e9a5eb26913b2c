import Verif.Spec.KnownOption
import Verif.Spec.Cmdline
import Verif.Model.BashParser
/-!
# What a Bash command line parser has to record (specification)

The words before the cursor are a sequence of items and an ending (`Spec/Cmdline.lean`), `cur` is the
word at the cursor and `post` are the words after it.
-/

namespace CC

/-- `optAt` knows, after the positionals `ps`, which option a word names: the one which the
specification names for the command reached. -/
def KnowsOptions (root : Cmd) (optAt : List Str → Str → Option Opt) : Prop :=
  ∀ ps parents c, Reached root ps parents c → ∀ s o, optAt ps s = some o ↔ KnownOption parents c s o

/-- The entry for an option: its variable, and the argument or a mark that it is set. -/
def optionEntry (opt : Str → Option Opt) (o : Str × Option Str) : Str × Str :=
  (((opt o.1).map captureVariable).getD [], o.2.getD (S "_OPT_ISSET_"))

/-- The entries for the items. -/
def itemEntries (optAt : List Str → Str → Option Opt) : List Str → List Item → List (Str × Str)
  | _, [] => []
  | ps, it :: its => it.options.map (optionEntry (optAt ps)) ++ itemEntries optAt (ps ++ it.positionals) its

/-- The entries for the ending. If an argument is missing there, it is the word at the cursor. -/
def lastEntries (opt : Str → Option Opt) (cur : Str) (e : Ending) : List (Str × Str) :=
  e.options.map (optionEntry opt) ++ (e.incomplete.map (fun n => optionEntry opt (n, some cur))).toList

/-- The options meant by the items typed, in order, each with its value or the mark. -/
def itemOptions (optAt : List Str → Str → Option Opt) : List Str → List Item → List (Opt × Str)
  | _, [] => []
  | ps, it :: its => it.options.filterMap (fun o => (optAt ps o.1).map (fun x => (x, o.2.getD (S "_OPT_ISSET_")))) ++
      itemOptions optAt (ps ++ it.positionals) its

/-- The options meant by the ending. -/
def lastOptions (opt : Str → Option Opt) (cur : Str) (e : Ending) : List (Opt × Str) :=
  (e.options ++ (e.incomplete.map (fun n => (n, some cur))).toList).filterMap
    (fun o => (opt o.1).map (fun x => (x, o.2.getD (S "_OPT_ISSET_"))))

/-- The positionals of the ending: after `--` all words; the word at the cursor, unless it looks like an
option or is the argument of one. -/
def endingPositionals (cur : Str) (post : List Str) : Ending → List Str
  | .done => match cur with
    | '-' :: _ :: _ => []
    | _ => [cur]
  | .dashes ws => ws ++ cur :: post
  | .word _ => []
  | .cluster _ _ => []

/-- The line has a `--`. -/
def Ending.isDashes : Ending → Bool
  | .dashes _ => true
  | _ => false

end CC
