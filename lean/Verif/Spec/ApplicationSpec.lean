import Verif.Model.Application
/-!
# What a user of the program asks for (specification)
-/

namespace CC

/-- The name of a file has an extension: it stands behind the last dot, and before that dot there is something else than dots.
Capitals do not matter. -/
def HasExtension (p e : Str) : Prop :=
  ∃ d stem x, p = d ++ stem ++ '.' :: x ∧ lower x = e ∧ '/' ∉ stem ∧ '/' ∉ x ∧ '.' ∉ x ∧ (∃ c ∈ stem, c ≠ '.') ∧ (d = [] ∨ d.getLast? = some '/')

/-- The settings that the options of a command line ask for. -/
structure WantedSettings (o : AppOpts) (c : Settings) : Prop where
  debug : c.debug = o.debug
  functionPrefix : c.functionPrefix = o.functionPrefix
  abbreviateCommands : c.base.abbreviateCommands = o.abbreviateCommands
  abbreviateOptions : c.base.abbreviateOptions = o.abbreviateOptions
  repeatableOptions : c.base.repeatableOptions = o.repeatableOptions
  inheritOptions : c.base.inheritOptions = o.inheritOptions
  optionStacking : c.optionStacking = o.optionStacking
  longSep : (o.longSep, c.base.longSep) ∈ [(S "space", LongSep.space), (S "equals", .equals), (S "both", .both)]
  vimModeline : c.vimModeline = o.vimModeline
  bashVersion : c.bashVersion = o.bashVersion
  zshCompdef : c.zshCompdef = o.zshCompdef
  fishInline : c.fishInline = o.fishInline
  includeFiles : c.includeFiles = o.includeFile.getD []
  comments : c.comments = o.comment.getD []
  keepComments : c.keepComments = o.keepComments
  bounded : 0 < o.maxLineLength → ∃ n, c.lineLength = some n ∧ (n : Int) = o.maxLineLength
  unbounded : o.maxLineLength ≤ 0 → c.lineLength = none
  hidden : c.base.disabledHidden = true ↔ S "hidden" ∈ o.disable
  final : c.base.disabledFinal = true ↔ S "final" ∈ o.disable
  groups : c.base.disabledGroups = true ↔ S "groups" ∈ o.disable
  repeatable : c.base.disabledRepeatable = true ↔ S "repeatable" ∈ o.disable
  when_ : c.base.disabledWhen = true ↔ S "when" ∈ o.disable

/-- The command line that the definition file defines, if it is no Python file. -/
inductive DefinedBy (E : AppEnv) (o : AppOpts) (w : Disk) : Cmd → Prop
  | json {s c} : o.inputType = .json ∨ (o.inputType = .auto ∧ HasExtension o.definitionFile (S "json")) →
      w.files o.definitionFile = some s → E.json s = .ok c → DefinedBy E o w c
  | yaml {s c} : o.inputType = .yaml ∨ (o.inputType = .auto ∧ (HasExtension o.definitionFile (S "yaml") ∨ HasExtension o.definitionFile (S "yml"))) →
      w.files o.definitionFile = some s → E.yaml s = .ok c → DefinedBy E o w c

/-- The text that is asked for, of a command line. -/
inductive Rendered (E : AppEnv) (o : AppOpts) (w : Disk) (c : Cmd) : Str → Prop
  | json {t} : o.shell = .json → E.toJson c = .ok t → Rendered E o w c t
  | yaml {t} : o.shell = .yaml → E.toYaml c = .ok t → Rendered E o w c t
  | bash {t conf} : o.shell = .bash → WantedSettings o conf → E.bash c conf w.files = .ok t → Rendered E o w c t
  | fish {t conf} : o.shell = .fish → WantedSettings o conf → E.fish c conf w.files = .ok t → Rendered E o w c t
  | zsh {t conf} : o.shell = .zsh → WantedSettings o conf → E.zsh c conf w.files = .ok t → Rendered E o w c t

/-- Where the text goes: to the screen, into a file, or the file for it is removed. -/
inductive Place where
  | screen
  | file (p : Str)
  | gone (p : Str)

/-- The directories and the names of the files of installed scripts. -/
inductive InstalledAt (E : AppEnv) (prog : Str) : OutKind → Str → Prop
  | bash {d} : E.pkgConfig (S "bash-completion") = some d → InstalledAt E prog .bash (d ++ ['/'] ++ prog)
  | bash' : E.pkgConfig (S "bash-completion") = none → InstalledAt E prog .bash (S "/usr/share/bash-completion/completions/" ++ prog)
  | fish {d} : E.pkgConfig (S "fish") = some d → InstalledAt E prog .fish (d ++ ['/'] ++ prog ++ S ".fish")
  | fish' : E.pkgConfig (S "fish") = none → InstalledAt E prog .fish (S "/usr/share/fish/vendor_completions.d/" ++ prog ++ S ".fish")
  | zsh : InstalledAt E prog .zsh (S "/usr/share/zsh/site-functions/_" ++ prog)

/-- The place that is asked for. -/
inductive Asked (E : AppEnv) (o : AppOpts) (prog : Str) : Place → Prop
  | screen : o.install = false → o.uninstall = false → o.outputFile = none → Asked E o prog .screen
  | file {p} : o.install = false → o.uninstall = false → o.outputFile = some p → Asked E o prog (.file p)
  | install {p} : o.install = true → InstalledAt E prog o.shell p → Asked E o prog (.file p)
  | uninstall {p} : o.install = false → o.uninstall = true → InstalledAt E prog o.shell p → Asked E o prog (.gone p)

/-- A text and the place for it that are asked for, if the definition is no Python file. -/
inductive Wish (E : AppEnv) (o : AppOpts) (w : Disk) : Str → Place → Prop
  | help {s t pl} : o.inputType = .help → o.shell = .yaml → w.files o.definitionFile = some s → E.help s = .ok t → Asked E o [] pl → Wish E o w t pl
  | definition {c t pl} : DefinedBy E o w c → Rendered E o w c t → Asked E o c.data.prog pl → Wish E o w t pl

/-- The outside with a text at its place; nothing else is different. -/
def Delivered (w w' : Disk) (t : Str) : Place → Prop
  | .screen => w' = { w with out := w.out ++ t ++ ['\n'] }
  | .file p => w'.files p = some t ∧ (∀ q, q ≠ p → w'.files q = w.files q) ∧ w'.out = w.out ∧ w'.modules = w.modules ∧ w'.path = w.path
  | .gone p => w.files p ≠ none ∧ w'.files p = none ∧ (∀ q, q ≠ p → w'.files q = w.files q) ∧ w'.out = w.out ∧ w'.modules = w.modules ∧
      w'.path = w.path

/-- The system lets the program put a text there. -/
def Allowed (E : AppEnv) (w : Disk) : Place → Prop
  | .screen => True
  | .file p => E.writable p = true
  | .gone p => w.files p ≠ none ∧ E.removable p = true

/-- Reading definitions and making texts do not end the program. -/
structure NoExit (E : AppEnv) : Prop where
  json : ∀ s n, E.json s ≠ .error (.exit n)
  yaml : ∀ s n, E.yaml s ≠ .error (.exit n)
  help : ∀ s n, E.help s ≠ .error (.exit n)
  toJson : ∀ c n, E.toJson c ≠ .error (.exit n)
  toYaml : ∀ c n, E.toYaml c ≠ .error (.exit n)
  bash : ∀ c s f n, E.bash c s f ≠ .error (.exit n)
  fish : ∀ c s f n, E.fish c s f ≠ .error (.exit n)
  zsh : ∀ c s f n, E.zsh c s f ≠ .error (.exit n)

/-- Of the outside, making a script reads only the files to include. -/
structure ReadsIncluded (E : AppEnv) : Prop where
  bash : ∀ c s f g, (∀ q ∈ s.includeFiles, f q = g q) → E.bash c s f = E.bash c s g
  fish : ∀ c s f g, (∀ q ∈ s.includeFiles, f q = g q) → E.fish c s f = E.fish c s g
  zsh : ∀ c s f g, (∀ q ∈ s.includeFiles, f q = g q) → E.zsh c s f = E.zsh c s g

/-- The jobs in the lines of a batch: empty lines and comments are skipped. -/
inductive Jobs (E : AppEnv) : List Str → List AppOpts → Prop
  | nil : Jobs E [] []
  | empty {l ls os} : (∀ c ∈ l, pyIsSpace c = true) → Jobs E ls os → Jobs E (l :: ls) os
  | comment {l ls os a b} : l = a ++ '#' :: b → (∀ c ∈ a, pyIsSpace c = true) → Jobs E ls os → Jobs E (l :: ls) os
  | job {l ls os args o} : strip l ≠ [] → (strip l).head? ≠ some '#' → E.split (strip l) = .ok args → E.askManual args = .ok none →
      E.askBatch args = .ok none → E.parse args = .ok o → Jobs E ls os → Jobs E (l :: ls) (o :: os)

/-- Runs one after the other, until one fails. -/
inductive Runs (E : AppEnv) : List AppOpts → Disk → List Act → Except AppErr Unit → Prop
  | nil {w} : Runs E [] w [] (.ok ())
  | fail {o os w x} : (generate E o w).result = .error x → Runs E (o :: os) w (generate E o w).acts (.error x)
  | next {o os w l r} : (generate E o w).result = .ok () → Runs E os (w.after E (generate E o w).acts) l r →
      Runs E (o :: os) w ((generate E o w).acts ++ l) r

end CC
