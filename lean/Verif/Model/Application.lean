import Verif.Model.Generation
import Verif.Model.HelpConverter
/-!
# Model of `crazy_complete/application.py`, `config.py`, `paths.py`, `file_loader.py` and of the script `crazy-complete`

What the program does to the outside is a list of actions; a crash at any moment leaves what a prefix of the list does. Functions
that are modelled elsewhere (reading a definition, making a script) and Python itself (the modules `json`, `yaml`, `argparse`,
`shlex`) are fields of `AppEnv`. Messages on the error output are left out.
-/

namespace CC

/-! ## Values of command line options, `application.py` 27-51 -/

/-- `boolean`, `application.py` 27-33. -/
def boolOfStr (s : Str) : Option Bool :=
  if lower s = S "true" then some true else if lower s = S "false" then some false else none

/-- `version`, `application.py` 36-39. -/
def versionOfStr (s : Str) : Option (List Int) := (splitOn '.' s).mapM pyInt

/-- The names in `feature_list`, `application.py` 48. -/
def featureNames : List Str := [S "hidden", S "final", S "groups", S "repeatable", S "when"]

/-- `feature_list`, `application.py` 42-51. -/
def featureList (s : Str) : Option (List Str) :=
  if (splitOn ',' s).all (fun f => featureNames.contains f) then some (splitOn ',' s) else none

/-! ## Settings -/

/-- All fields of `Config`, `config.py` 23-48, with their defaults. Those that `_apply_config` reads are in `base`. -/
structure Settings where
  base : Config := {}
  functionPrefix : Str := S "_$PROG"
  debug : Bool := false
  optionStacking : Bool := true
  vimModeline : Bool := true
  includeFiles : List Str := []
  comments : List Str := []
  keepComments : Bool := false
  /-- `none` is `sys.maxsize`. -/
  lineLength : Option Nat := some 80
  bashVersion : List Int := [2]
  zshCompdef : Bool := true
  fishInline : Bool := false

/-- The outputs, `application.py` 62-64. -/
inductive OutKind where
  | bash | fish | zsh | json | yaml
  deriving DecidableEq

/-- The inputs, `application.py` 83-85. -/
inductive InKind where
  | yaml | json | python | help | auto
  deriving DecidableEq

/-- The result of `parse_args`, `application.py` 56-190, with the defaults. -/
structure AppOpts where
  shell : OutKind
  definitionFile : Str
  inputType : InKind := .auto
  parserVariable : Option Str := none
  abbreviateCommands : Bool := false
  abbreviateOptions : Bool := false
  repeatableOptions : Bool := false
  inheritOptions : Bool := false
  optionStacking : Bool := true
  longSep : Str := S "both"
  disable : List Str := []
  vimModeline : Bool := true
  bashVersion : List Int := [2]
  zshCompdef : Bool := true
  fishInline : Bool := false
  includeFile : Option (List Str) := none
  comment : Option (List Str) := none
  debug : Bool := false
  keepComments : Bool := false
  maxLineLength : Int := 80
  functionPrefix : Str := S "_$PROG"
  outputFile : Option Str := none
  install : Bool := false
  uninstall : Bool := false

/-- `Config.set_long_option_argument_separator`, `config.py` 224-257: an `AssertionError` for other values. -/
def setLongSep (s : Str) (c : Settings) : Option Settings :=
  if s = S "space" then some { c with base := { c.base with longSep := .space } }
  else if s = S "equals" then some { c with base := { c.base with longSep := .equals } }
  else if s = S "both" then some { c with base := { c.base with longSep := .both } }
  else none

/-- `Config.set_line_length`, `config.py` 334-347. -/
def setLineLength (n : Int) (c : Settings) : Settings := { c with lineLength := if n > 0 then some n.toNat else none }

/-- The loop over the disabled features, `application.py` 268-278. -/
def disableFeatures : List Str → Settings → Settings
  | [], c => c
  | f :: fs, c =>
    disableFeatures fs
      (if f = S "hidden" then { c with base := { c.base with disabledHidden := true } }
       else if f = S "final" then { c with base := { c.base with disabledFinal := true } }
       else if f = S "groups" then { c with base := { c.base with disabledGroups := true } }
       else if f = S "repeatable" then { c with base := { c.base with disabledRepeatable := true } }
       else if f = S "when" then { c with base := { c.base with disabledWhen := true } }
       else c)

/-- The calls of the setters before `set_long_option_argument_separator`, `application.py` 250-257, on the defaults. -/
def firstSettings (o : AppOpts) : Settings :=
  { debug := o.debug, functionPrefix := o.functionPrefix, optionStacking := o.optionStacking,
    base := { abbreviateCommands := o.abbreviateCommands, abbreviateOptions := o.abbreviateOptions,
              repeatableOptions := o.repeatableOptions, inheritOptions := o.inheritOptions } }

/-- The calls after it, `application.py` 259-266. -/
def otherSettings (o : AppOpts) (c : Settings) : Settings :=
  setLineLength o.maxLineLength
    { c with vimModeline := o.vimModeline, bashVersion := o.bashVersion, zshCompdef := o.zshCompdef, fishInline := o.fishInline,
             includeFiles := c.includeFiles ++ o.includeFile.getD [], keepComments := o.keepComments,
             comments := c.comments ++ o.comment.getD [] }

/-- `_get_config_from_options`, `application.py` 249-280. -/
def configFromOptions (o : AppOpts) : Option Settings :=
  (setLongSep o.longSep (firstSettings o)).map (fun c => disableFeatures o.disable (otherSettings o c))

/-! ## The outside -/

/-- Why a run ends early. -/
inductive AppErr where
  /-- `CrazyError` -/
  | crazy
  /-- `FileNotFoundError` -/
  | notFound
  /-- an error of the JSON or YAML reader -/
  | decode
  /-- `argparse.ArgumentError` -/
  | argument
  /-- `sys.exit(n)` -/
  | exit (n : Nat)
  /-- any other exception -/
  | other
  deriving DecidableEq

/-- What the program sees and changes: the files by the text of their path, what was printed, and of the Python process the
loaded modules (name and file) and `sys.path`. Two texts for the same file are different here. -/
structure Disk where
  files : Str → Option Str
  out : Str := []
  modules : List (Str × Str) := []
  path : List Str := []

/-- What a run does. -/
inductive Act where
  /-- `print` -/
  | print (s : Str)
  /-- `open(path, 'w')` -/
  | truncate (path : Str)
  /-- writing one character; Python writes several at a time -/
  | append (path : Str) (c : Char)
  /-- `os.remove` -/
  | remove (path : Str)
  /-- `sys.path.append` -/
  | addPath (dir : Str)
  /-- the code of a file is executed -/
  | exec (path : Str)
  /-- a file is recorded as the module of a name -/
  | loaded (name path : Str)
  deriving DecidableEq

/-- What is taken from elsewhere. -/
structure AppEnv where
  /-- `json_source.load_from_file`: the content of the file -/
  json : Str → Except AppErr Cmd
  /-- `yaml_source.load_from_file` -/
  yaml : Str → Except AppErr Cmd
  /-- the `ArgumentParser` in the module loaded from a file, and its conversion, `argparse_source.py` 241-258 -/
  python : Str → Option Str → Except AppErr Cmd
  /-- the exception that the code of a file ends with -/
  raises : Str → Option AppErr
  /-- what the code of a file does to the outside -/
  execute : Str → Disk → Disk
  /-- what is found in `__main__`, `argparse_source.py` 241-258 -/
  mainModule : Option Str → Except AppErr Cmd
  /-- `help_converter.from_file_to_yaml` -/
  help : Str → Except AppErr Str
  toJson : Cmd → Except AppErr Str
  toYaml : Cmd → Except AppErr Str
  /-- `bash.generate_completion`; it reads the files to include -/
  bash : Cmd → Settings → (Str → Option Str) → Except AppErr Str
  fish : Cmd → Settings → (Str → Option Str) → Except AppErr Str
  zsh : Cmd → Settings → (Str → Option Str) → Except AppErr Str
  /-- the output of `pkg-config --variable=completionsdir`, `paths.py` 18-40 -/
  pkgConfig : Str → Option Str
  writable : Str → Bool
  removable : Str → Bool
  /-- `parse_known_args` for `--manual` and for `--batch` -/
  askManual : List Str → Except AppErr (Option Str)
  askBatch : List Str → Except AppErr (Option Str)
  parse : List Str → Except AppErr AppOpts
  /-- the text of `manual.print_help_topic` -/
  manual : Str → Except AppErr Str
  /-- `shlex.split` -/
  split : Str → Except AppErr (List Str)

/-- The effect of an action. -/
def Disk.act (E : AppEnv) (w : Disk) : Act → Disk
  | .print s => { w with out := w.out ++ s }
  | .truncate p => { w with files := fun q => if q = p then some [] else w.files q }
  | .append p c => { w with files := fun q => if q = p then some ((w.files p).getD [] ++ [c]) else w.files q }
  | .remove p => { w with files := fun q => if q = p then none else w.files q }
  | .addPath d => { w with path := w.path ++ [d] }
  | .exec p => E.execute p w
  | .loaded n p => { w with modules := w.modules ++ [(n, p)] }

/-- The effect of actions one after the other. -/
def Disk.after (E : AppEnv) (w : Disk) (l : List Act) : Disk := l.foldl (Disk.act E) w

/-- A run: its actions and how it ends. -/
structure Run (α : Type) where
  acts : List Act
  result : Except AppErr α

/-- A piece of the program. -/
abbrev AppM (α : Type) := Disk → Run α

/-- A piece without actions. -/
def AppM.give {α : Type} (r : Except AppErr α) : AppM α := fun _ => ⟨[], r⟩

/-- One piece after the other; an exception ends both. -/
def AppM.next (E : AppEnv) {α β : Type} (m : AppM α) (k : α → AppM β) : AppM β := fun w =>
  match (m w).result with
  | .error x => ⟨(m w).acts, .error x⟩
  | .ok a => ⟨(m w).acts ++ (k a (w.after E (m w).acts)).acts, (k a (w.after E (m w).acts)).result⟩

/-- `open(file, 'r')` and `read`. -/
def readFile (p : Str) : AppM Str := fun w => ⟨[], match w.files p with | some s => .ok s | none => .error .notFound⟩

/-- `write_string_to_file`, `application.py` 198-205. -/
def writeStringToFile (E : AppEnv) (s : Str) : Option Str → AppM Unit
  | some f => fun _ => if E.writable f then ⟨.truncate f :: s.map (.append f), .ok ()⟩ else ⟨[], .error .other⟩
  | none => fun _ => ⟨[.print (s ++ ['\n'])], .ok ()⟩

/-- `os.remove`. -/
def removeFile (E : AppEnv) (p : Str) : AppM Unit := fun w =>
  match w.files p with
  | none => ⟨[], .error .notFound⟩
  | some _ => if E.removable p then ⟨[.remove p], .ok ()⟩ else ⟨[], .error .other⟩

/-! ## Paths -/

/-- `os.path.basename`. -/
def baseName (p : Str) : Str := (p.reverse.takeWhile (· != '/')).reverse

/-- `os.path.split(p)[0]`: slashes at its end are removed unless there is nothing else. -/
def dirName (p : Str) : Str :=
  let d := (p.reverse.dropWhile (· != '/')).reverse
  if d.all (· == '/') then d else (d.reverse.dropWhile (· == '/')).reverse

/-- `os.path.splitext(p)[1]` of a name without slashes: from the last dot on, if something else than dots stands before it. -/
def splitExt (name : Str) : Str :=
  let tail := (name.reverse.takeWhile (· != '.')).reverse
  if name.contains '.' && (name.take (name.length - tail.length - 1)).any (· != '.') then '.' :: tail else []

/-- The extension, `application.py` 212-213. -/
def fileExtension (p : Str) : Str := stripSet ['.'] (lower (splitExt (baseName p)))

/-- A path in a directory, as `importlib` makes it. -/
def joinPath (d n : Str) : Str := if d.getLast? = some '/' then d ++ n else d ++ ['/'] ++ n

/-- `get_bash_completion_file`, `paths.py` 43-53. -/
def bashCompletionFile (E : AppEnv) (prog : Str) : Str :=
  (E.pkgConfig (S "bash-completion")).getD (S "/usr/share/bash-completion/completions") ++ ['/'] ++ prog

/-- `get_fish_completion_file`, `paths.py` 56-66. -/
def fishCompletionFile (E : AppEnv) (prog : Str) : Str :=
  (E.pkgConfig (S "fish")).getD (S "/usr/share/fish/vendor_completions.d") ++ ['/'] ++ prog ++ S ".fish"

/-- `get_zsh_completion_file`, `paths.py` 69-75. -/
def zshCompletionFile (prog : Str) : Str := S "/usr/share/zsh/site-functions" ++ S "/_" ++ prog

/-! ## Loading -/

/-- The first directory that has the file. -/
def findModule (w : Disk) (name : Str) : List Str → Option Str
  | [] => none
  | d :: ds => if (w.files (joinPath d (name ++ S ".py"))).isSome then some (joinPath d (name ++ S ".py")) else findModule w name ds

/-- `importlib.import_module`: a loaded module is not loaded again. Only modules that are files `name.py` are modelled; a name
with a dot is not found. The result is the file of the module. -/
def importModule (E : AppEnv) (name : Str) : AppM Str := fun w =>
  match w.modules.find? (fun e => e.1 = name) with
  | some e => ⟨[], .ok e.2⟩
  | none =>
    if name.contains '.' then ⟨[], .error .other⟩
    else match findModule w name w.path with
      | none => ⟨[], .error .other⟩
      | some p => match E.raises p with
        | some x => ⟨[.exec p], .error x⟩
        | none => ⟨[.exec p, .loaded name p], .ok p⟩

/-- `sys.path.append` unless it is there, `file_loader.py` 53-57. -/
def addDirectory (d : Str) : AppM Unit := fun w => ⟨if w.path.contains d then [] else [.addPath d], .ok ()⟩

/-- `import_file`, `file_loader.py` 35-58. A file without the extension is copied to a temporary file whose name is new: the copy
is executed, it does what the file does. -/
def importFile (E : AppEnv) (file : Str) : AppM Str :=
  if (S ".py").isSuffixOf (lower (baseName file)) then
    AppM.next E (addDirectory (if (dirName file).isEmpty then S "." else dirName file))
      (fun _ => importModule E ((baseName file).take ((baseName file).length - 3)))
  else AppM.next E (readFile file) (fun _ => fun _ => match E.raises file with
    | some x => ⟨[.exec file], .error x⟩
    | none => ⟨[.exec file], .ok file⟩)

/-- `execute_file`, `file_loader.py` 13-32: the code is executed in this module, what is returned is `__main__`.
`SystemExit` is caught. -/
def executeFile (E : AppEnv) (file : Str) : AppM Unit :=
  AppM.next E (readFile file) (fun _ => fun _ => match E.raises file with
    | some (.exit _) => ⟨[.exec file], .ok ()⟩
    | some x => ⟨[.exec file], .error x⟩
    | none => ⟨[.exec file], .ok ()⟩)

/-- `argparse_source.load_from_file`, `argparse_source.py` 225-258. `except Exception` does not catch `SystemExit`. -/
def loadPython (E : AppEnv) (file : Str) (variable_ : Option Str) : AppM Cmd := fun w =>
  match (importFile E file w).result with
  | .ok p => ⟨(importFile E file w).acts, E.python p variable_⟩
  | .error (.exit n) => ⟨(importFile E file w).acts, .error (.exit n)⟩
  | .error _ =>
    let r := AppM.next E (executeFile E file) (fun _ => AppM.give (E.mainModule variable_)) (w.after E (importFile E file w).acts)
    ⟨(importFile E file w).acts ++ r.acts, r.result⟩

/-- `load_definition_file`, `application.py` 208-246. -/
def loadDefinition (E : AppEnv) (o : AppOpts) : AppM Cmd :=
  match o.inputType with
  | .auto =>
    if fileExtension o.definitionFile = S "json" then AppM.next E (readFile o.definitionFile) (fun s => AppM.give (E.json s))
    else if fileExtension o.definitionFile = S "yaml" ∨ fileExtension o.definitionFile = S "yml" then
      AppM.next E (readFile o.definitionFile) (fun s => AppM.give (E.yaml s))
    else AppM.give (.error .crazy)
  | .json => AppM.next E (readFile o.definitionFile) (fun s => AppM.give (E.json s))
  | .yaml => AppM.next E (readFile o.definitionFile) (fun s => AppM.give (E.yaml s))
  | .python => loadPython E o.definitionFile o.parserVariable
  | .help => AppM.give (.error .other)

/-- The script for a shell, `application.py` 348-355; an invalid setting is an `AssertionError`. -/
def makeScript (E : AppEnv) (o : AppOpts) (c : Cmd) : AppM Str := fun w =>
  match configFromOptions o with
  | none => ⟨[], .error .other⟩
  | some conf =>
    match o.shell with
    | .bash => ⟨[], E.bash c conf w.files⟩
    | .fish => ⟨[], E.fish c conf w.files⟩
    | _ => ⟨[], E.zsh c conf w.files⟩

/-- The file for an installed script, `application.py` 357-362. -/
def systemFile (E : AppEnv) (o : AppOpts) (c : Cmd) : Str :=
  match o.shell with
  | .bash => bashCompletionFile E c.data.prog
  | .fish => fishCompletionFile E c.data.prog
  | _ => zshCompletionFile c.data.prog

/-- `generate`, `application.py` 326-371. -/
def generate (E : AppEnv) (o : AppOpts) : AppM Unit :=
  if o.inputType = .help then
    if o.shell ≠ .yaml then AppM.give (.error .crazy)
    else AppM.next E (readFile o.definitionFile) (fun s => AppM.next E (AppM.give (E.help s)) (fun t => writeStringToFile E t o.outputFile))
  else
    AppM.next E (loadDefinition E o) (fun c =>
      if o.shell = .json then AppM.next E (AppM.give (E.toJson c)) (fun t => writeStringToFile E t o.outputFile)
      else if o.shell = .yaml then AppM.next E (AppM.give (E.toYaml c)) (fun t => writeStringToFile E t o.outputFile)
      else AppM.next E (makeScript E o c) (fun t =>
        if o.install || o.uninstall then
          if o.install then writeStringToFile E t (some (systemFile E o c))
          else removeFile E (systemFile E o c)
        else writeStringToFile E t o.outputFile))

/-! ## The command line and batches -/

/-- The loop over the lines of a batch, `application.py` 311-321. -/
def batchLines (E : AppEnv) (one : List Str → AppM Unit) : List Str → AppM Unit
  | [] => AppM.give (.ok ())
  | l :: ls =>
    if (strip l).isEmpty || startsWith (strip l) ['#'] then batchLines E one ls
    else AppM.next E (AppM.give (E.split (strip l))) (fun args => AppM.next E (one args) (fun _ => batchLines E one ls))

/-- `if not opts.batch`: nothing or an empty text. -/
def askedFor : Option Str → Option Str
  | some [] => none
  | o => o

/-- `Application.parse_args` with `try_print_manual` and `try_batch`, `application.py` 283-323, 380-388. The number is how deep
Python may call; batches in batches need more. -/
def parseArgs (E : AppEnv) : Nat → List Str → AppM AppOpts
  | 0, _ => AppM.give (.error .other)
  | n + 1, args =>
    AppM.next E (AppM.give (E.askManual args)) (fun m => match askedFor m with
      | some topic => AppM.next E (AppM.give (E.manual topic)) (fun t => fun _ => ⟨[.print t], .error (.exit 0)⟩)
      | none => AppM.next E (AppM.give (E.askBatch args)) (fun b => match askedFor b with
        | some f => AppM.next E (readFile f) (fun s =>
            AppM.next E (batchLines E (fun a => AppM.next E (parseArgs E n a) (generate E)) (splitOn '\n' s))
              (fun _ => AppM.give (.error (.exit 0))))
        | none => AppM.give (E.parse args)))

/-- The exit status of the script `crazy-complete` (lines 32-66) if `parse_args` ends with an exception: that of Python is 1. -/
def parseStatus : AppErr → Nat
  | .argument => 2
  | .exit n => n
  | _ => 1

/-- The exit status if `run` ends with an exception. -/
def runStatus : AppErr → Nat
  | .crazy => 1
  | .notFound => 1
  | .decode => 1
  | .exit n => n
  | _ => 3

/-- The script `crazy-complete`: its actions and its exit status. -/
def mainRun (E : AppEnv) (depth : Nat) (args : List Str) (w : Disk) : List Act × Nat :=
  match (parseArgs E depth args w).result with
  | .error x => ((parseArgs E depth args w).acts, parseStatus x)
  | .ok o =>
    let r := generate E o (w.after E (parseArgs E depth args w).acts)
    ((parseArgs E depth args w).acts ++ r.acts, match r.result with | .error x => runStatus x | .ok _ => 0)

end CC
