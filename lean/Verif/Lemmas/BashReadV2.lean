import Verif.Lemmas.BashRead1
import Verif.Model.Preprocessor
/-!
# Lemmas: the text of the Bash parser (version 2) is read as the program that is meant
-/

namespace BashText
open CC

/-! ## The template -/

/-- The text is the template of the code, with the parts that are chosen and with the placeholders filled in. -/
theorem template_v2 (p : Parts) :
    preprocess v2Template (v2Defines p) = .ok (v2Fill (S "%FIND_OPTION_CODE%\n") (S "%SUBCOMMAND_SWITCH_CODE%\n") p) := by
  obtain ⟨a, b, c, d, e⟩ := p
  cases a <;> cases b <;> cases c <;> cases d <;> cases e <;> kernel_rfl

/-! ## The program -/

abbrev vVar : Str := "VAR".toList
abbrev vArgs : Str := "ARGS".toList
abbrev vArr : Str := "arr".toList
abbrev fFind : Str := "__find_option".toList
abbrev fAppend : Str := "__append_to_array".toList

/-- The number of arguments as a word. -/
def argsOf : ArgKind → Str
  | .optional => ['?']
  | .required => ['1']
  | .flag => ['0']

/-- An option is found. -/
def foundCode (o : BOpt) : Code := .act (.set vVar (lits o.var)) (.act (.set vArgs (lits (argsOf o.kind))) (one (.return_ none)))

def patAll (o : BOpt) : Str := makePattern (o.shorts ++ o.longs)

def optionClauses (os : List BOpt) : List (Str × Code) := os.map (fun o => (patAll o, foundCode o))

def optionsCode (os : List BOpt) : Code := .case_ [.arg 2] (clauses (optionClauses os)) .done

def patPath2 (b : Block) : Str := quote b.path ++ (if b.inherits then ['*'] else [])

def blockCode2 (b : Block) : Code := .case_ [.arg 1] (.clause (patPath2 b) (optionsCode b.opts) .done) .done

def findCodes : List Block → List Code
  | [b] => if b.opts.isEmpty then [] else [optionsCode b.opts]
  | blocks => (blocks.filter (fun b => !b.opts.isEmpty)).map blockCode2

def findBody (blocks : List Block) : Code := codes (findCodes blocks) ++ one (.return_ (some 1))

def appendBody : Code := .act (.localRef vArr [.arg 1]) (one (.addArray vArr [[.arg 2]]))

def callFind (w : Word) : Code := one (.call [lits fFind, [.var vCmd], w])
def appendAct (w : Word) : Act := .call [lits fAppend, [.var vVar], w]

/-- An option that is a word. -/
def wordFound (k : Code) : Code :=
  .if_ (one (.equals [.var vArgs] ['1'])) (one (appendAct wNext)) (one (appendAct wSet)) k

def longWithCode : Code := .if_ (callFind [.before vArg]) (one (appendAct wBehind)) .done .done
def longWithoutCode : Code := .if_ (callFind [.var vArg]) (wordFound .done) .done .done

def oldCode (k : Code) : Code :=
  .if_ (one (.equals [.var vArg] (S "-*=*")))
    (.if_ (callFind [.before vArg]) (.act (appendAct wBehind) (one (.continue_ 1))) .done .done) .done
    (.if_ (callFind [.var vArg]) (wordFound (one (.continue_ 1))) .done k)

/-- The letters behind, or another value; then the loop ends. -/
def trailingOr (w : Word) : Code :=
  .if_ (one (.nonempty wTrailing)) (one (appendAct wTrailing)) (one (appendAct w)) (one (.break_ 1))

def letterFound (optionals : Bool) : Code :=
  .if_ (one (.equals [.var vArgs] ['1'])) (trailingOr wNext)
    (if optionals then .if_ (one (.equals [.var vArgs] (S "'?'"))) (trailingOr wSet) (one (appendAct wSet)) .done else one (appendAct wSet)) .done

def letterCode2 (optionals : Bool) : Code :=
  .act (.set vChar [.char vArg vI]) (.act (.set vTrailing [.from_ vArg (.add (.var vI) (.num 1))])
    (.if_ (callFind [.lit '-', .var vChar]) (letterFound optionals) .done .done))

def lettersCode (p : Parts) : Code :=
  if p.short then .loop (.set vI 1) (.lt (.var vI) (.len vArg)) (.atom (.inc vI)) (letterCode2 p.shortOptionals) .done else .done

def dashCode2 (p : Parts) : Code := if p.old then oldCode (lettersCode p) else lettersCode p

def longClauses2 (p : Parts) : List (Str × Code) :=
  if p.long then [(S "--*=*", longWithCode), (S "--*", longWithoutCode)] else [(S "--*", .done)]

def endCode2 (p : Parts) : Code :=
  .act (.set vEnd (lits ['1'])) (if p.positionals then .act (.addArray vPos [[.slice vWords (.atom (.inc vArgi))]]) (one (.return_ none)) else one (.return_ none))

/-- The clauses for the words that begin with `-`. -/
def dashClauses (p : Parts) : List (Str × Code) := (S "--", endCode2 p) :: (longClauses2 p ++ [(S "-?*", dashCode2 p)])

def positionalClauses (p : Parts) (cases : List SwitchCase) : List (Str × Code) :=
  if p.positionals then [(['*'], positionalCode cases)] else []

def wordCode2 (p : Parts) (cases : List SwitchCase) : Code :=
  .act (.set vArg [.elem vWords (.atom (.var vArgi))]) (.case_ [.var vArg] (clauses (dashClauses p ++ positionalClauses p cases)) .done)

def afterCode (p : Parts) : Code :=
  if p.positionals then .loop .empty (.le (.var vArgi) (.var vCword)) (.atom (.inc vArgi)) restCode .done else .done

def loopsCode (p : Parts) (cases : List SwitchCase) : Code :=
  .loop (.set vArgi 1) (.lt (.var vArgi) (.var vCword)) (.atom (.inc vArgi)) (wordCode2 p cases) (afterCode p)

def localsCode (k : Code) : Code :=
  .act (.set vEnd (lits ['0'])) (.act (.localSet vCmd (lits "root".toList)) (.act (.local_ vArgi) (.act (.local_ vArg) (.act (.local_ vI)
    (.act (.local_ vChar) (.act (.local_ vTrailing) (.act (.local_ vVar) (.act (.local_ vArgs) k))))))))

def headCode2 (p : Parts) (k : Code) : Code := if p.positionals then .act (.setArray vPos []) (localsCode k) else localsCode k

def v2Code (p : Parts) (blocks : List Block) (cases : List SwitchCase) : Code :=
  headCode2 p (.function fFind (findBody blocks) (.function fAppend appendBody (loopsCode p cases)))

/-! ## The function that finds options -/

theorem name_plain {c : Char} (h : nameChar c = true) (ps : Word) : plainChar ps c = some (.plain, ps ++ [.lit c]) := by
  unfold plainChar
  have key : ∀ d : Char, nameChar d = false → c ≠ d := by rintro d hd rfl; rw [h] at hd; cases hd
  rw [if_neg (key _ (by decide)), if_neg (key _ (by decide)), if_neg (key _ (by decide)), if_neg]
  intro hm
  have : nameChar c = false := by
    revert hm; generalize c = c
    intro hm
    exact (show ∀ d ∈ "`\\*?[]{}~!#&|;<>() \t\n".toList, nameChar d = false by decide) c hm
  rw [h] at this; cases this

theorem word_name_chars (v : Str) (hv : v.all nameChar = true) : ∀ ps : Word, v.foldlM wstep (WMode.plain, ps) = some (WMode.plain, ps ++ lits v) := by
  induction v with
  | nil => intro ps; simp [lits]
  | cons c v ih =>
    intro ps
    simp only [List.all_cons, Bool.and_eq_true] at hv
    rw [List.foldlM_cons]
    show (plainChar ps c).bind _ = _
    rw [name_plain hv.1]
    show v.foldlM wstep (WMode.plain, ps ++ [.lit c]) = _
    rw [ih hv.2]; simp [lits]

theorem readWord_name {v : Str} (hv : isName v = true) : readWord v = some (lits v) := by
  unfold readWord
  rw [word_name_chars v (isName_all hv)]; rfl

theorem startWord_var (v : Str) (stack : List Frame) : startWord ("VAR=".toList ++ v) stack = some ⟨.words ["VAR=".toList ++ v], stack⟩ := by
  have key : ∀ k : Str, k.head? ≠ some 'V' → "VAR=".toList ++ v ≠ k := by
    rintro k hk rfl
    apply hk; simp
  unfold startWord
  rw [if_neg (key _ (by decide)), if_neg (key _ (by decide)), if_neg (key _ (by decide)), if_neg (key _ (by decide)), if_neg (key _ (by decide)),
    if_neg (key _ (by decide)), if_neg (key _ (by decide)), if_neg (key _ (by decide)), if_neg (key _ (by decide)), if_neg (key _ (by decide))]
  rw [if_neg]
  intro hm
  simp only [List.mem_cons, List.not_mem_nil, or_false] at hm
  rcases hm with h | h | h | h | h | h | h | h | h | h <;> exact key _ (by decide) h

theorem readSimple_var {v : Str} (hv : isName v = true) : readSimple ["VAR=".toList ++ v] = some (one (.set vVar (lits v))) := by
  have key : ∀ k : Str, k.head? ≠ some 'V' → "VAR=".toList ++ v ≠ k := by
    rintro k hk rfl
    apply hk; simp
  unfold readSimple
  simp only
  rw [if_neg (key _ (by decide)), if_neg (key _ (by decide)), if_neg (key _ (by decide)), if_neg (key _ (by decide)), if_neg (key _ (by decide))]
  have h3 : readAssign ("VAR=".toList ++ v) = some (.set vVar (lits v)) := by
    unfold readAssign
    have h1 : spanName ("VAR=".toList ++ v) = some ("VAR".toList, '=' :: v) := span_name (v := "VAR".toList) (by decide) '=' (by decide) _
    rw [h1]
    show (readWord v).map (Act.set "VAR".toList) = _
    rw [readWord_name hv]; rfl
  rw [h3]; rfl

theorem read_found {t : Str} {w : Word} {cl : Code} {r : List Frame} {o : BOpt} (hv : isName o.var = true) :
    run (at_ ⟨.start, ⟨.clause t, .done⟩ :: ⟨.case_ w, cl⟩ :: r⟩) (S " VAR=" ++ (o.var ++ (S "; ARGS=" ++ (v2ArgsText o.kind ++ S "; return;;\n")))) =
      some (at_ ⟨.start, ⟨.case_ w, cl ++ .clause t (foundCode o) .done⟩ :: r⟩) := by
  have e1 : run (at_ ⟨.start, ⟨.clause t, .done⟩ :: ⟨.case_ w, cl⟩ :: r⟩) (S " VAR=") =
      some ⟨.word, "VAR=".toList, ⟨.start, ⟨.clause t, .done⟩ :: ⟨.case_ w, cl⟩ :: r⟩⟩ := by kernel_rfl
  rw [run_then e1, run_then (read_name_chars _ o.var (isName_all hv) _)]
  show run _ (';' :: (S " ARGS=" ++ (v2ArgsText o.kind ++ S "; return;;\n"))) = _
  have e3 : step ⟨.word, "VAR=".toList ++ o.var, ⟨.start, ⟨.clause t, .done⟩ :: ⟨.case_ w, cl⟩ :: r⟩⟩ ';' =
      some ⟨.semi, [], ⟨.words ["VAR=".toList ++ o.var], ⟨.clause t, .done⟩ :: ⟨.case_ w, cl⟩ :: r⟩⟩ := by
    show (startWord ("VAR=".toList ++ o.var) _).bind (fun p => gapStep p ';') = _
    rw [startWord_var]; rfl
  rw [run_cons, e3]
  show run _ (' ' :: (S "ARGS=" ++ (v2ArgsText o.kind ++ S "; return;;\n"))) = _
  have e4 : step ⟨.semi, [], ⟨.words ["VAR=".toList ++ o.var], ⟨.clause t, .done⟩ :: ⟨.case_ w, cl⟩ :: r⟩⟩ ' ' =
      some (at_ ⟨.start, ⟨.clause t, one (.set vVar (lits o.var))⟩ :: ⟨.case_ w, cl⟩ :: r⟩) := by
    show ((readSimple ["VAR=".toList ++ o.var]).bind _).bind _ = _
    rw [readSimple_var hv]; rfl
  rw [run_cons, e4]
  show run _ (S "ARGS=" ++ (v2ArgsText o.kind ++ S "; return;;\n")) = _
  unfold foundCode
  generalize o.var = v
  cases o.kind <;> kernel_rfl

/-- What an option needs. -/
structure FindOk (o : BOpt) : Prop where
  var : isName o.var = true
  pattern : Pat (patAll o)

theorem args_break (k : ArgKind) : '\n' ∉ v2ArgsText k := by cases k <;> decide

theorem found_line {w : Word} {cl : Code} {r : List Frame} {o : BOpt} (h : FindOk o) :
    ReadsText ⟨.start, ⟨.case_ w, cl⟩ :: r⟩ (S "  " ++ makePattern (o.shorts ++ o.longs) ++ S ") VAR=" ++ o.var ++ S "; ARGS=" ++ v2ArgsText o.kind ++ S "; return;;")
      ⟨.start, ⟨.case_ w, cl ++ .clause (patAll o) (foundCode o) .done⟩ :: r⟩ := by
  have hp : '\n' ∉ makePattern (o.shorts ++ o.longs) := h.pattern.noBreak
  refine .line (by simp [hp, no_break_name h.var, args_break, S]) ?_
  have e1 : S "  " ++ makePattern (o.shorts ++ o.longs) ++ S ") VAR=" ++ o.var ++ S "; ARGS=" ++ v2ArgsText o.kind ++ S "; return;;" ++ ['\n'] =
    ' ' :: ' ' :: (patAll o ++ ')' :: (S " VAR=" ++ (o.var ++ (S "; ARGS=" ++ (v2ArgsText o.kind ++ S "; return;;\n"))))) := by simp [S, patAll]
  rw [e1, run_two, read_pattern h.pattern.readable h.pattern.notEsac, read_found h.var]

theorem found_text {w : Word} {r : List Frame} {q : PState} {rest : Str} : ∀ (l : List BOpt) (cl : Code),
    (∀ o ∈ l, FindOk o) →
    (∀ cl', cl' = cl ++ clauses (optionClauses l) → ReadsText ⟨.start, ⟨.case_ w, cl'⟩ :: r⟩ rest q) →
    ReadsText ⟨.start, ⟨.case_ w, cl⟩ :: r⟩ (l.flatMap (fun o => S "  " ++ makePattern (o.shorts ++ o.longs) ++ S ") VAR=" ++ o.var ++ S "; ARGS=" ++ v2ArgsText o.kind ++ S "; return;;\n") ++ rest) q
  | [], cl, _, h => by
    simp only [List.flatMap_nil, List.nil_append]
    exact h cl (append_done cl).symm
  | x :: l, cl, hl, h => by
    have h1 := found_line (w := w) (cl := cl) (r := r) (hl x (by simp))
    have h2 := found_text l (cl ++ .clause (patAll x) (foundCode x) .done) (fun y hy => hl y (List.mem_cons_of_mem _ hy)) (fun cl' e => h cl' (by
      rw [e, append_assoc']; rfl))
    exact (h1.then h2).cast (by simp [S]) rfl

/-- Where the options may stand. -/
inductive FindKind : Kind → Prop
  | function (f : Str) : FindKind (.function f)
  | clause (t : Str) : FindKind (.clause t)

theorem options_text {k : Kind} (hk : FindKind k) {os : List BOpt} (h : ∀ o ∈ os, FindOk o) : Piece k (v2OptionsText os) (optionsCode os) := by
  constructor
  intro c r
  have h1 : ReadsText ⟨.start, ⟨k, c⟩ :: r⟩ (S "case \"$2\" in") ⟨.start, ⟨.case_ [.arg 2], .done⟩ :: ⟨k, c⟩ :: r⟩ := by
    cases hk <;> exact .line (by decide) (by kernel_rfl)
  have h2 := found_text (w := [.arg 2]) (r := ⟨k, c⟩ :: r) (q := ⟨.start, ⟨k, c ++ optionsCode os⟩ :: r⟩) (rest := S "esac") os .done h (by
    intro cl' e
    rw [done_append] at e
    subst e
    exact .line (by decide) (by unfold optionsCode; generalize clauses (optionClauses os) = x; kernel_rfl))
  exact (h1.then h2).cast (by simp [v2OptionsText, S]) rfl

theorem block_text2 {b : Block} (hp : Pat (patPath2 b)) (h : ∀ o ∈ b.opts, FindOk o) : Piece (.function fFind) (v2BlockText b) (blockCode2 b) := by
  constructor
  intro c r
  have h1 : ReadsText ⟨.start, ⟨.function fFind, c⟩ :: r⟩ (S "case \"$1\" in " ++ (patPath2 b ++ [')']))
      ⟨.start, ⟨.clause (patPath2 b), .done⟩ :: ⟨.case_ [.arg 1], .done⟩ :: ⟨.function fFind, c⟩ :: r⟩ := by
    refine .line (by simp [hp.noBreak, S]) ?_
    have e1 : S "case \"$1\" in " ++ (patPath2 b ++ [')']) ++ ['\n'] = S "case \"$1\" in " ++ (patPath2 b ++ ')' :: ['\n']) := by simp
    have e2 : run (at_ ⟨.start, ⟨.function fFind, c⟩ :: r⟩) (S "case \"$1\" in ") = some (at_ ⟨.start, ⟨.case_ [.arg 1], .done⟩ :: ⟨.function fFind, c⟩ :: r⟩) := by
      kernel_rfl
    rw [e1, run_then e2, read_pattern hp.readable hp.notEsac, run_newline]
  have h2 := ((options_text (.clause (patPath2 b)) h).reads .done (⟨.case_ [.arg 1], .done⟩ :: ⟨.function fFind, c⟩ :: r)).indent 2
  have h3 := h1.then (h2.then (esac_line (k := .function fFind)))
  exact h3.cast (by simp [v2BlockText, patPath2, S]) rfl

/-- Texts on lines of their own. -/
theorem join_lines {k : Kind} : ∀ (l : List (Str × Code)), l ≠ [] → (∀ x ∈ l, Piece k x.1 x.2) →
    Piece k (joinWith ['\n'] (l.map (·.1))) (codes (l.map (·.2)))
  | [x], _, h => by
    constructor
    intro c r
    exact ((h x (by simp)).reads c r).cast rfl (by show _ = _; rw [List.map_cons, List.map_nil, codes_cons]; show (PState.mk _ _) = _; rw [show codes [] = Code.done from rfl, append_done])
  | x :: y :: l, _, h => by
    have ih := join_lines (y :: l) (by simp) (fun z hz => h z (List.mem_cons_of_mem _ hz))
    constructor
    intro c r
    refine (((h x (by simp)).reads c r).then (ih.reads (c ++ x.2) r)).cast ?_ ?_
    · simp [joinWith]
    · rw [append_assoc']; rfl

/-- What a command needs. -/
structure BlockOk2 (b : Block) : Prop where
  path : Pat (patPath2 b)
  opts : ∀ o ∈ b.opts, FindOk o

theorem find_lines {blocks : List Block} (h : ∀ b ∈ blocks, BlockOk2 b) :
    Piece (.function fFind) (joinWith ['\n'] (v2FindCodes blocks)) (codes (findCodes blocks)) := by
  have hempty : Piece (.function fFind) (joinWith ['\n'] []) (codes []) := by
    constructor
    intro c r
    rw [show codes [] = Code.done from rfl, append_done]
    exact .line (by simp [joinWith]) run_newline
  have hmany : Piece (.function fFind) (joinWith ['\n'] ((blocks.filter (fun b => !b.opts.isEmpty)).map v2BlockText))
      (codes ((blocks.filter (fun b => !b.opts.isEmpty)).map blockCode2)) := by
    by_cases hn : blocks.filter (fun b => !b.opts.isEmpty) = []
    · rw [hn]; exact hempty
    · have := join_lines (k := .function fFind) ((blocks.filter (fun b => !b.opts.isEmpty)).map (fun b => (v2BlockText b, blockCode2 b))) (by simpa using hn) (by
        intro x hx
        obtain ⟨b, hb, rfl⟩ := List.mem_map.mp hx
        have hb := h b (List.mem_filter.mp hb).1
        exact block_text2 hb.path hb.opts)
      simpa [List.map_map, Function.comp_def] using this
  unfold v2FindCodes findCodes
  split
  · rename_i b
    simp only
    split
    · exact hempty
    · constructor
      intro c r
      rw [codes_cons, show codes [] = Code.done from rfl, append_done]
      exact (options_text (.function _) (h b (by simp)).opts).reads c r
  · rename_i hne
    split
    · rename_i b; exact absurd rfl (hne b)
    · exact hmany

theorem find_text {blocks : List Block} (h : ∀ b ∈ blocks, BlockOk2 b) (c : Code) (u : Str) :
    run (at_ ⟨.start, [⟨.top, c⟩]⟩) (v2FindText blocks ++ '\n' :: u) = run (at_ ⟨.start, [⟨.top, c ++ .function fFind (findBody blocks) .done⟩]⟩) u := by
  have e1 : run (at_ ⟨.start, [⟨.top, c⟩]⟩) (S "__find_option() {\n") = some (at_ ⟨.start, [⟨.function fFind, .done⟩, ⟨.top, c⟩]⟩) := by kernel_rfl
  have e2 := (((find_lines h).reads .done [⟨.top, c⟩]).indent 2).run
  have e3 : ∀ b : Code, run (at_ ⟨.start, [⟨.function fFind, .done ++ b⟩, ⟨.top, c⟩]⟩) (S "  return 1\n}\n") =
      some (at_ ⟨.start, [⟨.top, c ++ .function fFind (b ++ one (.return_ (some 1))) .done⟩]⟩) := by intro b; kernel_rfl
  have e4 : v2FindText blocks ++ '\n' :: u = S "__find_option() {\n" ++ ((indent (joinWith ['\n'] (v2FindCodes blocks)) 2 ++ ['\n']) ++ (S "  return 1\n}\n" ++ u)) := by
    unfold v2FindText; simp [S]
  rw [e4, run_then e1, run_then e2, run_then (e3 _)]
  rfl

/-! ## The function -/

def middleText (p : Parts) : Str :=
  (if p.positionals then S "      POSITIONALS+=(\"${words_dequoted[@]:$((++argi))}\")\n" else []) ++
  (S "      return;;\n" ++
  ((if p.long then v2LongText else S "    --*);;\n") ++
  (S "    -?*) # ignore '-'\n" ++
  ((if p.old then v2OldText else []) ++
  (S "\n" ++
  ((if p.short then v2LettersText ++ (if p.shortOptionals then v2OptionalText else []) ++ v2LettersEndText else []) ++
  S "      ;;\n"))))))

def tailText (p : Parts) (sub : Str) : Str :=
  (if p.positionals then S "    *)\n" ++ S "      POSITIONALS+=(\"$arg\")\n" ++ sub ++ S "      ;;\n" else []) ++
  (S "  esac\n" ++ (S "done\n" ++ (if p.positionals then v2RestText else [])))

theorem text_v2 (p : Parts) (blocks : List Block) (cases : List SwitchCase) :
    v2Text p blocks cases ++ ['\n'] = ((if p.positionals then S "POSITIONALS=()\n" else []) ++ v2HeadText) ++ (v2FindText blocks ++ '\n' :: (v2LoopText ++
      (middleText p ++ (tailText p (fillIn 6 (switchText cases)) ++ ['\n'])))) := by
  unfold v2Text v2Fill middleText tailText
  generalize v2FindText blocks = a1
  generalize fillIn 6 (switchText cases) = a2
  generalize v2HeadText = a3
  generalize v2LoopText = a4
  generalize v2LongText = a5
  generalize v2OldText = a6
  generalize v2LettersText = a7
  generalize v2LettersEndText = a8
  generalize v2RestText = a9
  simp only [List.append_assoc, List.cons_append, List.nil_append]

theorem read_head2 (p : Parts) : run {} ((if p.positionals then S "POSITIONALS=()\n" else []) ++ v2HeadText) =
    some (at_ ⟨.start, [⟨.top, headCode2 p .done⟩]⟩) := by
  obtain ⟨_, _, _, _, b⟩ := p
  cases b <;> kernel_rfl

theorem read_loop2 (c : Code) : run (at_ ⟨.start, [⟨.top, c⟩]⟩) v2LoopText =
    some (at_ ⟨.start, [⟨.clause (S "--"), one (.set vEnd (lits ['1']))⟩, ⟨.case_ [.var vArg], .done⟩, loopFrame, ⟨.top, c ++ .function fAppend appendBody .done⟩]⟩) := by
  kernel_rfl

theorem read_middle (p : Parts) (r : List Frame) :
    run (at_ ⟨.start, ⟨.clause (S "--"), one (.set vEnd (lits ['1']))⟩ :: ⟨.case_ [.var vArg], .done⟩ :: r⟩) (middleText p) =
    some (at_ ⟨.start, ⟨.case_ [.var vArg], clauses (dashClauses p)⟩ :: r⟩) := by
  obtain ⟨a, b, c, d, e⟩ := p
  cases a <;> cases b <;> cases c <;> cases d <;> cases e <;> kernel_rfl

/-- The switch is filled in. -/
theorem read_switch {cases : List SwitchCase} (hc : ∀ c ∈ cases, SwitchOk c) (w : Word) (cl : Code) (r : List Frame) (u : Str) :
    run (at_ ⟨.start, ⟨.clause ['*'], one (.addArray vPos [[.var vArg]])⟩ :: ⟨.case_ w, cl⟩ :: r⟩) (fillIn 6 (switchText cases) ++ u) =
      run (at_ ⟨.start, ⟨.clause ['*'], positionalCode cases⟩ :: ⟨.case_ w, cl⟩ :: r⟩) u := by
  cases ht : switchText cases with
  | none =>
    have : cases = [] := by
      cases cases with
      | nil => rfl
      | cons _ _ => simp [switchText] at ht
    subst this
    rfl
  | some t =>
    have := ((switch_text hc ht ['*'] rfl).reads (one (.addArray vPos [[.var vArg]])) (⟨.case_ w, cl⟩ :: r)).indent 6
    show run _ ((indent t 6 ++ ['\n']) ++ u) = _
    rw [run_then this.run]; rfl

theorem read_tail {cases : List SwitchCase} (hc : ∀ c ∈ cases, SwitchOk c) (p : Parts) (cl c : Code) :
    run (at_ ⟨.start, [⟨.case_ [.var vArg], cl⟩, loopFrame, ⟨.top, c⟩]⟩) (tailText p (fillIn 6 (switchText cases)) ++ ['\n']) =
    some (at_ ⟨.start, [⟨.top, c ++ .loop (.set vArgi 1) (.lt (.var vArgi) (.var vCword)) (.atom (.inc vArgi))
      (.act (.set vArg [.elem vWords (.atom (.var vArgi))]) (.case_ [.var vArg] (cl ++ clauses (positionalClauses p cases)) .done)) .done ++ afterCode p⟩]⟩) := by
  unfold tailText positionalClauses afterCode
  cases hp : p.positionals with
  | false =>
    simp only [Bool.false_eq_true, if_false, List.nil_append, List.append_nil, append_done, show clauses [] = Code.done from rfl]
    kernel_rfl
  | true =>
    simp only [if_true]
    have e1 : S "    *)\n" ++ S "      POSITIONALS+=(\"$arg\")\n" ++ fillIn 6 (switchText cases) ++ S "      ;;\n" ++ (S "  esac\n" ++ (S "done\n" ++ v2RestText)) ++ ['\n'] =
        (S "    *)\n" ++ S "      POSITIONALS+=(\"$arg\")\n") ++ (fillIn 6 (switchText cases) ++ (S "      ;;\n" ++ (S "  esac\n" ++ (S "done\n" ++ (v2RestText ++ ['\n']))))) := by
      generalize v2RestText = a
      simp only [List.append_assoc]
    have e2 : ∀ (r : List Frame), run (at_ ⟨.start, ⟨.case_ [.var vArg], cl⟩ :: r⟩) (S "    *)\n" ++ S "      POSITIONALS+=(\"$arg\")\n") =
        some (at_ ⟨.start, ⟨.clause ['*'], one (.addArray vPos [[.var vArg]])⟩ :: ⟨.case_ [.var vArg], cl⟩ :: r⟩) := by intro r; kernel_rfl
    rw [e1, run_then (e2 _), read_switch hc]
    have e3 : ∀ x : Code, run (at_ ⟨.start, [⟨.clause ['*'], x⟩, ⟨.case_ [.var vArg], cl⟩, loopFrame, ⟨.top, c⟩]⟩)
        (S "      ;;\n" ++ (S "  esac\n" ++ (S "done\n" ++ (v2RestText ++ ['\n'])))) =
      some (at_ ⟨.start, [⟨.top, c ++ .loop (.set vArgi 1) (.lt (.var vArgi) (.var vCword)) (.atom (.inc vArgi))
        (.act (.set vArg [.elem vWords (.atom (.var vArgi))]) (.case_ [.var vArg] (cl ++ clauses [(['*'], x)]) .done)) .done ++
          .loop .empty (.le (.var vArgi) (.var vCword)) (.atom (.inc vArgi)) restCode .done⟩]⟩) := by
      intro x; kernel_rfl
    exact e3 _

theorem headCode2_append (p : Parts) (k : Code) : headCode2 p .done ++ k = headCode2 p k := by
  unfold headCode2
  split <;> rfl

/-- The text of the function is the program. -/
theorem read_v2 (p : Parts) {blocks : List Block} {cases : List SwitchCase} (hb : ∀ b ∈ blocks, BlockOk2 b) (hc : ∀ c ∈ cases, SwitchOk c) :
    read (v2Text p blocks cases) = some (v2Code p blocks cases) := by
  unfold read
  rw [text_v2, run_then (read_head2 p), find_text hb, run_then (read_loop2 _), run_then (read_middle p _), read_tail hc]
  show some _ = some _
  congr 1
  show headCode2 p .done ++ _ ++ _ ++ _ ++ _ = _
  rw [append_assoc', append_assoc', append_assoc', headCode2_append, clauses_append]
  rfl

end BashText
