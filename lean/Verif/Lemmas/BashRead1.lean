import Verif.Lemmas.BashRead
/-!
# Lemmas: the text of the Bash parser (version 1) is read as the program that is meant
-/

namespace BashText
open CC

/-! ## The program -/

/-- A text as a word. -/
def lits (t : Str) : Word := t.map Part.lit

/-- Names. -/
abbrev vArg : Str := "arg".toList
abbrev vArgi : Str := "argi".toList
abbrev vCmd : Str := "cmd".toList
abbrev vI : Str := "i".toList
abbrev vChar : Str := "char".toList
abbrev vTrailing : Str := "trailing_chars".toList
abbrev vWords : Str := "words_dequoted".toList
abbrev vCword : Str := "cword".toList
abbrev vPos : Str := "POSITIONALS".toList
abbrev vEnd : Str := "END_OF_OPTIONS".toList

/-- Words for values. -/
abbrev wSet : Word := lits "_OPT_ISSET_".toList
abbrev wNext : Word := [.elem vWords (.atom (.inc vArgi))]
abbrev wBehind : Word := [.after vArg]
abbrev wTrailing : Word := [.var vTrailing]

/-- Clauses. -/
def clauses (l : List (Str × Code)) : Code := l.foldr (fun x k => .clause x.1 x.2 k) .done

theorem clauses_append (a b : List (Str × Code)) : clauses a ++ clauses b = clauses (a ++ b) := by
  show (clauses a).append (clauses b) = _
  induction a with
  | nil => rfl
  | cons x a ih =>
    show Code.clause x.1 x.2 ((clauses a).append (clauses b)) = _
    rw [ih]; rfl

/-- The patterns of an option. -/
def patWithout (o : BOpt) : Str := joinWith ['|'] o.longs
def patWith (o : BOpt) : Str := joinWith ['|'] (o.longs.map (fun l => l ++ ['=', '*']))
def patShort (o : BOpt) : Str := joinWith ['|'] (o.shorts.map (fun s => (s.drop 1).take 1))
def patPath (b : Block) : Str := b.path ++ (if b.inherits then ['*'] else [])

/-- `v+=(w)`, then `continue`. -/
def addGo (v : Str) (w : Word) : Code := .act (.addArray v [w]) (one (.continue_ 1))

/-- The clauses of an option. -/
def longClauses (o : BOpt) : List (Str × Code) :=
  match o.kind with
  | .optional => [(patWithout o, addGo o.var wSet), (patWith o, addGo o.var wBehind)]
  | .required => [(patWithout o, addGo o.var wNext), (patWith o, addGo o.var wBehind)]
  | .flag => [(patWithout o, addGo o.var wSet)]

/-- The trailing letters, or another value; then the next word. -/
def shortArg (v : Str) (w : Word) : Code :=
  .if_ (one (.nonempty wTrailing)) (one (.addArray v [wTrailing])) (one (.addArray v [w])) (one (.continue_ 2))

def shortClauses (o : BOpt) : List (Str × Code) :=
  match o.kind with
  | .optional => [(patShort o, shortArg o.var wSet)]
  | .required => [(patShort o, shortArg o.var wNext)]
  | .flag => [(patShort o, one (.addArray o.var [wSet]))]

/-- The code of a command. -/
def blockCode (word : Str) (b : Block) (cls : List (Str × Code)) : Code :=
  .case_ [.var vCmd] (.clause (patPath b) (.case_ [.var word] (clauses cls) .done) .done) .done

/-- Programs in order. -/
def codes (l : List Code) : Code := l.foldr (fun a k => a ++ k) .done

theorem codes_cons (a : Code) (l : List Code) : codes (a :: l) = a ++ codes l := rfl

/-- What a pattern needs. -/
structure Pat (t : Str) : Prop where
  readable : (readGlob caseCtx t).isSome = true
  notEsac : t ≠ "esac".toList
  noBreak : '\n' ∉ t

/-! ## Lines -/

theorem ReadsText.cast {p q q' : PState} {t t' : Str} (h : ReadsText p t q) (ht : t' = t) (hq : q' = q) : ReadsText p t' q' := by
  rw [ht, hq]; exact h


theorem no_break_name {v : Str} (h : isName v = true) : '\n' ∉ v := by
  intro hm
  have := List.all_eq_true.mp (isName_all h) _ hm
  revert this; decide

theorem pattern_line {w : Word} {cl : Code} {r : List Frame} {t : Str} (h : Pat t) :
    ReadsText ⟨.start, ⟨.case_ w, cl⟩ :: r⟩ (t ++ [')']) ⟨.start, ⟨.clause t, .done⟩ :: ⟨.case_ w, cl⟩ :: r⟩ := by
  refine .line (by simp [h.noBreak]) ?_
  have := read_pattern (w := w) (cl := cl) (r := r) h.readable h.notEsac ['\n']
  rw [List.append_assoc]
  show run _ (t ++ ')' :: ['\n']) = _
  rw [this, run_newline]

theorem set_word (t : Str) (st : List Frame) : run (at_ ⟨.array t [], st⟩) "_OPT_ISSET_".toList = some ⟨.word, "_OPT_ISSET_".toList, ⟨.array t [], st⟩⟩ := by
  kernel_rfl
theorem behind_word (t : Str) (st : List Frame) : run (at_ ⟨.array t [], st⟩) "\"${arg#*=}\"".toList = some ⟨.word, "\"${arg#*=}\"".toList, ⟨.array t [], st⟩⟩ := by
  kernel_rfl
theorem next_word (t : Str) (st : List Frame) : run (at_ ⟨.array t [], st⟩) "\"${words_dequoted[++argi]}\"".toList = some ⟨.word, "\"${words_dequoted[++argi]}\"".toList, ⟨.array t [], st⟩⟩ := by
  kernel_rfl
theorem trailing_word (t : Str) (st : List Frame) : run (at_ ⟨.array t [], st⟩) "\"$trailing_chars\"".toList = some ⟨.word, "\"$trailing_chars\"".toList, ⟨.array t [], st⟩⟩ := by
  kernel_rfl

/-- The text of an element. -/
inductive Element : Str → Word → Prop
  | set : Element "_OPT_ISSET_".toList wSet
  | behind : Element "\"${arg#*=}\"".toList wBehind
  | next : Element "\"${words_dequoted[++argi]}\"".toList wNext
  | trailing : Element "\"$trailing_chars\"".toList wTrailing

theorem Element.reads {e : Str} {w : Word} (h : Element e w) :
    (∀ t st, run (at_ ⟨.array t [], st⟩) e = some ⟨.word, e, ⟨.array t [], st⟩⟩) ∧ readWord e = some w ∧ '\n' ∉ e := by
  cases h
  · exact ⟨set_word, by kernel_rfl, by decide⟩
  · exact ⟨behind_word, by kernel_rfl, by decide⟩
  · exact ⟨next_word, by kernel_rfl, by decide⟩
  · exact ⟨trailing_word, by kernel_rfl, by decide⟩

theorem run_two (p : PState) (t : Str) : run (at_ p) (' ' :: ' ' :: t) = run (at_ p) t := run_blanks p 2 t

/-- `  v+=(e)` -/
theorem add_line {k : Kind} {c : Code} {r : List Frame} (hk : ∀ w, k ≠ .case_ w) {v : Str} (hv : isName v = true) {e : Str} {w : Word}
    (he : Element e w) :
    ReadsText ⟨.start, ⟨k, c⟩ :: r⟩ (S "  " ++ v ++ (S "+=(" ++ e ++ S ")")) ⟨.start, ⟨k, c ++ one (.addArray v [w])⟩ :: r⟩ := by
  obtain ⟨h1, h2, h3⟩ := he.reads
  refine .line (by simp [no_break_name hv, h3, S]) ?_
  have e1 : S "  " ++ v ++ (S "+=(" ++ e ++ S ")") ++ ['\n'] = ' ' :: ' ' :: (v ++ ("+=(".toList ++ (e ++ ')' :: ['\n']))) := by simp [S]
  rw [e1, run_two, read_add (show NotCase (⟨k, c⟩ :: r) from hk) hv h1 h2]
  rfl

/-- `  v+=(e);` -/
theorem add_semi_line {k : Kind} {c : Code} {r : List Frame} (hk : ∀ w, k ≠ .case_ w) {v : Str} (hv : isName v = true) {e : Str} {w : Word}
    (he : Element e w) :
    ReadsText ⟨.start, ⟨k, c⟩ :: r⟩ (S "  " ++ v ++ (S "+=(" ++ e ++ S ");")) ⟨.start, ⟨k, c ++ one (.addArray v [w])⟩ :: r⟩ := by
  obtain ⟨h1, h2, h3⟩ := he.reads
  refine .line (by simp [no_break_name hv, h3, S]) ?_
  have e1 : S "  " ++ v ++ (S "+=(" ++ e ++ S ");") ++ ['\n'] = ' ' :: ' ' :: (v ++ ("+=(".toList ++ (e ++ ')' :: [';', '\n']))) := by simp [S]
  rw [e1, run_two, read_add (show NotCase (⟨k, c⟩ :: r) from hk) hv h1 h2]
  show run (at_ _) [';', '\n'] = _
  rw [read_semi_end]; rfl

/-- `  v+=(e);;` -/
theorem add_dsemi_line {t : Str} {b : Code} {x : Word} {cl : Code} {r : List Frame} {v : Str} (hv : isName v = true) {e : Str} {w : Word}
    (he : Element e w) :
    ReadsText ⟨.start, ⟨.clause t, b⟩ :: ⟨.case_ x, cl⟩ :: r⟩ (S "  " ++ v ++ (S "+=(" ++ e ++ S ");;"))
      ⟨.start, ⟨.case_ x, cl ++ .clause t (b ++ one (.addArray v [w])) .done⟩ :: r⟩ := by
  obtain ⟨h1, h2, h3⟩ := he.reads
  refine .line (by simp [no_break_name hv, h3, S]) ?_
  have e1 : S "  " ++ v ++ (S "+=(" ++ e ++ S ");;") ++ ['\n'] = ' ' :: ' ' :: (v ++ ("+=(".toList ++ (e ++ ')' :: [';', ';', '\n']))) := by simp [S]
  rw [e1, run_two, read_add (show NotCase (⟨.clause t, b⟩ :: ⟨.case_ x, cl⟩ :: r) from fun _ h => by cases h) hv h1 h2]
  show run (at_ _) [';', ';', '\n'] = _
  rw [read_dsemi_end]; rfl

theorem continue_line {t : Str} {b : Code} {x : Word} {cl : Code} {r : List Frame} :
    ReadsText ⟨.start, ⟨.clause t, b⟩ :: ⟨.case_ x, cl⟩ :: r⟩ (S "  continue;;")
      ⟨.start, ⟨.case_ x, cl ++ .clause t (b ++ one (.continue_ 1)) .done⟩ :: r⟩ :=
  .line (by decide) (by kernel_rfl)

theorem continue2_line {t : Str} {b : Code} {x : Word} {cl : Code} {r : List Frame} :
    ReadsText ⟨.start, ⟨.clause t, b⟩ :: ⟨.case_ x, cl⟩ :: r⟩ (S "  continue 2;;")
      ⟨.start, ⟨.case_ x, cl ++ .clause t (b ++ one (.continue_ 2)) .done⟩ :: r⟩ :=
  .line (by decide) (by kernel_rfl)

theorem if_line {t : Str} {b : Code} {r : List Frame} :
    ReadsText ⟨.start, ⟨.clause t, b⟩ :: r⟩ (S "  if [[ -n \"$trailing_chars\" ]]")
      ⟨.start, ⟨.ifCond false, one (.nonempty wTrailing)⟩ :: ⟨.clause t, b⟩ :: r⟩ :=
  .line (by decide) (by kernel_rfl)

theorem then_line {c : Code} {r : List Frame} {v : Str} (hv : isName v = true) {e : Str} {w : Word} (he : Element e w) :
    ReadsText ⟨.start, ⟨.ifCond false, c⟩ :: r⟩ (S "  then " ++ v ++ (S "+=(" ++ e ++ S ")"))
      ⟨.start, ⟨.then_ false c, one (.addArray v [w])⟩ :: r⟩ := by
  obtain ⟨h1, h2, h3⟩ := he.reads
  refine .line (by simp [no_break_name hv, h3, S]) ?_
  have e1 : S "  then " ++ v ++ (S "+=(" ++ e ++ S ")") ++ ['\n'] = S "  then " ++ (v ++ ("+=(".toList ++ (e ++ ')' :: ['\n']))) := by simp [S]
  have e2 : run (at_ ⟨.start, ⟨.ifCond false, c⟩ :: r⟩) (S "  then ") = some (at_ ⟨.start, ⟨.then_ false c, .done⟩ :: r⟩) := by kernel_rfl
  rw [e1, run_then e2, read_add (show NotCase (⟨.then_ false c, .done⟩ :: r) from fun _ h => by cases h) hv h1 h2]
  rfl

theorem else_line {c th : Code} {r : List Frame} {v : Str} (hv : isName v = true) {e : Str} {w : Word} (he : Element e w) :
    ReadsText ⟨.start, ⟨.then_ false c, th⟩ :: r⟩ (S "  else " ++ v ++ (S "+=(" ++ e ++ S ")"))
      ⟨.start, ⟨.else_ false c th, one (.addArray v [w])⟩ :: r⟩ := by
  obtain ⟨h1, h2, h3⟩ := he.reads
  refine .line (by simp [no_break_name hv, h3, S]) ?_
  have e1 : S "  else " ++ v ++ (S "+=(" ++ e ++ S ")") ++ ['\n'] = S "  else " ++ (v ++ ("+=(".toList ++ (e ++ ')' :: ['\n']))) := by simp [S]
  have e2 : run (at_ ⟨.start, ⟨.then_ false c, th⟩ :: r⟩) (S "  else ") = some (at_ ⟨.start, ⟨.else_ false c th, .done⟩ :: r⟩) := by kernel_rfl
  rw [e1, run_then e2, read_add (show NotCase (⟨.else_ false c th, .done⟩ :: r) from fun _ h => by cases h) hv h1 h2]
  rfl

theorem fi_line {c th el : Code} {k : Kind} {b : Code} {r : List Frame} :
    ReadsText ⟨.start, ⟨.else_ false c th, el⟩ :: ⟨k, b⟩ :: r⟩ (S "  fi") ⟨.start, ⟨k, b ++ .if_ c th el .done⟩ :: r⟩ := by
  refine .line (by decide) ?_
  have : run (at_ ⟨.start, ⟨.else_ false c th, el⟩ :: ⟨k, b⟩ :: r⟩) (S "  fi" ++ ['\n']) =
      some (at_ ⟨.start, ⟨k, b ++ .if_ c th (el ++ .done) .done⟩ :: r⟩) := by kernel_rfl
  rw [this, append_done]

/-! ## Options -/

/-- What an option needs for its long options. -/
structure LongOk (o : BOpt) : Prop where
  var : isName o.var = true
  without : Pat (patWithout o)
  with_ : o.kind ≠ .flag → Pat (patWith o)

theorem long_text {o : BOpt} (h : LongOk o) (w : Word) (cl : Code) (r : List Frame) :
    ReadsText ⟨.start, ⟨.case_ w, cl⟩ :: r⟩ (v1LongText o) ⟨.start, ⟨.case_ w, cl ++ clauses (longClauses o)⟩ :: r⟩ := by
  unfold v1LongText longClauses
  cases hk : o.kind with
  | flag =>
    have := ((pattern_line (w := w) (cl := cl) (r := r) h.without).then
      ((add_line (k := .clause (patWithout o)) (fun _ h => by cases h) h.var .set).then continue_line))
    exact this.cast (by simp [S, patWithout]) rfl
  | optional =>
    have := ((pattern_line (w := w) (cl := cl) (r := r) h.without).then
      ((add_semi_line (k := .clause (patWithout o)) (fun _ h => by cases h) h.var .set).then (continue_line.then
        ((pattern_line (h.with_ (by simp [hk]))).then
          ((add_line (k := .clause (patWith o)) (fun _ h => by cases h) h.var .behind).then continue_line)))))
    rw [append_assoc'] at this
    exact this.cast (by simp [S, patWithout, patWith]) rfl
  | required =>
    have := ((pattern_line (w := w) (cl := cl) (r := r) h.without).then
      ((add_line (k := .clause (patWithout o)) (fun _ h => by cases h) h.var .next).then (continue_line.then
        ((pattern_line (h.with_ (by simp [hk]))).then
          ((add_line (k := .clause (patWith o)) (fun _ h => by cases h) h.var .behind).then continue_line)))))
    rw [append_assoc'] at this
    exact this.cast (by simp [S, patWithout, patWith]) rfl

/-- What an option needs for its short options. -/
structure ShortOk (o : BOpt) : Prop where
  var : isName o.var = true
  pattern : Pat (patShort o)

theorem short_text {o : BOpt} (h : ShortOk o) (w : Word) (cl : Code) (r : List Frame) :
    ReadsText ⟨.start, ⟨.case_ w, cl⟩ :: r⟩ (v1ShortText o) ⟨.start, ⟨.case_ w, cl ++ clauses (shortClauses o)⟩ :: r⟩ := by
  unfold v1ShortText shortClauses
  cases hk : o.kind with
  | flag =>
    have := ((pattern_line (w := w) (cl := cl) (r := r) h.pattern).then (add_dsemi_line h.var .set))
    exact this.cast (by simp [S, patShort]) rfl
  | optional =>
    have := ((pattern_line (w := w) (cl := cl) (r := r) h.pattern).then (if_line.then
      ((then_line h.var .trailing).then ((else_line h.var .set).then (fi_line.then continue2_line)))))
    exact this.cast (by simp [S, patShort]) rfl
  | required =>
    have := ((pattern_line (w := w) (cl := cl) (r := r) h.pattern).then (if_line.then
      ((then_line h.var .trailing).then ((else_line h.var .next).then (fi_line.then continue2_line)))))
    exact this.cast (by simp [S, patShort]) rfl

/-! ## Commands -/

theorem case_line {k : Kind} {c : Code} {r : List Frame} (hk : ∀ w, k ≠ .case_ w) {t : Str} (h : Pat t) :
    ReadsText ⟨.start, ⟨k, c⟩ :: r⟩ (S "case \"$cmd\" in " ++ (t ++ [')'])) ⟨.start, ⟨.clause t, .done⟩ :: ⟨.case_ [.var vCmd], .done⟩ :: ⟨k, c⟩ :: r⟩ := by
  refine .line (by simp [h.noBreak, S]) ?_
  have e1 : S "case \"$cmd\" in " ++ (t ++ [')']) ++ ['\n'] = "case".toList ++ (S " \"$cmd\" in " ++ (t ++ ')' :: ['\n'])) := by simp [S]
  have e2 : run ⟨.word, "case".toList, ⟨.start, ⟨k, c⟩ :: r⟩⟩ (S " \"$cmd\" in ") = some (at_ ⟨.start, ⟨.case_ [.var vCmd], .done⟩ :: ⟨k, c⟩ :: r⟩) := by
    kernel_rfl
  rw [e1, read_name (show NotCase (⟨k, c⟩ :: r) from hk) (by decide), run_then e2, read_pattern h.readable h.notEsac, run_newline]

/-- The word that a `case` of options looks at. -/
inductive CaseWord : Str → Prop
  | arg : CaseWord (S "arg")
  | char : CaseWord (S "char")

theorem case_word_line {t : Str} {c : Code} {r : List Frame} {v : Str} (hv : CaseWord v) :
    ReadsText ⟨.start, ⟨.clause t, c⟩ :: r⟩ (S "  case \"$" ++ v ++ S "\" in") ⟨.start, ⟨.case_ [.var v], .done⟩ :: ⟨.clause t, c⟩ :: r⟩ := by
  cases hv
  · exact .line (by decide) (by kernel_rfl)
  · exact .line (by decide) (by kernel_rfl)

theorem esac2_line {w : Word} {cl : Code} {t : Str} {c : Code} {r : List Frame} :
    ReadsText ⟨.start, ⟨.case_ w, cl⟩ :: ⟨.clause t, c⟩ :: r⟩ (S "  esac") ⟨.start, ⟨.clause t, c ++ .case_ w cl .done⟩ :: r⟩ :=
  .line (by decide) (by kernel_rfl)

theorem esac_line {t : Str} {b : Code} {w : Word} {cl : Code} {k : Kind} {c : Code} {r : List Frame} :
    ReadsText ⟨.start, ⟨.clause t, b⟩ :: ⟨.case_ w, cl⟩ :: ⟨k, c⟩ :: r⟩ (S "esac") ⟨.start, ⟨k, c ++ .case_ w (cl ++ .clause t b .done) .done⟩ :: r⟩ :=
  .line (by decide) (by kernel_rfl)

/-- The cases of the options of a command. -/
theorem cases_text {w : Word} {r : List Frame} {q : PState} (n : Nat) {rest : Str} : ∀ (l : List (Str × List (Str × Code))) (cl : Code),
    (∀ x ∈ l, ∀ cl, ReadsText ⟨.start, ⟨.case_ w, cl⟩ :: r⟩ x.1 ⟨.start, ⟨.case_ w, cl ++ clauses x.2⟩ :: r⟩) →
    (∀ cl', cl' = cl ++ clauses (l.flatMap (·.2)) → ReadsText ⟨.start, ⟨.case_ w, cl'⟩ :: r⟩ rest q) →
    ReadsText ⟨.start, ⟨.case_ w, cl⟩ :: r⟩ ((l.map (·.1)).flatMap (fun c => indent c n ++ ['\n']) ++ rest) q
  | [], cl, _, h => by
    simp only [List.map_nil, List.flatMap_nil, List.nil_append]
    exact h cl (append_done cl).symm
  | x :: l, cl, hl, h => by
    have h1 := (hl x (by simp) cl).indent n
    have h2 := cases_text n l (cl ++ clauses x.2) (fun y hy => hl y (List.mem_cons_of_mem _ hy)) (fun cl' e => h cl' (by
      rw [e, append_assoc', clauses_append]; rfl))
    exact (h1.then h2).cast (by simp) rfl

theorem block_text {word : Str} (hw : CaseWord word) {b : Block} (hb : Pat (patPath b)) {k : Kind} (hk : ∀ w, k ≠ .case_ w) (c : Code) (r : List Frame)
    (l : List (Str × List (Str × Code)))
    (hl : ∀ x ∈ l, ∀ w cl r, ReadsText ⟨.start, ⟨.case_ w, cl⟩ :: r⟩ x.1 ⟨.start, ⟨.case_ w, cl ++ clauses x.2⟩ :: r⟩) :
    ReadsText ⟨.start, ⟨k, c⟩ :: r⟩ (v1BlockText word b (l.map (·.1))) ⟨.start, ⟨k, c ++ blockCode word b (l.flatMap (·.2))⟩ :: r⟩ := by
  have h1 := case_line hk (c := c) (r := r) hb
  have h2 := case_word_line (t := patPath b) (c := .done) (r := ⟨.case_ [.var vCmd], .done⟩ :: ⟨k, c⟩ :: r) hw
  have h3 := cases_text (w := [.var word]) (r := ⟨.clause (patPath b), .done⟩ :: ⟨.case_ [.var vCmd], .done⟩ :: ⟨k, c⟩ :: r)
    (q := ⟨.start, ⟨k, c ++ blockCode word b (l.flatMap (·.2))⟩ :: r⟩) 4 (rest := S "  esac" ++ '\n' :: S "esac") l .done (fun x hx cl => hl x hx _ cl _) (by
      intro cl' e
      rw [done_append] at e
      subst e
      exact esac2_line.then esac_line)
  refine (h1.then (h2.then h3)).cast ?_ rfl
  simp [v1BlockText, patPath, S]

/-! ## The cases of the commands -/

/-- What the options of a command need. -/
structure BlockOk (b : Block) : Prop where
  path : Pat (patPath b)
  long : ∀ o ∈ b.opts, o.longs ≠ [] → LongOk o
  short : ∀ o ∈ b.opts, o.shorts ≠ [] → ShortOk o

def longOpts (b : Block) : List BOpt := b.opts.filter (fun o => !o.longs.isEmpty)
def shortOpts (b : Block) : List BOpt := b.opts.filter (fun o => !o.shorts.isEmpty)

/-- The programs of the commands. -/
def longCodes (blocks : List Block) : List Code :=
  blocks.filterMap (fun b => match longOpts b with
    | [] => none
    | os => some (blockCode (S "arg") b (os.flatMap longClauses)))

def shortCodes (blocks : List Block) : List Code :=
  blocks.filterMap (fun b => match shortOpts b with
    | [] => none
    | os => some (blockCode (S "char") b (os.flatMap shortClauses)))

/-- Texts, each with the program that it is. -/
structure Piece (k : Kind) (t : Str) (a : Code) : Prop where
  reads : ∀ c r, ReadsText ⟨.start, ⟨k, c⟩ :: r⟩ t ⟨.start, ⟨k, c ++ a⟩ :: r⟩

theorem long_block {b : Block} (h : BlockOk b) {k : Kind} (hk : ∀ w, k ≠ .case_ w) :
    Piece k (v1BlockText (S "arg") b ((longOpts b).map v1LongText)) (blockCode (S "arg") b ((longOpts b).flatMap longClauses)) := by
  constructor
  intro c r
  have := block_text .arg h.path hk c r ((longOpts b).map (fun o => (v1LongText o, longClauses o))) (by
    intro x hx w cl r
    obtain ⟨o, ho, rfl⟩ := List.mem_map.mp hx
    have ho' := List.mem_filter.mp ho
    exact long_text (h.long o ho'.1 (by simpa using ho'.2)) w cl r)
  exact this.cast (by simp [List.map_map, Function.comp_def]) (by simp [List.flatMap_map])

theorem short_block {b : Block} (h : BlockOk b) {k : Kind} (hk : ∀ w, k ≠ .case_ w) :
    Piece k (v1BlockText (S "char") b ((shortOpts b).map v1ShortText)) (blockCode (S "char") b ((shortOpts b).flatMap shortClauses)) := by
  constructor
  intro c r
  have := block_text .char h.path hk c r ((shortOpts b).map (fun o => (v1ShortText o, shortClauses o))) (by
    intro x hx w cl r
    obtain ⟨o, ho, rfl⟩ := List.mem_map.mp hx
    have ho' := List.mem_filter.mp ho
    exact short_text (h.short o ho'.1 (by simpa using ho'.2)) w cl r)
  exact this.cast (by simp [List.map_map, Function.comp_def]) (by simp [List.flatMap_map])

/-- Texts joined by empty lines. -/
theorem join_pieces {k : Kind} : ∀ (l : List (Str × Code)), l ≠ [] → (∀ x ∈ l, Piece k x.1 x.2) →
    Piece k (joinWith ['\n', '\n'] (l.map (·.1))) (codes (l.map (·.2)))
  | [x], _, h => by
    constructor
    intro c r
    exact ((h x (by simp)).reads c r).cast rfl (by show _ = _; rw [List.map_cons, List.map_nil, codes_cons]; show (PState.mk _ _) = _; rw [show codes [] = Code.done from rfl, append_done])
  | x :: y :: l, _, h => by
    have ih := join_pieces (y :: l) (by simp) (fun z hz => h z (List.mem_cons_of_mem _ hz))
    constructor
    intro c r
    refine (((h x (by simp)).reads c r).then_blank (ih.reads (c ++ x.2) r)).cast ?_ ?_
    · simp [joinWith]
    · rw [append_assoc']; rfl

/-- A placeholder that is filled in. -/
theorem filled {k : Kind} {l : List (Str × Code)} (h : ∀ x ∈ l, Piece k x.1 x.2) (n : Nat) (c : Code) (r : List Frame) (u : Str) :
    run (at_ ⟨.start, ⟨k, c⟩ :: r⟩) (fillIn n (joinCodes (l.map (·.1))) ++ u) = run (at_ ⟨.start, ⟨k, c ++ codes (l.map (·.2))⟩ :: r⟩) u := by
  cases l with
  | nil =>
    show run _ u = _
    rw [List.map_nil, show codes [] = Code.done from rfl, append_done]
  | cons x l =>
    have := ((join_pieces (x :: l) (by simp) h).reads c r).indent n
    show run _ ((indent (joinWith ['\n', '\n'] ((x :: l).map (·.1))) n ++ ['\n']) ++ u) = _
    rw [run_then this.run]

theorem long_texts (blocks : List Block) :
    v1LongTexts blocks = (blocks.filterMap (fun b => match longOpts b with
      | [] => none
      | os => some (v1BlockText (S "arg") b (os.map v1LongText), blockCode (S "arg") b (os.flatMap longClauses)))).map (·.1) ∧
    longCodes blocks = (blocks.filterMap (fun b => match longOpts b with
      | [] => none
      | os => some (v1BlockText (S "arg") b (os.map v1LongText), blockCode (S "arg") b (os.flatMap longClauses)))).map (·.2) := by
  constructor
  · rw [List.map_filterMap]; unfold v1LongTexts
    congr 1; funext b; unfold longOpts; generalize List.filter _ b.opts = os; cases os <;> rfl
  · rw [List.map_filterMap]; unfold longCodes
    congr 1; funext b; split <;> rfl

theorem short_texts (blocks : List Block) :
    v1ShortTexts blocks = (blocks.filterMap (fun b => match shortOpts b with
      | [] => none
      | os => some (v1BlockText (S "char") b (os.map v1ShortText), blockCode (S "char") b (os.flatMap shortClauses)))).map (·.1) ∧
    shortCodes blocks = (blocks.filterMap (fun b => match shortOpts b with
      | [] => none
      | os => some (v1BlockText (S "char") b (os.map v1ShortText), blockCode (S "char") b (os.flatMap shortClauses)))).map (·.2) := by
  constructor
  · rw [List.map_filterMap]; unfold v1ShortTexts
    congr 1; funext b; unfold shortOpts; generalize List.filter _ b.opts = os; cases os <;> rfl
  · rw [List.map_filterMap]; unfold shortCodes
    congr 1; funext b; split <;> rfl

theorem long_filled {blocks : List Block} (h : ∀ b ∈ blocks, BlockOk b) {k : Kind} (hk : ∀ w, k ≠ .case_ w) (n : Nat) (c : Code) (r : List Frame) (u : Str) :
    run (at_ ⟨.start, ⟨k, c⟩ :: r⟩) (fillIn n (joinCodes (v1LongTexts blocks)) ++ u) = run (at_ ⟨.start, ⟨k, c ++ codes (longCodes blocks)⟩ :: r⟩) u := by
  rw [(long_texts blocks).1, (long_texts blocks).2]
  refine filled ?_ n c r u
  intro x hx
  obtain ⟨b, hb, e⟩ := List.mem_filterMap.mp hx
  have := long_block (h b hb) hk
  split at e
  · cases e
  · cases e; exact this

theorem short_filled {blocks : List Block} (h : ∀ b ∈ blocks, BlockOk b) {k : Kind} (hk : ∀ w, k ≠ .case_ w) (n : Nat) (c : Code) (r : List Frame) (u : Str) :
    run (at_ ⟨.start, ⟨k, c⟩ :: r⟩) (fillIn n (joinCodes (v1ShortTexts blocks)) ++ u) = run (at_ ⟨.start, ⟨k, c ++ codes (shortCodes blocks)⟩ :: r⟩) u := by
  rw [(short_texts blocks).1, (short_texts blocks).2]
  refine filled ?_ n c r u
  intro x hx
  obtain ⟨b, hb, e⟩ := List.mem_filterMap.mp hx
  have := short_block (h b hb) hk
  split at e
  · cases e
  · cases e; exact this

/-! ## Subcommands -/

/-- A character that stands for itself in double quotes, on one line. -/
def quotable (c : Char) : Bool := c != '"' && c != '$' && c != '`' && c != '\\' && c != '\n'

theorem read_dq_chars (p : PState) (v : Str) (hv : v.all quotable = true) : ∀ (a : Str),
    run ⟨.dq, a, p⟩ v = some ⟨.dq, a ++ v, p⟩ := by
  induction v with
  | nil => intro a; simp [run]
  | cons c v ih =>
    intro a
    simp only [List.all_cons, Bool.and_eq_true] at hv
    obtain ⟨hc, hv⟩ := hv
    simp only [quotable, Bool.and_eq_true, bne_iff_ne, ne_eq] at hc
    obtain ⟨⟨⟨⟨h1, h2⟩, h3⟩, h4⟩, h5⟩ := hc
    have : step ⟨.dq, a, p⟩ c = some ⟨.dq, a ++ [c], p⟩ := by simp only [step, h1, h2, h3, h4, or_self, if_false]
    rw [run_cons, this]
    show run _ v = _
    rw [ih hv]; simp

theorem word_dq_chars (v : Str) (hv : v.all quotable = true) : ∀ (a : Word) (u : Str),
    (v ++ u).foldlM wstep (WMode.dq, a) = u.foldlM wstep (WMode.dq, a ++ lits v) := by
  induction v with
  | nil => intro a u; simp [lits]
  | cons c v ih =>
    intro a u
    simp only [List.all_cons, Bool.and_eq_true] at hv
    obtain ⟨hc, hv⟩ := hv
    simp only [quotable, Bool.and_eq_true, bne_iff_ne, ne_eq] at hc
    obtain ⟨⟨⟨⟨h1, h2⟩, h3⟩, h4⟩, h5⟩ := hc
    have : wstep (WMode.dq, a) c = some (WMode.dq, a ++ [.lit c]) := by simp only [wstep, dqChar, h1, h2, h3, h4, or_self, if_false]
    rw [List.cons_append, List.foldlM_cons, this]
    show List.foldlM wstep (WMode.dq, a ++ [.lit c]) (v ++ u) = _
    rw [ih hv]; simp [lits]

theorem no_break_quotable {v : Str} (hv : v.all quotable = true) : '\n' ∉ v := by
  intro hm
  have := List.all_eq_true.mp hv _ hm
  revert this; decide

/-- `cmd+=":name"` -/
def addCmd (v : Str) : Act := .add vCmd (lits (':' :: v))

theorem startWord_cmd (v : Str) (stack : List Frame) :
    startWord ("cmd+=\":".toList ++ (v ++ ['"'])) stack = some ⟨.words ["cmd+=\":".toList ++ (v ++ ['"'])], stack⟩ := by
  have key : ∀ k : Str, k.head? ≠ some 'c' ∨ k.tail.head? ≠ some 'm' → "cmd+=\":".toList ++ (v ++ ['"']) ≠ k := by
    rintro k hk rfl
    rcases hk with hk | hk <;> · apply hk; simp
  unfold startWord
  rw [if_neg (key _ (by decide)), if_neg (key _ (by decide)), if_neg (key _ (by decide)), if_neg (key _ (by decide)), if_neg (key _ (by decide)),
    if_neg (key _ (by decide)), if_neg (key _ (by decide)), if_neg (key _ (by decide)), if_neg (key _ (by decide)), if_neg (key _ (by decide))]
  rw [if_neg]
  intro hm
  simp only [List.mem_cons, List.not_mem_nil, or_false] at hm
  rcases hm with h | h | h | h | h | h | h | h | h | h <;> exact key _ (by decide) h

theorem readSimple_cmd {v : Str} (hv : v.all quotable = true) :
    readSimple ["cmd+=\":".toList ++ (v ++ ['"'])] = some (one (addCmd v)) := by
  have key : ∀ k : Str, k.head? ≠ some 'c' ∨ k.tail.head? ≠ some 'm' → "cmd+=\":".toList ++ (v ++ ['"']) ≠ k := by
    rintro k hk rfl
    rcases hk with hk | hk <;> · apply hk; simp
  unfold readSimple
  simp only
  rw [if_neg (key _ (by decide)), if_neg (key _ (by decide)), if_neg (key _ (by decide)), if_neg (key _ (by decide)), if_neg (key _ (by decide))]
  have h1 : spanName ("cmd+=\":".toList ++ (v ++ ['"'])) = some ("cmd".toList, '+' :: '=' :: '"' :: ':' :: (v ++ ['"'])) :=
    span_name (v := "cmd".toList) (by decide) '+' (by decide) _
  have h2 : readWord ('"' :: ':' :: (v ++ ['"'])) = some (lits (':' :: v)) := by
    unfold readWord
    have : List.foldlM wstep (WMode.plain, ([] : Word)) ('"' :: ':' :: (v ++ ['"'])) = List.foldlM wstep (WMode.dq, lits [':']) (v ++ ['"']) := rfl
    rw [this, word_dq_chars v hv]
    have : List.foldlM wstep (WMode.dq, lits [':'] ++ lits v) ['"'] = some (WMode.plain, lits [':'] ++ lits v) := rfl
    rw [this]; rfl
  have h3 : readAssign ("cmd+=\":".toList ++ (v ++ ['"'])) = some (addCmd v) := by
    unfold readAssign
    rw [h1]
    show (readWord ('"' :: ':' :: (v ++ ['"']))).map (Act.add "cmd".toList) = _
    rw [h2]; rfl
  rw [h3]; rfl

theorem read_cmd {t : Str} {b : Code} {w : Word} {cl : Code} {r : List Frame} {v : Str} (hv : v.all quotable = true) :
    run (at_ ⟨.start, ⟨.clause t, b⟩ :: ⟨.case_ w, cl⟩ :: r⟩) (S " cmd+=\":" ++ (v ++ S "\";;\n")) =
      some (at_ ⟨.start, ⟨.case_ w, cl ++ .clause t (b ++ one (addCmd v)) .done⟩ :: r⟩) := by
  have e1 : run (at_ ⟨.start, ⟨.clause t, b⟩ :: ⟨.case_ w, cl⟩ :: r⟩) (S " cmd+=\":") =
      some ⟨.dq, "cmd+=\":".toList, ⟨.start, ⟨.clause t, b⟩ :: ⟨.case_ w, cl⟩ :: r⟩⟩ := by kernel_rfl
  rw [run_then e1, run_then (read_dq_chars _ v hv _)]
  have e2 : step ⟨.dq, "cmd+=\":".toList ++ v, ⟨.start, ⟨.clause t, b⟩ :: ⟨.case_ w, cl⟩ :: r⟩⟩ '"' =
      some ⟨.word, "cmd+=\":".toList ++ (v ++ ['"']), ⟨.start, ⟨.clause t, b⟩ :: ⟨.case_ w, cl⟩ :: r⟩⟩ := by
    rw [← List.append_assoc]; rfl
  show run _ ('"' :: S ";;\n") = _
  rw [run_cons, e2]
  show run _ (';' :: S ";\n") = _
  have e3 : step ⟨.word, "cmd+=\":".toList ++ (v ++ ['"']), ⟨.start, ⟨.clause t, b⟩ :: ⟨.case_ w, cl⟩ :: r⟩⟩ ';' =
      some ⟨.semi, [], ⟨.words ["cmd+=\":".toList ++ (v ++ ['"'])], ⟨.clause t, b⟩ :: ⟨.case_ w, cl⟩ :: r⟩⟩ := by
    show (startWord ("cmd+=\":".toList ++ (v ++ ['"'])) _).bind (fun p => gapStep p ';') = _
    rw [startWord_cmd]; rfl
  rw [run_cons, e3]
  show run _ (';' :: ['\n']) = _
  have e4 : step ⟨.semi, [], ⟨.words ["cmd+=\":".toList ++ (v ++ ['"'])], ⟨.clause t, b⟩ :: ⟨.case_ w, cl⟩ :: r⟩⟩ ';' =
      some (at_ ⟨.start, ⟨.case_ w, cl ++ .clause t (b ++ one (addCmd v)) .done⟩ :: r⟩) := by
    show ((readSimple ["cmd+=\":".toList ++ (v ++ ['"'])]).bind _).map _ = _
    rw [readSimple_cmd hv]; rfl
  rw [run_cons, e4]
  exact run_newline

/-- `cmd+=":$arg"` -/
def addArg : Act := .add vCmd [.lit ':', .var vArg]

/-- What the names of a command need. -/
structure NameOk (e : List Str × Str) : Prop where
  pattern : Pat (makePattern e.1)
  name : e.2.all quotable = true

theorem name_line {w : Word} {cl : Code} {r : List Frame} {e : List Str × Str} (h : NameOk e) :
    ReadsText ⟨.start, ⟨.case_ w, cl⟩ :: r⟩ (S "  " ++ makePattern e.1 ++ S ") cmd+=\":" ++ e.2 ++ S "\";;")
      ⟨.start, ⟨.case_ w, cl ++ .clause (makePattern e.1) (one (addCmd e.2)) .done⟩ :: r⟩ := by
  refine .line (by simp [h.pattern.noBreak, no_break_quotable h.name, S]) ?_
  have e1 : S "  " ++ makePattern e.1 ++ S ") cmd+=\":" ++ e.2 ++ S "\";;" ++ ['\n'] =
    ' ' :: ' ' :: (makePattern e.1 ++ ')' :: (S " cmd+=\":" ++ (e.2 ++ S "\";;\n"))) := by simp [S]
  rw [e1, run_two, read_pattern h.pattern.readable h.pattern.notEsac, read_cmd h.name, done_append]

theorem names_text {w : Word} {r : List Frame} {q : PState} {rest : Str} : ∀ (l : List (List Str × Str)) (cl : Code),
    (∀ x ∈ l, NameOk x) →
    (∀ cl', cl' = cl ++ clauses (l.map (fun e => (makePattern e.1, one (addCmd e.2)))) → ReadsText ⟨.start, ⟨.case_ w, cl'⟩ :: r⟩ rest q) →
    ReadsText ⟨.start, ⟨.case_ w, cl⟩ :: r⟩ (l.flatMap (fun e => S "  " ++ makePattern e.1 ++ S ") cmd+=\":" ++ e.2 ++ S "\";;\n") ++ rest) q
  | [], cl, _, h => by
    simp only [List.flatMap_nil, List.nil_append]
    exact h cl (append_done cl).symm
  | x :: l, cl, hl, h => by
    have h1 := name_line (w := w) (cl := cl) (r := r) (hl x (by simp))
    have h2 := names_text l (cl ++ .clause (makePattern x.1) (one (addCmd x.2)) .done) (fun y hy => hl y (List.mem_cons_of_mem _ hy)) (fun cl' e => h cl' (by
      rw [e, append_assoc']; rfl))
    exact (h1.then h2).cast (by simp [S]) rfl

theorem star_line {w : Word} {cl : Code} {r : List Frame} :
    ReadsText ⟨.start, ⟨.case_ w, cl⟩ :: r⟩ (S "  *) cmd+=\":$arg\";;") ⟨.start, ⟨.case_ w, cl ++ .clause ['*'] (one addArg) .done⟩ :: r⟩ :=
  .line (by decide) (by kernel_rfl)

theorem joinWith_two (sep : Str) : ∀ (a b : List Str), a ≠ [] → b ≠ [] → joinWith sep (a ++ b) = joinWith sep a ++ sep ++ joinWith sep b
  | [x], b, _, hb => by
    cases b with
    | nil => exact absurd rfl hb
    | cons y b => rfl
  | x :: y :: a, b, _, hb => by
    have := joinWith_two sep (y :: a) b (by simp) hb
    show x ++ sep ++ joinWith sep ((y :: a) ++ b) = _
    rw [this]; simp [joinWith]

theorem indent_two (a b : Str) (n : Nat) : indent (a ++ '\n' :: b) n = indent a n ++ '\n' :: indent b n := by
  have e : a ++ '\n' :: b = joinWith ['\n'] (splitOn '\n' a ++ splitOn '\n' b) := by
    rw [joinWith_two _ _ _ (splitOn_ne_nil _ _) (splitOn_ne_nil _ _), join_splitOn, join_splitOn]; simp
  have h : splitOn '\n' (a ++ '\n' :: b) = splitOn '\n' a ++ splitOn '\n' b := by
    rw [e, splitOn_join _ _ (by simp [splitOn_ne_nil])]
    intro w hw
    rcases List.mem_append.mp hw with h | h <;> exact splitOn_no_sep _ _ _ h
  unfold indent
  rw [h, List.map_append, joinWith_two _ _ _ (by simp [splitOn_ne_nil]) (by simp [splitOn_ne_nil])]; simp

/-- What a case of the switch needs. -/
structure SwitchOk (c : SwitchCase) : Prop where
  label : Pat (quote (c.path ++ '|' :: natStr c.num))
  names : ∀ e ∈ c.names, NameOk e

/-- The program of a case of the switch. -/
def nameClauses (names : List (List Str × Str)) : List (Str × Code) :=
  names.map (fun e => (makePattern e.1, one (addCmd e.2))) ++ [(['*'], one addArg)]

def switchBody (names : List (List Str × Str)) : Code :=
  if names = [] then one addArg else .case_ [.var vArg] (clauses (nameClauses names)) .done

def switchCode (cases : List SwitchCase) : Code :=
  if cases = [] then .done
  else .case_ [.var vCmd, .lit '|', .count vPos]
    (clauses (cases.map (fun c => (quote (c.path ++ '|' :: natStr c.num), switchBody c.names)))) .done

theorem case_arg_line {t : Str} {c : Code} {r : List Frame} :
    ReadsText ⟨.start, ⟨.clause t, c⟩ :: r⟩ (S "case \"$arg\" in") ⟨.start, ⟨.case_ [.var vArg], .done⟩ :: ⟨.clause t, c⟩ :: r⟩ :=
  .line (by decide) (by kernel_rfl)

theorem esac_dsemi_line {w : Word} {cl : Code} {t : Str} {c : Code} {w' : Word} {cl' : Code} {r : List Frame} :
    ReadsText ⟨.start, ⟨.case_ w, cl⟩ :: ⟨.clause t, c⟩ :: ⟨.case_ w', cl'⟩ :: r⟩ (S "    esac;;")
      ⟨.start, ⟨.case_ w', cl' ++ .clause t (c ++ .case_ w cl .done) .done⟩ :: r⟩ :=
  .line (by decide) (by kernel_rfl)

/-- The text of a case of the switch, without the line break at its end. -/
def switchOneText (c : SwitchCase) : Str :=
  let label := quote (c.path ++ '|' :: natStr c.num)
  let code := switchCaseText c.names
  if code.contains '\n' then S "  " ++ label ++ S ")\n" ++ indent code 4 ++ S ";;"
  else S "  " ++ label ++ S ") " ++ code ++ S ";;"

theorem label_line {w : Word} {cl : Code} {r : List Frame} {t : Str} (h : Pat t) :
    ReadsText ⟨.start, ⟨.case_ w, cl⟩ :: r⟩ (S "  " ++ t ++ [')']) ⟨.start, ⟨.clause t, .done⟩ :: ⟨.case_ w, cl⟩ :: r⟩ := by
  refine .line (by simp [h.noBreak, S]) ?_
  have e1 : S "  " ++ t ++ [')'] ++ ['\n'] = ' ' :: ' ' :: (t ++ ')' :: ['\n']) := by simp [S]
  rw [e1, run_two, read_pattern h.readable h.notEsac, run_newline]

theorem switch_one {w : Word} {cl : Code} {r : List Frame} {c : SwitchCase} (h : SwitchOk c) :
    ReadsText ⟨.start, ⟨.case_ w, cl⟩ :: r⟩ (switchOneText c)
      ⟨.start, ⟨.case_ w, cl ++ .clause (quote (c.path ++ '|' :: natStr c.num)) (switchBody c.names) .done⟩ :: r⟩ := by
  unfold switchOneText switchCaseText switchBody
  cases hn : c.names with
  | nil =>
    simp only [List.isEmpty_nil, if_true]
    rw [if_neg (by decide)]
    refine .line (by simp [h.label.noBreak, S]) ?_
    have e1 : S "  " ++ quote (c.path ++ '|' :: natStr c.num) ++ S ") " ++ S "cmd+=\":$arg\"" ++ S ";;" ++ ['\n'] =
      ' ' :: ' ' :: (quote (c.path ++ '|' :: natStr c.num) ++ ')' :: (S " cmd+=\":$arg\";;\n")) := by simp [S]
    rw [e1, run_two, read_pattern h.label.readable h.label.notEsac]
    show run _ _ = some _
    kernel_rfl
  | cons e es =>
    simp only [List.isEmpty_cons, Bool.false_eq_true, if_false, reduceCtorEq]
    rw [if_pos (by simp [S])]
    have h2 := names_text (w := [.var vArg]) (r := ⟨.clause (quote (c.path ++ '|' :: natStr c.num)), .done⟩ :: ⟨.case_ w, cl⟩ :: r)
      (q := ⟨.start, ⟨.case_ [.var vArg], clauses (nameClauses (e :: es))⟩ :: ⟨.clause (quote (c.path ++ '|' :: natStr c.num)), .done⟩ :: ⟨.case_ w, cl⟩ :: r⟩)
      (rest := S "  *) cmd+=\":$arg\";;") (e :: es) .done (hn ▸ h.names) (by
        intro cl' ecl
        rw [done_append] at ecl
        subst ecl
        have := star_line (w := [.var vArg]) (cl := clauses ((e :: es).map (fun e => (makePattern e.1, one (addCmd e.2)))))
          (r := ⟨.clause (quote (c.path ++ '|' :: natStr c.num)), .done⟩ :: ⟨.case_ w, cl⟩ :: r)
        refine this.cast rfl ?_
        have e2 : Code.clause ['*'] (one addArg) .done = clauses [(['*'], one addArg)] := rfl
        rw [e2, clauses_append]; rfl)
    have h3 := (case_arg_line.then h2).indent 4
    have h4 := (label_line (w := w) (cl := cl) (r := r) h.label).then (h3.then esac_dsemi_line)
    refine h4.cast ?_ rfl
    have e3 : S "case \"$arg\" in\n" ++ List.flatMap (fun e => S "  " ++ makePattern e.fst ++ S ") cmd+=\":" ++ e.snd ++ S "\";;\n") (e :: es) ++
        S "  *) cmd+=\":$arg\";;\n" ++ S "esac" =
        (S "case \"$arg\" in" ++ '\n' :: (List.flatMap (fun e => S "  " ++ makePattern e.fst ++ S ") cmd+=\":" ++ e.snd ++ S "\";;\n") (e :: es) ++ S "  *) cmd+=\":$arg\";;")) ++
          '\n' :: S "esac" := by simp [S]
    rw [e3, indent_two, show indent (S "esac") 4 = S "    esac" from by decide]
    simp [S]

theorem switch_text {k : Kind} {cases : List SwitchCase} (h : ∀ c ∈ cases, SwitchOk c) {t : Str} (e : switchText cases = some t) (x : Str) (hk : k = .clause x) :
    Piece k t (switchCode cases) := by
  subst hk
  constructor
  intro c r
  unfold switchText at e
  cases hc : cases with
  | nil => simp [hc] at e
  | cons c0 cs =>
    have hne : cases ≠ [] := by simp [hc]
    rw [if_neg (by simp [hne])] at e
    have e := Option.some.inj e
    have h1 : ReadsText ⟨.start, ⟨.clause x, c⟩ :: r⟩ (S "case \"$cmd|${#POSITIONALS[@]}\" in")
        ⟨.start, ⟨.case_ [.var vCmd, .lit '|', .count vPos], .done⟩ :: ⟨.clause x, c⟩ :: r⟩ := .line (by decide) (by kernel_rfl)
    have h2 : ∀ (l : List SwitchCase) (cl : Code), (∀ c ∈ l, SwitchOk c) →
        ReadsText ⟨.start, ⟨.case_ [.var vCmd, .lit '|', .count vPos], cl⟩ :: ⟨.clause x, c⟩ :: r⟩
          (l.flatMap (fun c => switchOneText c ++ ['\n']) ++ S "esac")
          ⟨.start, ⟨.clause x, c ++ .case_ [.var vCmd, .lit '|', .count vPos] (cl ++ clauses (l.map (fun c => (quote (c.path ++ '|' :: natStr c.num), switchBody c.names)))) .done⟩ :: r⟩ := by
      intro l
      induction l with
      | nil =>
        intro cl _
        rw [List.map_nil, show clauses [] = Code.done from rfl, append_done]
        exact .line (by decide) (by kernel_rfl)
      | cons y l ih =>
        intro cl hl
        have g1 := switch_one (w := [.var vCmd, .lit '|', .count vPos]) (cl := cl) (r := ⟨.clause x, c⟩ :: r) (hl y (by simp))
        have g2 := ih (cl ++ .clause (quote (y.path ++ '|' :: natStr y.num)) (switchBody y.names) .done) (fun z hz => hl z (List.mem_cons_of_mem _ hz))
        rw [append_assoc'] at g2
        exact (g1.then g2).cast (by simp) rfl
    refine (h1.then (h2 cases .done h)).cast ?_ ?_
    · rw [← e]
      have : (fun c : SwitchCase =>
          let label := quote (c.path ++ '|' :: natStr c.num)
          let code := switchCaseText c.names
          if code.contains '\n' then S "  " ++ label ++ S ")\n" ++ indent code 4 ++ S ";;\n"
          else S "  " ++ label ++ S ") " ++ code ++ S ";;\n") = (fun c => switchOneText c ++ ['\n']) := by
        funext c
        unfold switchOneText
        simp only
        split <;> simp [S]
      rw [this]
      simp [S]
    · rw [done_append]
      unfold switchCode
      rw [if_neg (by simp)]
      simp only [hc]

/-! ## The function -/

/-- The words that are positional arguments, in the loop. -/
def positionalCode (cases : List SwitchCase) : Code := .act (.addArray vPos [[.var vArg]]) (switchCode cases)

/-- The loop over the letters of a word. -/
def letterCode (blocks : List Block) : Code :=
  .act (.set vChar [.char vArg vI]) (.act (.set vTrailing [.from_ vArg (.add (.var vI) (.num 1))]) (codes (shortCodes blocks)))

/-- A word that begins with `-`. -/
def dashCode (blocks : List Block) : Code :=
  codes (longCodes blocks) ++ .loop (.set vI 1) (.lt (.var vI) (.len vArg)) (.atom (.inc vI)) (letterCode blocks) .done

/-- `--`. -/
def endCode : Code :=
  .act (.set vEnd (lits ['1'])) (.act (.addArray vPos [[.slice vWords (.atom (.inc vArgi))]]) (one (.return_ none)))

/-- One word. -/
def wordCode (blocks : List Block) (cases : List SwitchCase) : Code :=
  .act (.set vArg [.elem vWords (.atom (.var vArgi))])
    (.case_ [.var vArg] (clauses [(S "--", endCode), (S "-?*", dashCode blocks), (['*'], positionalCode cases)]) .done)

/-- The words behind the loop. -/
def restCode : Code :=
  .case_ [.elem vWords (.atom (.var vArgi))]
    (clauses [(S "-?*", .done), (['*'], one (.addArray vPos [[.elem vWords (.atom (.var vArgi))]]))]) .done

/-- The program. -/
def v1Code (blocks : List Block) (cases : List SwitchCase) : Code :=
  .act (.setArray vPos []) (.act (.set vEnd (lits ['0']))
    (.act (.localSet vCmd (lits "root".toList)) (.act (.local_ vArgi) (.act (.local_ vArg) (.act (.local_ vI) (.act (.local_ vChar) (.act (.local_ vTrailing)
      (.loop (.set vArgi 1) (.lt (.var vArgi) (.var vCword)) (.atom (.inc vArgi)) (wordCode blocks cases)
        (.loop .empty (.le (.var vArgi) (.var vCword)) (.atom (.inc vArgi)) restCode .done)))))))))

def headText : Str :=
  S "POSITIONALS=()\n" ++
  S "END_OF_OPTIONS=0\n" ++
  S "\n" ++
  S "local cmd=\"root\" argi arg i char trailing_chars\n" ++
  S "\n" ++
  S "for ((argi=1; argi < cword; ++argi)); do\n" ++
  S "  arg=\"${words_dequoted[argi]}\"\n" ++
  S "\n" ++
  S "  case \"$arg\" in\n" ++
  S "    --)\n" ++
  S "      END_OF_OPTIONS=1\n" ++
  S "      POSITIONALS+=(\"${words_dequoted[@]:$((++argi))}\")\n" ++
  S "      return;;\n" ++
  S "    -?*) # ignore '-'\n"

def lettersText : Str :=
  S "      for ((i=1; i < ${#arg}; ++i)); do\n" ++
  S "        char=\"${arg:$i:1}\"\n" ++
  S "        trailing_chars=\"${arg:$((i + 1))}\"\n"

def positionalText : Str :=
  S "      done;;\n" ++
  S "    *)\n" ++
  S "      POSITIONALS+=(\"$arg\")\n"

def lastText : Str :=
  S "      ;;\n" ++
  S "  esac\n" ++
  S "done\n" ++
  S "\n" ++
  S "for ((; argi <= cword; ++argi)); do\n" ++
  S "  case \"${words_dequoted[argi]}\" in\n" ++
  S "    -?*);;\n" ++
  S "    *) POSITIONALS+=(\"${words_dequoted[argi]}\");;\n" ++
  S "  esac\n" ++
  S "done"

/-- The commands before the loop. -/
def headCode : Code :=
  .act (.setArray vPos []) (.act (.set vEnd (lits ['0']))
    (.act (.localSet vCmd (lits "root".toList)) (.act (.local_ vArgi) (.act (.local_ vArg) (.act (.local_ vI) (.act (.local_ vChar) (one (.local_ vTrailing))))))))

def loopFrame : Frame := ⟨.loop (.set vArgi 1) (.lt (.var vArgi) (.var vCword)) (.atom (.inc vArgi)), one (.set vArg [.elem vWords (.atom (.var vArgi))])⟩
def lettersFrame : Kind := .loop (.set vI 1) (.lt (.var vI) (.len vArg)) (.atom (.inc vI))
def topFrame : Frame := ⟨.top, headCode⟩

theorem read_head : run {} headText =
    some (at_ ⟨.start, [⟨.clause (S "-?*"), .done⟩, ⟨.case_ [.var vArg], .clause (S "--") endCode .done⟩, loopFrame, topFrame]⟩) := by
  kernel_rfl

theorem read_letters (c : Code) (x : Str) (r : List Frame) : run (at_ ⟨.start, ⟨.clause x, c⟩ :: r⟩) lettersText =
    some (at_ ⟨.start, ⟨lettersFrame, .act (.set vChar [.char vArg vI]) (one (.set vTrailing [.from_ vArg (.add (.var vI) (.num 1))]))⟩ :: ⟨.clause x, c⟩ :: r⟩) := by
  kernel_rfl

theorem read_positional (b c : Code) (x : Str) (w : Word) (cl : Code) (r : List Frame) :
    run (at_ ⟨.start, ⟨lettersFrame, b⟩ :: ⟨.clause x, c⟩ :: ⟨.case_ w, cl⟩ :: r⟩) positionalText =
    some (at_ ⟨.start, ⟨.clause ['*'], one (.addArray vPos [[.var vArg]])⟩ ::
      ⟨.case_ w, cl ++ .clause x (c ++ .loop (.set vI 1) (.lt (.var vI) (.len vArg)) (.atom (.inc vI)) b .done) .done⟩ :: r⟩) := by
  kernel_rfl

theorem read_last (b : Code) (w : Word) (cl : Code) (c : Code) :
    run (at_ ⟨.start, ⟨.clause ['*'], b⟩ :: ⟨.case_ w, cl⟩ :: loopFrame :: ⟨.top, c⟩ :: []⟩) (lastText ++ ['\n']) =
    some (at_ ⟨.start, [⟨.top, c ++ .loop (.set vArgi 1) (.lt (.var vArgi) (.var vCword)) (.atom (.inc vArgi))
        (.act (.set vArg [.elem vWords (.atom (.var vArgi))]) (.case_ w (cl ++ .clause ['*'] b .done) .done)) .done ++
      .loop .empty (.le (.var vArgi) (.var vCword)) (.atom (.inc vArgi)) restCode .done⟩]⟩) := by
  kernel_rfl

theorem text_v1 (blocks : List Block) (cases : List SwitchCase) : v1Text blocks cases ++ ['\n'] = headText ++ (fillIn 6 (joinCodes (v1LongTexts blocks)) ++ (lettersText ++
      (fillIn 8 (joinCodes (v1ShortTexts blocks)) ++ (positionalText ++ (fillIn 6 (switchText cases) ++ (lastText ++ ['\n'])))))) := by
  unfold v1Text headText lettersText positionalText lastText
  generalize S "POSITIONALS=()\n" = a1
  generalize fillIn 6 (switchText cases) = a2
  generalize fillIn 8 (joinCodes (v1ShortTexts blocks)) = a3
  generalize fillIn 6 (joinCodes (v1LongTexts blocks)) = a4
  simp only [List.append_assoc]

/-- The text of the function is the program. -/
theorem read_v1 {blocks : List Block} {cases : List SwitchCase} (hb : ∀ b ∈ blocks, BlockOk b) (hc : ∀ c ∈ cases, SwitchOk c) :
    read (v1Text blocks cases) = some (v1Code blocks cases) := by
  unfold read
  rw [text_v1, run_then read_head, long_filled hb (fun _ h => by cases h), run_then (read_letters _ _ _), short_filled hb (fun _ h => by cases h),
    run_then (read_positional _ _ _ _ _ _)]
  have hs : ∀ (w : Word) (cl : Code) (r : List Frame) (u : Str),
      run (at_ ⟨.start, ⟨.clause ['*'], one (.addArray vPos [[.var vArg]])⟩ :: ⟨.case_ w, cl⟩ :: r⟩) (fillIn 6 (switchText cases) ++ u) =
        run (at_ ⟨.start, ⟨.clause ['*'], positionalCode cases⟩ :: ⟨.case_ w, cl⟩ :: r⟩) u := by
    intro w cl r u
    cases ht : switchText cases with
    | none =>
      have : cases = [] := by
        cases cases with
        | nil => rfl
        | cons _ _ => simp [switchText] at ht
      subst this
      rfl
    | some t =>
      have := ((switch_text hc ht ['*'] rfl).reads (one (.addArray vPos [[.var vArg]])) (⟨.case_ w, cl⟩ :: r)).indent 6
      show run _ ((indent t 6 ++ ['\n']) ++ u) = _
      rw [run_then this.run]; rfl
  rw [hs, topFrame, read_last]
  rfl

end BashText
