import Verif.Lemmas.BashStmts
/-!
# What the lines of the completers' code are read as
-/

namespace CC
open BashCode

theorem words_split (a : Str) (as : List Str) :
    ((a :: as).dropLast.map tok) ++ [tok ((a :: as).getLast (by simp))] = (a :: as).map tok := by
  have := List.dropLast_concat_getLast (l := a :: as) (by simp)
  rw [← List.map_singleton, ← List.map_append, this]

theorem run_words (a : Str) (as : List Str) (o : List Tok) (m : BashCode.Mode) (hm : m = .gap ∨ m = .oper) (c : Char)
    (st : List Tok → State)
    (hc : ∀ w o', run ⟨.word, w, [], o'⟩ [c] = some (st (o' ++ [.word w]))) :
    run ⟨m, [], [], o⟩ (joinQuoted (a :: as) ++ [c]) = some (st (o ++ (a :: as).map tok)) := by
  obtain ⟨last, h1, h2⟩ := run_joinQuoted a as o m hm
  rw [run_append, h1, Option.bind_some, hc, h2, List.append_assoc]
  have := words_split a as
  simp only [tok] at this ⊢
  rw [this]

theorem run_words_nl (a : Str) (as : List Str) (o : List Tok) (m : BashCode.Mode) (hm : m = .gap ∨ m = .oper) :
    run ⟨m, [], [], o⟩ (joinQuoted (a :: as) ++ ['\n']) = some { out := o ++ (a :: as).map tok ++ [.nl] } :=
  run_words a as o m hm '\n' (fun x => { out := x ++ [.nl] }) (by intros; simp [run, step])

theorem run_words_blank (a : Str) (as : List Str) (o : List Tok) (m : BashCode.Mode) (hm : m = .gap ∨ m = .oper) :
    run ⟨m, [], [], o⟩ (joinQuoted (a :: as) ++ [' ']) = some { out := o ++ (a :: as).map tok } :=
  run_words a as o m hm ' ' (fun x => { out := x }) (by intros; rfl)

theorem run_words_close (a : Str) (as : List Str) (o : List Tok) (m : BashCode.Mode) (hm : m = .gap ∨ m = .oper) :
    run ⟨m, [], [], o⟩ (joinQuoted (a :: as) ++ [')']) =
      some ⟨.oper, [], [], o ++ (a :: as).map tok ++ [.op ')' true]⟩ :=
  run_words a as o m hm ')' (fun x => ⟨.oper, [], [], x ++ [.op ')' true]⟩) (by intros; simp [run, step, operators])

/-- A command. -/
theorem reads_call (w : Str) (ws : List Str) (h : w ≠ "local".toList) :
    ReadsAs (joinQuoted (w :: ws)) [.call (w :: ws)] :=
  ReadsAs.line (l := (w :: ws).map tok) (by have := run_words_nl w ws [] .gap (Or.inl rfl); simpa using this)
    (by simp) (by simp) (stmt_call w ws h)

/-- A command with the elements of an array. -/
theorem reads_callWith (a : String) (ha : a = "a" ∨ a = "COMPREPLY") (w : Str) (ws : List Str)
    (h : w ≠ "local".toList) :
    ReadsAs (joinQuoted (w :: ws) ++ S " \"${" ++ a.toList ++ S "[@]}\"") [.callWith (w :: ws) a.toList] := by
  refine ReadsAs.line (l := (w :: ws).map tok ++ [.word [.exp ("{" ++ a ++ "[@]}").toList]]) ?_ (by simp) (by simp)
    (stmt_callWith a ha w ws h)
  have e : joinQuoted (w :: ws) ++ S " \"${" ++ a.toList ++ S "[@]}\"" ++ ['\n'] =
      (joinQuoted (w :: ws) ++ [' ']) ++ (S "\"${" ++ a.toList ++ S "[@]}\"" ++ ['\n']) := by
    simp [S]
  rw [e, run_append]
  have h1 := run_words_blank w ws [] .gap (Or.inl rfl)
  have h2 : ∀ o, run { out := o } (S "\"${" ++ a.toList ++ S "[@]}\"" ++ ['\n']) =
      some { out := o ++ [.word [.exp ("{" ++ a ++ "[@]}").toList]] ++ [.nl] } := by
    intro o
    rcases ha with rfl | rfl
    · simp [S, run, step, atStart, nameChar]
    · simp [S, run, step, atStart, nameChar]
  show (run ⟨.gap, [], [], []⟩ _).bind _ = _
  rw [h1, Option.bind_some, h2]
  simp

/-- A call of `compgen`. -/
theorem reads_compgen (append : Bool) (w : Str) (ws : List Str) :
    ReadsAs (S "COMPREPLY" ++ (if append then S "+" else []) ++ S "=($(compgen " ++ joinQuoted (w :: ws) ++
      S " -- \"$cur\"))") [.compgen append (w :: ws)] := by
  refine ReadsAs.line (l := [lit ("COMPREPLY" ++ (if append then "+" else "") ++ "="), .op '(' true, .op '$' false,
    .op '(' true, lit "compgen"] ++ (w :: ws).map tok ++
      [lit "--", .word [.exp "cur".toList], .op ')' true, .op ')' true]) ?_ (by simp [lit]) (by simp)
    (stmt_compgen append (w :: ws))
  have e : S "COMPREPLY" ++ (if append then S "+" else []) ++ S "=($(compgen " ++ joinQuoted (w :: ws) ++
      S " -- \"$cur\"))" ++ ['\n'] = (S "COMPREPLY" ++ (if append then S "+" else []) ++ S "=($(compgen ") ++
      ((joinQuoted (w :: ws) ++ [' ']) ++ S "-- \"$cur\"))\n") := by simp [S]
  have h1 : run {} (S "COMPREPLY" ++ (if append then S "+" else []) ++ S "=($(compgen ") =
      some { out := [lit ("COMPREPLY" ++ (if append then "+" else "") ++ "="), .op '(' true, .op '$' false,
        .op '(' true, lit "compgen"] } := by cases append <;> decide +kernel
  have h2 : ∀ o, run { out := o } (S "-- \"$cur\"))\n") =
      some { out := o ++ [lit "--", .word [.exp "cur".toList], .op ')' true, .op ')' true] ++ [.nl] } := by
    intro o; simp [S, run, step, atStart, nameChar, operators, unsupported, lit]
  rw [e, run_append, h1, Option.bind_some, run_append, run_words_blank w ws _ .gap (Or.inl rfl), Option.bind_some, h2]

/-- The lines around code whose results are added. -/
theorem reads_appended (append : Bool) (code : Str) (ss : List Stmt) (h : ReadsAs code ss) :
    ReadsAs (appended append code) (if append then [.saveReply] ++ ss ++ [.joinReply] else ss) := by
  cases append with
  | false => simpa [appended, joinWith] using h
  | true =>
    have h1 : ReadsAs saveReplyLine [.saveReply] := reads_of_read (by decide +kernel)
    have h2 : ReadsAs joinReplyLine [.joinReply] := reads_of_read (by decide +kernel)
    have := (h1.append h).append h2
    simpa [appended, joinWith] using this

/-- An indented line. -/
theorem reads_indent {t : Str} {ss : List Stmt} (h : ReadsAs t ss) : ReadsAs (S "  " ++ t) ss := by
  obtain ⟨toks, h1, h2, h3⟩ := h
  refine ⟨toks, ?_, h2, h3⟩
  rw [List.append_assoc, run_append]
  exact h1

/-- A directory is entered and left. -/
theorem reads_inDirectory (d cmd : Str) (ss : List Stmt) (h : ReadsAs cmd ss) :
    ReadsAs (inDirectory d cmd) ([.enter d] ++ ss ++ [.leave, .close]) := by
  have h1 : ReadsAs (S "builtin pushd " ++ quote d ++ S " &>/dev/null && {") [.enter d] := by
    refine ReadsAs.line (l := [lit "builtin", lit "pushd", tok d, .op '&' false, .op '>' true, lit "/dev/null",
      .op '&' false, .op '&' true, .op '{' false]) ?_ (by simp [lit]) (by simp) (stmt_enter d)
    have e : S "builtin pushd " ++ quote d ++ S " &>/dev/null && {" ++ ['\n'] =
        S "builtin pushd " ++ ((joinQuoted [d] ++ [' ']) ++ S "&>/dev/null && {\n") := by
      simp [S, joinQuoted, joinWith]
    have h1 : run {} (S "builtin pushd ") = some { out := [lit "builtin", lit "pushd"] } := by decide +kernel
    have h2 : ∀ o, run { out := o } (S "&>/dev/null && {\n") = some { out := o ++ [.op '&' false, .op '>' true,
        lit "/dev/null", .op '&' false, .op '&' true, .op '{' false] ++ [.nl] } := by
      intro o; simp [S, run, step, atStart, operators, unsupported, lit]
    rw [e, run_append, h1, Option.bind_some, run_append, run_words_blank d [] _ .gap (Or.inl rfl), Option.bind_some, h2]
    simp
  have h2 : ReadsAs (S "  builtin popd >/dev/null\n}") [.leave, .close] := reads_of_read (by decide +kernel)
  have := (h1.append (reads_indent h)).append h2
  simpa [inDirectory, S] using this

/-- `cur="${cur##*SEP}"`. -/
theorem reads_cut (c : Char) : ReadsAs (S "cur=\"${cur##*" ++ quote [c] ++ S "}\"") [.cutCur [c]] := by
  have hw : Posix.words (quote [c]) = some [[c]] := by
    have := read_quote_gap [c] []
    simp only [List.append_nil] at this
    simp [Posix.words, this, Posix.read]
  refine ReadsAs.line (l := [.word ("cur=".toList.map Seg.ch ++ [.exp ("{cur##*".toList ++ quote [c] ++ ['}'])])]) ?_
    (by simp) (by simp) (stmt_cut (quote [c]) [c] hw)
  have e : S "cur=\"${cur##*" ++ quote [c] ++ S "}\"" ++ ['\n'] = S "cur=\"${cur##*" ++ (quote [c] ++ S "}\"\n") := by
    simp [S]
  have h1 : run {} (S "cur=\"${cur##*") = some ⟨.brace, "cur=".toList.map Seg.ch, "{cur##*".toList, []⟩ := by
    decide +kernel
  rw [e, run_append, h1, Option.bind_some, run_append, run_quote_brace, Option.bind_some]
  simp [S, run, step]

theorem pieces_chs (v acc s : Str) (r : List Seg) : pieces v acc (chs s ++ r) = pieces v (acc ++ s) r := by
  induction s generalizing acc with
  | nil => simp
  | cons c cs ih =>
    have := ih (acc ++ [c])
    simp only [chs, List.map_cons, List.cons_append, pieces] at this ⊢
    rw [this]; simp

/-- `local -x PATH=…`. -/
theorem reads_path {t : Str} {segs : List Seg} {ps : List (Option Str)}
    (ht : run ⟨.word, "PATH=".toList.map Seg.ch, [], [lit "local", lit "-x"]⟩ t =
      some ⟨.word, "PATH=".toList.map Seg.ch ++ segs, [], [lit "local", lit "-x"]⟩)
    (hp : pieces "PATH".toList [] segs = some ps) : ReadsAs (S "local -x PATH=" ++ t) [.path ps] := by
  refine ReadsAs.line (l := [lit "local", lit "-x", .word ("PATH=".toList.map Seg.ch ++ segs)]) ?_ (by simp [lit])
    (by simp) (stmt_path segs ps hp)
  have h1 : run {} (S "local -x PATH=") = some ⟨.word, "PATH=".toList.map Seg.ch, [], [lit "local", lit "-x"]⟩ := by
    decide +kernel
  rw [List.append_assoc, run_append, h1, Option.bind_some, run_append, ht, Option.bind_some]
  simp [run, step]

/-- `local c=FUNCTION`. -/
theorem reads_condition (f : Str) : ReadsAs (S "local c=" ++ quote f) [.condition f] := by
  refine ReadsAs.line (l := [lit "local", .word ("c=".toList.map Seg.ch ++ chs f)]) ?_ (by simp [lit]) (by simp)
    (stmt_condition f)
  have h1 : run {} (S "local c=") = some ⟨.word, "c=".toList.map Seg.ch, [], [lit "local"]⟩ := by decide +kernel
  rw [List.append_assoc, run_append, h1, Option.bind_some, run_append, run_quote_word, Option.bind_some]
  simp [run, step]

/-- A line that describes a key. -/
theorem reads_push (cond : Option Str) (key w : Str) (ws : List Str) :
    ReadsAs (pushLine cond key (w :: ws)) [.push (cond.map (fun _ => key)) (w :: ws)] := by
  have h2 : ∀ o, run ⟨.oper, [], [], o⟩ ['\n'] = some { out := o ++ [.nl] } := by
    intro o; rfl
  cases cond with
  | none =>
    refine ReadsAs.line (l := [lit "a+=", .op '(' true] ++ (w :: ws).map tok ++ [.op ')' true]) ?_ (by simp [lit])
      (by simp) (stmt_push (w :: ws))
    have e : pushLine none key (w :: ws) ++ ['\n'] = S "a+=(" ++ ((joinQuoted (w :: ws) ++ [')']) ++ ['\n']) := by
      simp [pushLine, S]
    have h1 : run {} (S "a+=(") = some ⟨.oper, [], [], [lit "a+=", .op '(' true]⟩ := by decide +kernel
    rw [e, run_append, h1, Option.bind_some, run_append, run_words_close w ws _ .oper (Or.inr rfl), Option.bind_some, h2]
  | some f =>
    refine ReadsAs.line (l := [.word [.exp "c".toList], tok key, .op '&' false, .op '&' true] ++
      ([lit "a+=", .op '(' true] ++ (w :: ws).map tok ++ [.op ')' true])) ?_ (by simp [lit])
      (by simp) (stmt_pushIf key (w :: ws))
    have e : pushLine (some f) key (w :: ws) ++ ['\n'] =
        S "$c " ++ ((joinQuoted [key] ++ [' ']) ++ (S "&& a+=(" ++ ((joinQuoted (w :: ws) ++ [')']) ++ ['\n']))) := by
      simp [pushLine, S, joinQuoted, joinWith]
    have h1 : run {} (S "$c ") = some { out := [.word [.exp "c".toList]] } := by decide +kernel
    have h3 : ∀ o, run { out := o } (S "&& a+=(") =
        some ⟨.oper, [], [], o ++ [.op '&' false, .op '&' true, lit "a+=", .op '(' true]⟩ := by
      intro o; simp [S, run, step, atStart, operators, unsupported, lit]
    rw [e, run_append, h1, Option.bind_some, run_append, run_words_blank key [] _ .gap (Or.inl rfl), Option.bind_some,
      run_append, h3, Option.bind_some, run_append, run_words_close w ws _ .oper (Or.inr rfl), Option.bind_some, h2]
    simp

/-- Lines, one after the other. -/
theorem reads_lines (l : List (Str × List Stmt)) (h : ∀ e ∈ l, ReadsAs e.1 e.2) :
    ReadsAs (joinWith ['\n'] (l.map (·.1))) (l.flatMap (·.2)) := by
  induction l with
  | nil => exact ReadsAs.nil
  | cons e r ih =>
    have h1 := h e (by simp)
    have h2 := ih (fun x hx => h x (by simp [hx]))
    cases r with
    | nil => simpa [joinWith] using h1
    | cons e2 r2 => simpa [joinWith] using h1.append h2

end CC
