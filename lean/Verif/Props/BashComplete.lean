import Verif.Spec.BashCompleterSpec
import Verif.Lemmas.BashReads
import Verif.Props.Helpers
import Verif.Props.Choices
/-!
# C78: what the code of the completers does in Bash
-/

namespace CC
open BashCode BashCompleter

/-! ## Names -/

theorem realName_quote {pre : Str} (hp : ∀ c ∈ pre, isSafeChar c = true) (name : Str)
    (hn : ∀ c ∈ name, isSafeChar c = true) : quote (realName pre name) = realName pre name := by
  apply quote_of_plain
  have hall : ∀ c ∈ realName pre name, isSafeChar c = true := by
    intro c hc
    simp only [realName, List.mem_append] at hc
    rcases hc with (hc | hc) | hc
    · exact hp c hc
    · revert c; decide
    · exact hn c hc
  have hne : realName pre name ≠ [] := by simp [realName, S]
  simp only [needsQuote, Bool.not_eq_false', Bool.and_eq_true, Bool.not_eq_true', List.isEmpty_eq_false_iff, List.all_eq_true]
  exact ⟨hne, hall⟩

theorem joinQuoted_name {f : Str} (hq : quote f = f) (w : Str) (ws : List Str) :
    joinQuoted (f :: w :: ws) = f ++ S " " ++ joinQuoted (w :: ws) := by
  simp [joinQuoted, joinWith, hq, S]

theorem realName_not_local (pre name : Str) : realName pre name ≠ "local".toList := by
  intro h
  have : '_' ∈ "local".toList := by rw [← h]; simp [realName, S]
  revert this; decide

theorem filedir_not_local (s : Setting) : filedir s ≠ "local".toList := by
  unfold filedir; cases s.new <;> decide

theorem readsAs_unique {t : Str} {a b : List Stmt} (ha : ReadsAs t a) (hb : ReadsAs t b) : a = b := by
  have h1 := ha.read; have h2 := hb.read
  rw [h1] at h2; simpa using h2

theorem reads_nonempty {t : Str} {ss : List Stmt} (h : ReadsAs t ss) (hs : ss ≠ []) : t ≠ [] := by
  intro ht; subst ht; exact hs (readsAs_unique h ReadsAs.nil)

/-! ## Objects -/

theorem reads_func (v : Str) (append : Bool) (f : Str) (args : List Str) (hf : f ≠ "local".toList) :
    ReadsAs ((BashObj.func (f :: args)).getCode v append) (appending append [.call (f :: args)]) := by
  simpa [BashObj.getCode, appending] using reads_appended append _ _ (reads_call f args hf)

theorem reads_code (v : Str) (append : Bool) (c : Str) (ss : List Stmt) (hs : ss ≠ []) (h : ReadsAs c ss) :
    ReadsAs ((BashObj.code c).getCode v append) (appending append ss) := by
  have hne : c.isEmpty = false := by simpa using reads_nonempty h hs
  simpa [BashObj.getCode, hne, appending] using reads_appended append _ _ h

theorem reads_compgen_obj (v : Str) (append : Bool) (a : Str) (w : Str) (ws : List Str) (ha : a = joinQuoted (w :: ws)) :
    ReadsAs ((BashObj.compgen a none).getCode v append) [.compgen append (w :: ws)] := by
  subst ha
  exact reads_compgen append w ws

theorem reads_one (w : Str) : ReadsAs (quote w) [.call [w]] := by
  by_cases h : w = "local".toList
  · subst h; exact reads_of_read (by decide +kernel)
  · simpa [joinQuoted, joinWith] using reads_call w [] h

/-! ## Completers without arguments -/

theorem void_actions (ctxt : BashCtxt) : ∀ e ∈ actions,
    bashVoid ctxt e.1.toList = .ok (.compgen (joinQuoted ["-A".toList, e.2.toList]) none) := by
  simp only [actions, List.forall_mem_cons, List.not_mem_nil, false_implies, implies_true, and_true]
  refine ⟨?_, ?_, ?_, ?_, ?_, ?_⟩ <;> rfl

theorem void_helpers (ctxt : BashCtxt) (s : Setting) (hs : s.pre = ctxt.pre) : ∀ e ∈ helpers,
    bashVoid ctxt e.1.toList = .ok (.func (e.2.map (helper s))) := by
  obtain ⟨pre, new, fs⟩ := s
  simp only at hs; subst hs
  simp only [helpers, List.forall_mem_cons, List.not_mem_nil, false_implies, implies_true, and_true]
  refine ⟨?_, ?_, ?_, ?_, ?_, ?_, ?_⟩ <;> rfl

theorem void_library (ctxt : BashCtxt) : ∀ e ∈ library,
    (ctxt.v212 = true → e.1.toList ≠ "login_shell".toList ∧ e.1.toList ≠ "filesystem_type".toList) →
    bashVoid ctxt e.1.toList = .ok (.func ((if ctxt.v212 then e.2.1 else e.2.2).map String.toList)) := by
  obtain ⟨pre, base, v⟩ := ctxt
  cases v with
  | false =>
    simp only [library, List.forall_mem_cons, List.not_mem_nil, false_implies, implies_true, and_true]
    refine ⟨?_, ?_, ?_, ?_, ?_, ?_, ?_, ?_⟩ <;> (intro _; rfl)
  | true =>
    simp only [library, List.forall_mem_cons, List.not_mem_nil, false_implies, implies_true, and_true]
    refine ⟨?_, ?_, ?_, ?_, ?_, ?_, ?_, ?_⟩ <;> intro h <;> first | rfl | (exact absurd rfl (h trivial).1) | (exact absurd rfl (h trivial).2)

theorem library_words : ∀ e ∈ library, ∀ b : Bool, ∃ w ws, (if b then e.2.1 else e.2.2).map String.toList = w :: ws ∧
    w ≠ "local".toList := by
  simp only [library, List.forall_mem_cons, List.not_mem_nil, false_implies, implies_true, and_true]
  refine ⟨?_, ?_, ?_, ?_, ?_, ?_, ?_, ?_⟩ <;> intro b <;> cases b <;> exact ⟨_, _, rfl, by decide⟩

theorem void_known : ∀ n ∈ voidNames, n ∈ actions.map (·.1.toList) ∨ n ∈ helpers.map (·.1.toList) ∨
    n ∈ library.map (·.1.toList) ∨ n = "date_format".toList := by decide

theorem reads_void (ctxt : BashCtxt) (F : Dyn) (v n : Str) (hn : n ∈ voidNames)
    (hw : ctxt.v212 = true → n ≠ "login_shell".toList ∧ n ≠ "filesystem_type".toList) :
    ∃ o, bashVoid ctxt n = .ok o ∧ ∀ append, ∃ ss, ReadsAs (o.getCode v append) ss ∧
      DoesVoid ⟨ctxt.pre, ctxt.v212, F⟩ n append ss := by
  rcases void_known n hn with h | h | h | h
  · obtain ⟨e, he, rfl⟩ := List.mem_map.mp h
    exact ⟨_, void_actions ctxt e he, fun append => ⟨_, reads_compgen_obj _ _ _ _ _ rfl, Or.inl ⟨e, he, rfl, rfl⟩⟩⟩
  · obtain ⟨e, he, rfl⟩ := List.mem_map.mp h
    refine ⟨_, void_helpers ctxt ⟨ctxt.pre, ctxt.v212, F⟩ rfl e he, fun append => ?_⟩
    have hf : ∀ e ∈ helpers, ∃ w ws, e.2 = w :: ws := by
      simp only [helpers, List.forall_mem_cons, List.not_mem_nil, false_implies, implies_true, and_true]
      refine ⟨?_, ?_, ?_, ?_, ?_, ?_, ?_⟩ <;> exact ⟨_, _, rfl⟩
    obtain ⟨w, ws, hws⟩ := hf e he
    refine ⟨_, ?_, Or.inr (Or.inl ⟨e, he, rfl, rfl⟩)⟩
    rw [hws]
    exact reads_func _ _ _ _ (realName_not_local _ _)
  · obtain ⟨e, he, rfl⟩ := List.mem_map.mp h
    refine ⟨_, void_library ctxt e he hw, fun append => ?_⟩
    obtain ⟨w, ws, hws, hl⟩ := library_words e he ctxt.v212
    refine ⟨_, ?_, Or.inr (Or.inr (Or.inl ⟨e, he, rfl, rfl⟩))⟩
    rw [hws]
    exact reads_func _ _ _ _ hl
  · subst h
    exact ⟨.code [], rfl, fun append => ⟨[], ReadsAs.nil, Or.inr (Or.inr (Or.inr ⟨rfl, rfl⟩))⟩⟩

/-! ## Choices -/

theorem posix_words_plain (values : List Str) (h : ∀ v ∈ values, v ≠ [] → needsQuote v = false) :
    Posix.words (joinWith [' '] values) = some (values.filter (· ≠ [])) := by
  unfold Posix.words
  induction values with
  | nil => rfl
  | cons v r ih =>
    have hv := h v (by simp)
    have ih := ih (fun x hx => h x (by simp [hx]))
    by_cases he : v = []
    · subst he
      cases r with
      | nil => rfl
      | cons x xs => simpa [joinWith, Posix.read, Posix.blank] using ih
    · have hq := quote_of_plain (hv he)
      cases r with
      | nil =>
        have := read_quote_gap v []
        rw [hq] at this
        simp only [List.append_nil] at this
        simp [joinWith, this, Posix.read, he]
      | cons x xs =>
        have := read_quote_gap v ([' '] ++ joinWith [' '] (x :: xs))
        rw [hq] at this
        simp only [joinWith, List.append_assoc] at this ⊢
        rw [this]
        simp only [List.cons_append, List.nil_append, Posix.read, Posix.blank]
        simp [ih, he]

theorem reads_choices_code (pre : Str) (hp : ∀ c ∈ pre, isSafeChar c = true) (c : Choices) (append : Bool) :
    ReadsAs (bashChoices (realName pre (S "values")) c append)
      (if ((c.words.map Choice.text).filter needsQuote).any (fun v => !v.isEmpty) then
        [.call ([realName pre (S "values")] ++ (if append then ["-a".toList] else []) ++ ["--".toList] ++
          c.words.map Choice.text)]
      else [.compgen append ["-W".toList, joinWith [' '] (c.words.map Choice.text)]]) := by
  unfold bashChoices
  generalize c.words.map Choice.text = values
  simp only
  cases hany : (values.filter needsQuote).any (fun v => !v.isEmpty) with
  | true =>
    simp only [if_true]
    obtain ⟨v, vs, rfl⟩ : ∃ v vs, values = v :: vs := by
      cases values with
      | nil => simp at hany
      | cons v vs => exact ⟨v, vs, rfl⟩
    have e : realName pre (S "values") ++ S " " ++ (if append then S "-a " else []) ++ S "-- " ++ joinQuoted (v :: vs) =
        joinQuoted (realName pre (S "values") :: ((if append then ["-a".toList] else []) ++ ["--".toList] ++ (v :: vs))) := by
      have hd : quote "--".toList = "--".toList := by decide
      have ha : quote "-a".toList = "-a".toList := by decide
      have hq := realName_quote hp (S "values") (by decide)
      cases append with
      | false =>
        show _ = joinQuoted (_ :: "--".toList :: v :: vs)
        rw [joinQuoted_name hq, joinQuoted_name hd]
        simp [S]
      | true =>
        show _ = joinQuoted (_ :: "-a".toList :: "--".toList :: v :: vs)
        rw [joinQuoted_name hq, joinQuoted_name ha, joinQuoted_name hd]
        simp [S]
    rw [e]
    have := reads_call (realName pre (S "values")) ((if append then ["-a".toList] else []) ++ ["--".toList] ++ (v :: vs))
      (realName_not_local _ _)
    simpa using this
  | false =>
    simp only [Bool.false_eq_true, if_false]
    have := reads_compgen append "-W".toList [joinWith [' '] values]
    rw [joinQuoted_name (show quote "-W".toList = "-W".toList by decide)] at this
    simpa [joinQuoted, joinWith, S] using this

theorem reads_choices (pre : Str) (hp : ∀ c ∈ pre, isSafeChar c = true) (s : Setting) (hs : s.pre = pre) (c : Choices)
    (append : Bool) : ∃ ss, ReadsAs (bashChoices (realName pre (S "values")) c append) ss ∧ Does s (.choices c) append ss := by
  refine ⟨_, reads_choices_code pre hp c append, ?_⟩
  simp only [Does]
  generalize c.words.map Choice.text = values
  split
  · subst hs
    exact Or.inr (by simp [helper, realName, S])
  · rename_i hany
    refine Or.inl ⟨joinWith [' '] values, rfl, ?_⟩
    refine posix_words_plain values ?_
    intro v hv hne
    cases hq : needsQuote v with
    | false => rfl
    | true =>
      exfalso; apply hany
      simp only [List.any_eq_true, List.mem_filter, Bool.not_eq_true', List.isEmpty_eq_false_iff]
      exact ⟨v, ⟨hv, hq⟩, hne⟩

/-! ## Files, directories, paths, numbers -/

theorem not_empty_cases {o : Option Str} (h : NotEmpty o) :
    (o = none ∧ truthyText o = none) ∨ ∃ d, o = some d ∧ truthyText o = some d := by
  cases o with
  | none => exact Or.inl ⟨rfl, rfl⟩
  | some d =>
    cases d with
    | nil => exact absurd rfl h
    | cons c cs => exact Or.inr ⟨_, rfl, rfl⟩

theorem inDir_ne (d : Option Str) {ss : List Stmt} (h : ss ≠ []) : inDir d ss ≠ [] := by
  cases d <;> simp [inDir, h]

theorem reads_directory (ctxt : BashCtxt) (F : Dyn) (v : Str) (d : Option Str) (h : NotEmpty d) (append : Bool) :
    ReadsAs ((bashDirectory ctxt d).getCode v append)
      (appending append (directoryStmts ⟨ctxt.pre, ctxt.v212, F⟩ d)) := by
  obtain ⟨pre, base, new⟩ := ctxt
  have hc : (if new then S "_comp_compgen_filedir" else S "_filedir") ++ S " -d" =
      joinQuoted [(if new then "_comp_compgen_filedir" else "_filedir").toList, "-d".toList] := by
    cases new <;> decide
  have hf : (if new then S "_comp_compgen_filedir" else S "_filedir") =
      (if new then "_comp_compgen_filedir" else "_filedir").toList := by cases new <;> rfl
  have hr := reads_call (if new then "_comp_compgen_filedir" else "_filedir").toList ["-d".toList]
    (filedir_not_local ⟨pre, new, F⟩)
  rcases not_empty_cases h with ⟨rfl, h2⟩ | ⟨d, rfl, h2⟩
  · simp only [bashDirectory, h2, versioned, directoryStmts, inDir, filedir, hf]
    exact reads_func _ _ _ _ (filedir_not_local ⟨pre, new, F⟩)
  · simp only [bashDirectory, h2, versioned, directoryStmts, inDir, filedir, hc]
    exact reads_code _ _ _ _ (by simp) (reads_inDirectory d _ _ hr)

theorem reads_file (ctxt : BashCtxt) (hp : ∀ c ∈ ctxt.pre, isSafeChar c = true) (F : Dyn) (v : Str) (o : FileOpts)
    (h : NotEmpty o.directory) : ∃ obj, bashFile ctxt o = .ok obj ∧ ∀ append,
      ReadsAs (obj.getCode v append) (appending append (fileStmts ⟨ctxt.pre, ctxt.v212, F⟩ o)) := by
  obtain ⟨pre, base, new⟩ := ctxt
  have hf : versioned ⟨pre, base, new⟩ "_comp_compgen_filedir" "_filedir" = filedir ⟨pre, new, F⟩ := by
    cases new <;> rfl
  have hnl := filedir_not_local ⟨pre, new, F⟩
  unfold bashFile
  rw [hf]
  generalize hx : (if o.extensions.isEmpty then [] else [bashExtensionPattern o.extensions o.fuzzy]) = args
  have hx2 : (if o.extensions = [] then [] else [bashExtensionPattern o.extensions o.fuzzy]) = args := by
    rw [← hx]; cases o.extensions <;> rfl
  have hcall := reads_call (filedir ⟨pre, new, F⟩) args hnl
  have hu : useHelper bashRepo pre (S "file_filter") = .ok (realName pre (S "file_filter")) := rfl
  simp only [fileStmts, hx2]
  generalize filedir ⟨pre, new, F⟩ = fd at *
  rcases not_empty_cases h with ⟨h1, h2⟩ | ⟨d, h1, h2⟩ <;> rw [h1] <;> rw [h1] at h2 <;> rw [h2]
  · cases hg : o.ignoreGlobs with
    | nil =>
      refine ⟨_, rfl, fun append => ?_⟩
      simpa [inDir] using reads_func v append fd args hnl
    | cons g gs =>
      refine ⟨.code (joinQuoted (fd :: args) ++ S "\n" ++ realName pre (S "file_filter") ++ S " " ++ joinQuoted (g :: gs)),
        by simp [hu]; rfl, fun append => ?_⟩
      refine reads_code _ _ _ _ (by simp) ?_
      have h3 := reads_call (realName pre (S "file_filter")) (g :: gs) (realName_not_local _ _)
      rw [joinQuoted_name (realName_quote hp _ (by decide))] at h3
      simpa [inDir, S, helper, realName] using hcall.append h3
  · cases hg : o.ignoreGlobs with
    | nil =>
      refine ⟨_, rfl, fun append => ?_⟩
      simpa [inDir] using reads_code v append _ _ (by simp) (reads_inDirectory d _ _ hcall)
    | cons g gs =>
      refine ⟨.code (inDirectory d (joinQuoted (fd :: args)) ++ S "\n" ++ realName pre (S "file_filter") ++ S " " ++
        joinQuoted (g :: gs)), by simp [hu]; rfl, fun append => ?_⟩
      refine reads_code _ _ _ _ (by simp) ?_
      have h3 := reads_call (realName pre (S "file_filter")) (g :: gs) (realName_not_local _ _)
      rw [joinQuoted_name (realName_quote hp _ (by decide))] at h3
      simpa [inDir, S, helper, realName] using (reads_inDirectory d _ _ hcall).append h3

theorem run_path_mid (w : List Seg) (o : List Tok) : run ⟨.word, w, [], o⟩ (S ":\"$PATH\":") =
    some ⟨.word, w ++ [.ch ':', .exp "PATH".toList, .ch ':'], [], o⟩ := by
  simp [S, run, step, operators, unsupported, nameChar]

theorem run_path_end (w : List Seg) (o : List Tok) : run ⟨.word, w, [], o⟩ (S ":\"$PATH\"") =
    some ⟨.word, w ++ [.ch ':', .exp "PATH".toList], [], o⟩ := by
  simp [S, run, step, operators, unsupported, nameChar]

theorem run_path_start (w : List Seg) (o : List Tok) : run ⟨.word, w, [], o⟩ (S "\"$PATH\":") =
    some ⟨.word, w ++ [.exp "PATH".toList, .ch ':'], [], o⟩ := by
  simp [S, run, step, operators, unsupported, nameChar]

theorem reads_command (v : Str) (p a b : Option Str) (hp : NotEmpty p) (ha : NotEmpty a) (hb : NotEmpty b) (append : Bool) :
    ReadsAs ((BashObj.compgen (S "-A command") (pathCode p a b)).getCode v append)
      (pathStmts p a b ++ [.compgen append ["-A".toList, "command".toList]]) := by
  have hc : ReadsAs (S "COMPREPLY" ++ (if append then S "+" else []) ++ S "=($(compgen " ++ S "-A command" ++
      S " -- \"$cur\"))") [.compgen append ["-A".toList, "command".toList]] := by
    have := reads_compgen append "-A".toList ["command".toList]
    rwa [show joinQuoted ["-A".toList, "command".toList] = S "-A command" by decide] at this
  have step : ∀ (t : Str) (ps : List (Option Str)), ReadsAs (S "local -x PATH=" ++ t) [.path ps] →
      ReadsAs ((BashObj.compgen (S "-A command") (some (S "local -x PATH=" ++ t))).getCode v append)
        ([.path ps] ++ [.compgen append ["-A".toList, "command".toList]]) := by
    intro t ps h
    have := h.append hc
    simpa [BashObj.getCode, compgenCode, S] using this
  have pp : ∀ s : Str, s ≠ [] → pieces "PATH".toList [] (chs s) = some [some s] := by
    intro s hs
    have := pieces_chs "PATH".toList [] s []
    simp only [List.append_nil] at this
    rw [this]; simp [pieces, hs]
  rcases not_empty_cases hp with ⟨rfl, h1⟩ | ⟨p, rfl, h1⟩
  · rcases not_empty_cases ha with ⟨rfl, h2⟩ | ⟨a, rfl, h2⟩
    · rcases not_empty_cases hb with ⟨rfl, h3⟩ | ⟨b, rfl, h3⟩
      · exact hc
      · rw [show pathCode none none (some b) = some (S "local -x PATH=" ++ (quote b ++ S ":\"$PATH\"")) by
          simp [pathCode, h1, h3]]
        refine step _ _ (reads_path (segs := chs b ++ [.ch ':', .exp "PATH".toList]) ?_ ?_)
        · rw [run_append, run_quote_word, Option.bind_some, run_path_end]; simp
        · rw [pieces_chs]; simp [pieces]
    · rcases not_empty_cases hb with ⟨rfl, h3⟩ | ⟨b, rfl, h3⟩
      · rw [show pathCode none (some a) none = some (S "local -x PATH=" ++ (S "\"$PATH\":" ++ quote a)) by
          simp [pathCode, h1, h2, S]]
        refine step _ _ (reads_path (segs := [.exp "PATH".toList, .ch ':'] ++ chs a) ?_ ?_)
        · rw [run_append, run_path_start, Option.bind_some, run_quote_word]; simp
        · have h := pieces_chs "PATH".toList [':'] a []
          rw [List.append_nil] at h
          simp only [List.cons_append, List.nil_append, pieces, h]
          simp
      · rw [show pathCode none (some a) (some b) =
            some (S "local -x PATH=" ++ (quote b ++ S ":\"$PATH\":" ++ quote a)) by simp [pathCode, h1, h2, h3, S]]
        refine step _ _ (reads_path (segs := chs b ++ ([.ch ':', .exp "PATH".toList, .ch ':'] ++ chs a)) ?_ ?_)
        · rw [run_append, run_append, run_quote_word, Option.bind_some, run_path_mid, Option.bind_some, run_quote_word]
          simp
        · have h := pieces_chs "PATH".toList [':'] a []
          rw [List.append_nil] at h
          rw [pieces_chs]
          simp only [List.cons_append, List.nil_append, pieces, h]
          simp
  · have hne : p ≠ [] := by intro h; subst h; exact hp rfl
    rw [show pathCode (some p) a b = some (S "local -x PATH=" ++ quote p) by simp [pathCode, h1]]
    rw [show pathStmts (some p) a b = [.path [some p]] from rfl]
    exact step _ _ (reads_path (run_quote_word p _ _ _) (pp p hne))

theorem reads_number (ctxt : BashCtxt) (F : Dyn) (v : Str) (o : NumOpts) :
    ∃ obj, bashNumber ctxt o = .ok obj ∧ ∀ append,
      ReadsAs (obj.getCode v append) (numberStmts ⟨ctxt.pre, ctxt.v212, F⟩ append o) := by
  have hu : useHelper bashRepo ctxt.pre (S "number") = .ok (realName ctxt.pre (S "number")) := rfl
  unfold bashNumber numberStmts
  cases hs : o.suffixes with
  | nil => exact ⟨.code [], by simp [suffixArgs, hs], fun append => by simpa [BashObj.getCode] using ReadsAs.nil⟩
  | cons e r =>
    refine ⟨.func (realName ctxt.pre (S "number") :: suffixArgs o), by simp [suffixArgs, hs, hu]; rfl, fun append => ?_⟩
    have := reads_func v append (realName ctxt.pre (S "number")) (suffixArgs o) (realName_not_local _ _)
    simpa [suffixArgs, hs, helper, realName, S] using this

theorem intStr_no_quote (i : Int) : '\'' ∉ intStr i := by
  have hd : ∀ n, '\'' ∉ natStr n := by
    intro n h
    have := natStr_isDigit h
    revert this; decide
  unfold intStr
  split
  · simp [hd]
  · exact hd _

theorem reads_bashRange (v : Str) (a b st : Int) (append : Bool) :
    ReadsAs ((bashRange a b st).getCode v append) [.compgen append ["-W".toList, braces a b st]] := by
  have hq : quote (braces a b st) = ['\''] ++ braces a b st ++ ['\''] := by
    have h1 : needsQuote (braces a b st) = true := by simp [needsQuote, braces, isSafeChar, isAsciiAlnum]
    have h2 : '\'' ∉ braces a b st := by
      unfold braces
      have := intStr_no_quote a
      have := intStr_no_quote b
      have := intStr_no_quote st
      split <;> simp [*]
    simp [quote, h1, h2]
  refine reads_compgen_obj v append _ "-W".toList [braces a b st] ?_
  rw [joinQuoted_name (show quote "-W".toList = "-W".toList by decide)]
  simp only [joinQuoted, List.map_cons, List.map_nil, joinWith, hq]
  simp [braces, S]

theorem reads_ip (ctxt : BashCtxt) (F : Dyn) (v t : Str) (append : Bool) :
    ReadsAs ((bashIpAddress ctxt t).getCode v append) (ipStmts ⟨ctxt.pre, ctxt.v212, F⟩ append t) := by
  obtain ⟨pre, base, new⟩ := ctxt
  have hf : versioned ⟨pre, base, new⟩ "_comp_compgen_ip_addresses" "_ip_addresses" =
      (if new then "_comp_compgen_ip_addresses" else "_ip_addresses").toList := by cases new <;> rfl
  have hnl : (if new then "_comp_compgen_ip_addresses" else "_ip_addresses").toList ≠ "local".toList := by
    cases new <;> decide
  by_cases h1 : t = S "ipv4"
  · subst h1
    have := reads_func v append _ [] hnl
    cases new <;> exact this
  by_cases h2 : t = S "ipv6"
  · subst h2
    have := reads_func v append _ ["-6".toList] hnl
    cases new <;> exact this
  by_cases h3 : t = S "ipv4+"
  · subst h3
    have k : ∀ b : Bool, BashCode.read ((if b then S "_comp_compgen_ip_addresses" else S "_ip_addresses") ++ S "\nCOMPREPLY+=($(compgen -W 0.0.0.0 -- \"$cur\"))") =
        some [.call [if b then S "_comp_compgen_ip_addresses" else S "_ip_addresses"],
          .compgen true ["-W".toList, "0.0.0.0".toList]] := by intro b; cases b <;> decide +kernel
    have := reads_code v append _ _ (by simp) (reads_of_read (k new))
    cases new <;> exact this
  by_cases h4 : t = S "ipv6+"
  · subst h4
    have k : ∀ b : Bool, BashCode.read ((if b then S "_comp_compgen_ip_addresses" else S "_ip_addresses") ++ S " -6\nCOMPREPLY+=($(compgen -W :: -- \"$cur\"))") =
        some [.call [if b then S "_comp_compgen_ip_addresses" else S "_ip_addresses", "-6".toList],
          .compgen true ["-W".toList, "::".toList]] := by intro b; cases b <;> decide +kernel
    have := reads_code v append _ _ (by simp) (reads_of_read (k new))
    cases new <;> exact this
  by_cases h5 : t = S "all+"
  · subst h5
    have k : ∀ b : Bool, BashCode.read ((if b then S "_comp_compgen_ip_addresses" else S "_ip_addresses") ++ S " -a\nCOMPREPLY+=($(compgen -W \"0.0.0.0 ::\" -- \"$cur\"))") =
        some [.call [if b then S "_comp_compgen_ip_addresses" else S "_ip_addresses", "-a".toList],
          .compgen true ["-W".toList, "0.0.0.0 ::".toList]] := by intro b; cases b <;> decide +kernel
    have := reads_code v append _ _ (by simp) (reads_of_read (k new))
    cases new <;> exact this
  · have e1 : bashIpAddress ⟨pre, base, new⟩ t =
        .func [(if new then "_comp_compgen_ip_addresses" else "_ip_addresses").toList, S "-a"] := by
      unfold bashIpAddress
      rw [if_neg h1, if_neg h2, if_neg h3, if_neg h4, if_neg h5, hf]
    have e2 : ipStmts ⟨pre, new, F⟩ append t = appending append
        [.call [(if new then "_comp_compgen_ip_addresses" else "_ip_addresses").toList, "-a".toList]] := by
      unfold ipStmts
      have h1 : t ≠ "ipv4".toList := h1
      have h2 : t ≠ "ipv6".toList := h2
      have h3 : t ≠ "ipv4+".toList := h3
      have h4 : t ≠ "ipv6+".toList := h4
      have h5 : t ≠ "all+".toList := h5
      rw [if_neg h1, if_neg h2, if_neg h3, if_neg h4, if_neg h5]
    show ReadsAs ((bashIpAddress ⟨pre, base, new⟩ t).getCode v append) (ipStmts ⟨pre, new, F⟩ append t)
    rw [e1, e2]; exact reads_func _ _ _ _ hnl

/-! ## Lists and keys -/

theorem reads_list (pre : Str) (hp : ∀ c ∈ pre, isSafeChar c = true) (s : Setting) (hs : s.pre = pre) (o : SepOpts)
    (ho : o.separator.length = 1) (code : Str) (inner : List Stmt) (h : ReadsAs code inner) :
    ReadsAs (bashListCode (realName pre (S "value_list")) code o) (listStmts s o inner) := by
  obtain ⟨sep, dup⟩ := o
  obtain ⟨c, rfl⟩ : ∃ c, sep = [c] := by
    match sep, ho with
    | [c], _ => exact ⟨c, rfl⟩
  have h1 : ReadsAs (S "local cur_old=\"$cur\"") [.saveCur] := reads_of_read (by decide +kernel)
  have h2 : ReadsAs (S "cur=\"$cur_old\"") [.restoreCur] := reads_of_read (by decide +kernel)
  have h3 := reads_callWith "COMPREPLY" (Or.inr rfl) (realName pre (S "value_list"))
    ((if dup then ["-d".toList] else []) ++ [[c]]) (realName_not_local _ _)
  have hq := realName_quote hp (S "value_list") (by decide)
  have e : joinQuoted (realName pre (S "value_list") :: ((if dup then ["-d".toList] else []) ++ [[c]])) =
      realName pre (S "value_list") ++ (if dup then S " -d" else []) ++ S " " ++ quote [c] := by
    cases dup with
    | false =>
      show joinQuoted (_ :: [c] :: []) = _
      rw [joinQuoted_name hq]; simp [joinQuoted, joinWith]
    | true =>
      show joinQuoted (_ :: "-d".toList :: [c] :: []) = _
      rw [joinQuoted_name hq, joinQuoted_name (show quote "-d".toList = "-d".toList by decide)]
      simp [joinQuoted, joinWith, S]
  rw [e] at h3
  have := (((h1.append (reads_cut c)).append h).append h2).append h3
  subst hs
  simpa [bashListCode, listStmts, dupFlag, helper, realName, S] using this

theorem reads_keyValue (cond : Option Str) (lines : List Str) (pushes : List Stmt)
    (h : ReadsAs (joinWith ['\n'] lines) pushes) (f : Str) (hf : f ≠ "local".toList) (args : List Str)
    (call : Str) (hc : call = joinQuoted (f :: args)) :
    ReadsAs (keyValueCode cond lines call) (keyStart cond ++ pushes ++ [.callWith (f :: args) "a".toList]) := by
  have h1 : ReadsAs (S "local -a a=()") [.newArray] := reads_of_read (by decide +kernel)
  have h3 := reads_callWith "a" (Or.inl rfl) f args hf
  rw [← hc] at h3
  cases cond with
  | none =>
    have := (h1.append h).append h3
    simpa [keyValueCode, keyStart, S] using this
  | some g =>
    have := ((h1.append (reads_condition g)).append h).append h3
    simpa [keyValueCode, keyStart, S] using this

theorem starred_eq (key : Str) : (starred key).1 = keyName key ∧ ((starred key).2 = true ↔ key.head? = some '*') := by
  match key with
  | [] => simp [starred, keyName]
  | '*' :: k => simp [starred, keyName]
  | c :: k =>
    unfold starred
    split
    · rename_i h; simp at h; simp [h, keyName]
    · rename_i h
      have : c ≠ '*' := by intro hc; exact h k (by rw [hc])
      simp [keyName, this]

theorem pushArgs_eq (isList : Bool) (key : Str) (ex : List Str) (func : Str) :
    pushArgs isList key ex func = keyWords isList key ex func := by
  obtain ⟨h1, h2⟩ := starred_eq key
  unfold pushArgs keyWords excluded
  rw [h1]
  by_cases hk : key.head? = some '*'
  · simp [h2.2 hk, hk]
  · have : (starred key).2 = false := by
      cases hs : (starred key).2 with
      | false => rfl
      | true => exact absurd (h2.1 hs) hk
    simp [this, hk, keyName]

theorem reads_key (isList : Bool) (cond : Option Str) (key : Str) (ex : List Str) (func : Str) :
    ReadsAs (pushLine cond (pushKey isList key) (pushArgs isList key ex func))
      [.push (keyCondition isList cond key) (keyWords isList key ex func)] := by
  rw [pushArgs_eq]
  have hk : pushKey isList key = (if isList then keyName key else key) := by
    simp [pushKey, (starred_eq key).1]
  rw [hk]
  unfold keyCondition
  cases isList with
  | false => exact reads_push cond key key [func]
  | true => exact reads_push cond (keyName key) (keyName key) [func, _]

/-! ## Dynamic functions are kept -/

theorem addDynFunc_spec {base code : Str} {dyn : Dyn} {r : Str × Dyn} (h : addDynFunc base code dyn = .ok r) :
    (∀ e ∈ dyn, e ∈ r.2) ∧ (code, r.1) ∈ r.2 := by
  unfold addDynFunc addDynamic at h
  cases hg : assocGet dyn code with
  | some n =>
    simp [hg] at h; subst h
    exact ⟨fun e he => he, assocGet_mem hg⟩
  | none =>
    simp only [hg] at h
    cases hd : dynamicFuncname (dyn.length + 1) base dyn with
    | none => simp [hd] at h
    | some n =>
      simp [hd] at h; subst h
      simp only [assocSet_new _ hg]
      exact ⟨fun e he => by simp [he], by simp⟩

theorem getFunction_mono {v base : Str} {dyn : Dyn} {o : BashObj} {r : Str × Dyn}
    (h : o.getFunction v base dyn = .ok r) : ∀ e ∈ dyn, e ∈ r.2 := by
  unfold BashObj.getFunction at h
  split at h
  · simp at h; subst h; exact fun e he => he
  · simp at h; subst h; exact fun e he => he
  · exact (addDynFunc_spec h).1

theorem ok_bind {α β : Type} {x : Except Err α} {f : α → Except Err β} {b : β} (h : (x >>= f) = .ok b) :
    ∃ a, x = .ok a ∧ f a = .ok b := by
  cases x with
  | error e => cases h
  | ok a => exact ⟨a, rfl, h⟩

mutual
theorem bash_mono (ctxt : BashCtxt) : ∀ (c : Comp) (dyn : Dyn) (r : BashObj × Dyn),
    bashCompleter ctxt c dyn = .ok r → ∀ e ∈ dyn, e ∈ r.2
  | .combine cs, dyn, r, h => by
    simp only [bashCompleter] at h
    obtain ⟨a, ha, h⟩ := ok_bind h
    simp at h; subst h
    exact bash_monos ctxt cs dyn a ha
  | .list c o, dyn, r, h => by
    simp only [bashCompleter] at h
    obtain ⟨a, ha, h⟩ := ok_bind h
    obtain ⟨f, _, h⟩ := ok_bind h
    simp at h; subst h
    exact bash_mono ctxt c dyn a ha
  | .prefix p c, dyn, r, h => by
    simp only [bashCompleter] at h
    obtain ⟨a, ha, h⟩ := ok_bind h
    obtain ⟨g, hg, h⟩ := ok_bind h
    obtain ⟨f, _, h⟩ := ok_bind h
    simp at h; subst h
    exact fun e he => getFunction_mono hg e (bash_mono ctxt c dyn a ha e he)
  | .keyValueList ps vs ks cond, dyn, r, h => by
    simp only [bashCompleter] at h
    obtain ⟨a, ha, h⟩ := ok_bind h
    obtain ⟨f, _, h⟩ := ok_bind h
    simp at h; subst h
    exact bash_mono_keys ctxt true cond ks dyn a ha
  | .keyValuePair vs ks cond, dyn, r, h => by
    simp only [bashCompleter] at h
    obtain ⟨a, ha, h⟩ := ok_bind h
    obtain ⟨f, _, h⟩ := ok_bind h
    simp at h; subst h
    exact bash_mono_keys ctxt false cond ks dyn a ha
  | .void n, dyn, r, h => by
    simp only [bashCompleter] at h; obtain ⟨a, _, h⟩ := ok_bind h; simp at h; subst h; exact fun e he => he
  | .none, dyn, r, h => by simp only [bashCompleter] at h; simp at h; subst h; exact fun e he => he
  | .commandArg, dyn, r, h => by simp only [bashCompleter] at h; simp at h; subst h; exact fun e he => he
  | .date _, dyn, r, h => by simp only [bashCompleter] at h; simp at h; subst h; exact fun e he => he
  | .choices _, dyn, r, h => by simp only [bashCompleter] at h; simp at h; subst h; exact fun e he => he
  | .command _ _ _, dyn, r, h => by simp only [bashCompleter] at h; simp at h; subst h; exact fun e he => he
  | .directory _, dyn, r, h => by simp only [bashCompleter] at h; simp at h; subst h; exact fun e he => he
  | .file _, dyn, r, h => by
    simp only [bashCompleter] at h; obtain ⟨a, _, h⟩ := ok_bind h; simp at h; subst h; exact fun e he => he
  | .directoryList _ _, dyn, r, h => by
    simp only [bashCompleter] at h; obtain ⟨a, _, h⟩ := ok_bind h; simp at h; subst h; exact fun e he => he
  | .fileList _ _, dyn, r, h => by
    simp only [bashCompleter] at h; obtain ⟨a, _, h⟩ := ok_bind h; obtain ⟨b, _, h⟩ := ok_bind h
    simp at h; subst h; exact fun e he => he
  | .exec _, dyn, r, h => by
    simp only [bashCompleter] at h; obtain ⟨a, _, h⟩ := ok_bind h; simp at h; subst h; exact fun e he => he
  | .execFast _, dyn, r, h => by
    simp only [bashCompleter] at h; obtain ⟨a, _, h⟩ := ok_bind h; simp at h; subst h; exact fun e he => he
  | .execInternal _, dyn, r, h => by simp only [bashCompleter] at h; simp at h; subst h; exact fun e he => he
  | .integer _, dyn, r, h => by
    simp only [bashCompleter] at h; obtain ⟨a, _, h⟩ := ok_bind h; simp at h; subst h; exact fun e he => he
  | .float _, dyn, r, h => by
    simp only [bashCompleter] at h; obtain ⟨a, _, h⟩ := ok_bind h; simp at h; subst h; exact fun e he => he
  | .history _, dyn, r, h => by
    simp only [bashCompleter] at h; obtain ⟨a, _, h⟩ := ok_bind h; simp at h; subst h; exact fun e he => he
  | .mimeFile _, dyn, r, h => by
    simp only [bashCompleter] at h; obtain ⟨a, _, h⟩ := ok_bind h; simp at h; subst h; exact fun e he => he
  | .ipAddress _, dyn, r, h => by simp only [bashCompleter] at h; simp at h; subst h; exact fun e he => he
  | .keyValueListExec _ _ _, dyn, r, h => by
    simp only [bashCompleter] at h; obtain ⟨a, _, h⟩ := ok_bind h; simp at h; subst h; exact fun e he => he
  | .keyValuePairExec _ _, dyn, r, h => by
    simp only [bashCompleter] at h; obtain ⟨a, _, h⟩ := ok_bind h; simp at h; subst h; exact fun e he => he
  | .range _ _ _, dyn, r, h => by simp only [bashCompleter] at h; simp at h; subst h; exact fun e he => he
  | .valueList _ _, dyn, r, h => by
    simp only [bashCompleter] at h; obtain ⟨a, _, h⟩ := ok_bind h; simp at h; subst h; exact fun e he => he
theorem bash_monos (ctxt : BashCtxt) : ∀ (cs : Comps) (dyn : Dyn) (r : List BashObj × Dyn),
    bashCompleters ctxt cs dyn = .ok r → ∀ e ∈ dyn, e ∈ r.2
  | .nil, dyn, r, h => by simp only [bashCompleters] at h; simp at h; subst h; exact fun e he => he
  | .cons c cs, dyn, r, h => by
    simp only [bashCompleters] at h
    obtain ⟨a, ha, h⟩ := ok_bind h
    obtain ⟨b, hb, h⟩ := ok_bind h
    simp at h; subst h
    exact fun e he => bash_monos ctxt cs a.2 b hb e (bash_mono ctxt c dyn a ha e he)
theorem bash_mono_keys (ctxt : BashCtxt) (isList : Bool) (cond : Option Str) :
    ∀ (ks : KeyDefList) (dyn : Dyn) (r : List Str × Dyn), bashKeyDefs ctxt isList cond ks dyn = .ok r → ∀ e ∈ dyn, e ∈ r.2
  | .nil, dyn, r, h => by simp only [bashKeyDefs] at h; simp at h; subst h; exact fun e he => he
  | .bare k d ex ks, dyn, r, h => by
    simp only [bashKeyDefs] at h
    obtain ⟨a, ha, h⟩ := ok_bind h
    simp at h; subst h
    exact bash_mono_keys ctxt isList cond ks dyn a ha
  | .cons k d ex c ks, dyn, r, h => by
    rw [bashKeyDefs.eq_def] at h
    cases c with
    | none =>
      simp only at h
      obtain ⟨a, ha, h⟩ := ok_bind h
      simp at h; subst h
      exact bash_mono_keys ctxt isList cond ks dyn a ha
    | _ =>
      simp only at h
      obtain ⟨a, ha, h⟩ := ok_bind h
      obtain ⟨g, hg, h⟩ := ok_bind h
      obtain ⟨b, hb, h⟩ := ok_bind h
      simp at h; subst h
      exact fun e he => bash_mono_keys ctxt isList cond ks g.2 b hb e
        (getFunction_mono hg e (bash_mono ctxt _ dyn a ha e he))
end

/-! ## The completers -/

/-- The name of a function that does what a completer does. -/
def Completes (s : Setting) (c : Comp) (g : Str) : Prop :=
  (Does s c false [] ∧ g = "true".toList) ∨ Does s c false [.call [g]] ∨
    ∃ code inner, (code, g) ∈ s.functions ∧ BashCode.read code = some inner ∧ Does s c false inner

theorem function_completes {s : Setting} {c : Comp} {v base : Str} {o : BashObj} {dyn : Dyn} {g : Str × Dyn}
    (hg : o.getFunction v base dyn = .ok g) (hF : ∀ e ∈ g.2, e ∈ s.functions) {ss : List Stmt}
    (hr : ReadsAs (o.getCode v false) ss) (hd : Does s c false ss) : Completes s c g.1 := by
  unfold BashObj.getFunction at hg
  split at hg
  · simp at hg; subst hg
    have : ss = [] := readsAs_unique hr (by simpa [BashObj.getCode] using ReadsAs.nil)
    subst this
    exact Or.inl ⟨hd, rfl⟩
  · rename_i f
    simp at hg; subst hg
    have : ss = [.call [f]] := readsAs_unique hr (by
      simpa [BashObj.getCode, appended, joinQuoted, joinWith] using reads_one f)
    subst this
    exact Or.inr (Or.inl hd)
  · have := addDynFunc_spec hg
    exact Or.inr (Or.inr ⟨_, ss, hF _ this.2, hr.read, hd⟩)

theorem codes_cons (v : Str) (o : BashObj) (os : List BashObj) (append : Bool) :
    BashObj.codes v (o :: os) append = o.getCode v append :: BashObj.codes v os true := by
  simp [BashObj.codes]

theorem keys_join {l : Str} {ls : List Str} {s : Stmt} {ss : List Stmt} (h1 : ReadsAs l [s])
    (h2 : ReadsAs (joinWith ['\n'] ls) ss) : ReadsAs (joinWith ['\n'] (l :: ls)) (s :: ss) := by
  cases ls with
  | nil =>
    have : ss = [] := readsAs_unique h2 ReadsAs.nil
    subst this
    simpa [joinWith] using h1
  | cons x xs => simpa [joinWith] using h1.append h2

theorem helper_names (pre : Str) :
    useHelper bashRepo pre (S "key_value_list") = .ok (realName pre (S "key_value_list")) ∧
    useHelper bashRepo pre (S "key_value_pair") = .ok (realName pre (S "key_value_pair")) := ⟨rfl, rfl⟩

theorem reads_keyList (pre : Str) (hp : ∀ c ∈ pre, isSafeChar c = true) (s : Setting) (hs : s.pre = pre) (v : Str)
    (append : Bool) (cond : Option Str) (lines : List Str) (pushes : List Stmt)
    (h : ReadsAs (joinWith ['\n'] lines) pushes) (ps vs : Str) :
    ReadsAs ((BashObj.code (keyValueCode cond lines (realName pre (S "key_value_list") ++ S " " ++ quote ps ++ S " " ++
        quote vs))).getCode v append)
      (appending append (keyStart cond ++ pushes ++ [.callWith [helper s "key_value_list", ps, vs] "a".toList])) := by
  subst hs
  have hq := realName_quote hp (S "key_value_list") (by decide)
  refine reads_code _ _ _ _ (by simp) (reads_keyValue cond lines pushes h _ (realName_not_local s.pre _) [ps, vs] _ ?_)
  rw [← hq]
  simp [joinQuoted, joinWith, S, helper, realName]

theorem reads_keyPair (pre : Str) (hp : ∀ c ∈ pre, isSafeChar c = true) (s : Setting) (hs : s.pre = pre) (v : Str)
    (append : Bool) (cond : Option Str) (lines : List Str) (pushes : List Stmt)
    (h : ReadsAs (joinWith ['\n'] lines) pushes) (vs : Str) :
    ReadsAs ((BashObj.code (keyValueCode cond lines (realName pre (S "key_value_pair") ++ S " " ++
        quote vs))).getCode v append)
      (appending append (keyStart cond ++ pushes ++ [.callWith [helper s "key_value_pair", vs] "a".toList])) := by
  subst hs
  have hq := realName_quote hp (S "key_value_pair") (by decide)
  refine reads_code _ _ _ _ (by simp) (reads_keyValue cond lines pushes h _ (realName_not_local s.pre _) [vs] _ ?_)
  rw [← hq]
  simp [joinQuoted, joinWith, S, helper, realName]

mutual
theorem bash_does (ctxt : BashCtxt) (hp : ∀ c ∈ ctxt.pre, isSafeChar c = true) (F : Dyn) :
    ∀ (c : Comp) (_ : Proper c) (_ : Works ctxt.v212 c) (dyn : Dyn) (r : BashObj × Dyn)
      (_ : bashCompleter ctxt c dyn = .ok r) (_ : ∀ e ∈ r.2, e ∈ F) (append : Bool),
      ∃ ss, ReadsAs (r.1.getCode (realName ctxt.pre (S "values")) append) ss ∧
        Does ⟨ctxt.pre, ctxt.v212, F⟩ c append ss
  | .combine cs, hv, hw, dyn, r, h, hF, append => by
    simp only [bashCompleter] at h
    obtain ⟨a, ha, h⟩ := ok_bind h
    simp at h; subst h
    obtain ⟨ss, h1, h2⟩ := bash_does_all ctxt hp F cs (by simpa [Proper] using hv) (by simpa [Works] using hw) dyn a ha hF append
    exact ⟨ss, by simpa [BashObj.getCode] using h1, by simpa [Does] using h2⟩
  | .list c o, hv, hw, dyn, r, h, hF, append => by
    simp only [bashCompleter] at h
    obtain ⟨a, ha, h⟩ := ok_bind h
    obtain ⟨f, hf, h⟩ := ok_bind h
    rw [show useHelper bashRepo ctxt.pre (S "value_list") = .ok (realName ctxt.pre (S "value_list")) from rfl] at hf
    simp at hf; subst hf
    simp at h; subst h
    simp only [Proper] at hv
    simp only [Works] at hw
    obtain ⟨inner, h1, h2⟩ := bash_does ctxt hp F c hv.1 hw dyn a ha hF false
    refine ⟨_, reads_code _ _ _ _ ?_ (reads_list ctxt.pre hp ⟨ctxt.pre, ctxt.v212, F⟩ rfl o hv.2 _ inner h1), ?_⟩
    · simp [listStmts]
    · simp only [Does]; exact ⟨inner, h2, rfl⟩
  | .prefix p c, hv, hw, dyn, r, h, hF, append => by
    simp only [bashCompleter] at h
    obtain ⟨a, ha, h⟩ := ok_bind h
    obtain ⟨g, hg, h⟩ := ok_bind h
    obtain ⟨f, hf, h⟩ := ok_bind h
    rw [show useHelper bashRepo ctxt.pre (S "prefix") = .ok (realName ctxt.pre (S "prefix")) from rfl] at hf
    simp at hf; subst hf
    simp at h; subst h
    simp only [Proper] at hv
    simp only [Works] at hw
    obtain ⟨inner, h1, h2⟩ := bash_does ctxt hp F c hv hw dyn a ha
      (fun e he => hF e (getFunction_mono hg e he)) false
    have h3 : Completes ⟨ctxt.pre, ctxt.v212, F⟩ c g.1 := function_completes hg hF h1 h2
    refine ⟨_, reads_func _ _ _ _ (realName_not_local _ _), ?_⟩
    simp only [Does]
    exact ⟨g.1, h3, rfl⟩
  | .keyValueList ps vs ks cond, hv, hw, dyn, r, h, hF, append => by
    simp only [bashCompleter] at h
    obtain ⟨a, ha, h⟩ := ok_bind h
    obtain ⟨f, hf, h⟩ := ok_bind h
    rw [(helper_names ctxt.pre).1] at hf
    cases hf
    cases h
    simp only [Proper] at hv
    simp only [Works] at hw
    obtain ⟨pushes, h1, h2⟩ := bash_does_keys ctxt hp F true cond ks hv hw dyn a ha hF
    refine ⟨_, reads_keyList ctxt.pre hp ⟨ctxt.pre, ctxt.v212, F⟩ rfl _ append cond a.1 pushes h1 ps vs, ?_⟩
    simp only [Does]; exact ⟨pushes, h2, rfl⟩
  | .keyValuePair vs ks cond, hv, hw, dyn, r, h, hF, append => by
    simp only [bashCompleter] at h
    obtain ⟨a, ha, h⟩ := ok_bind h
    obtain ⟨f, hf, h⟩ := ok_bind h
    rw [(helper_names ctxt.pre).2] at hf
    cases hf
    cases h
    simp only [Proper] at hv
    simp only [Works] at hw
    obtain ⟨pushes, h1, h2⟩ := bash_does_keys ctxt hp F false cond ks hv hw dyn a ha hF
    refine ⟨_, reads_keyPair ctxt.pre hp ⟨ctxt.pre, ctxt.v212, F⟩ rfl _ append cond a.1 pushes h1 vs, ?_⟩
    simp only [Does]; exact ⟨pushes, h2, rfl⟩
  | .void n, hv, hw, dyn, r, h, hF, append => by
    simp only [bashCompleter] at h
    obtain ⟨a, ha, h⟩ := ok_bind h
    simp at h; subst h
    simp only [Proper] at hv
    simp only [Works] at hw
    obtain ⟨o, ho, h2⟩ := reads_void ctxt F (realName ctxt.pre (S "values")) n hv hw
    rw [ho] at ha; simp at ha; subst ha
    obtain ⟨ss, h3, h4⟩ := h2 append
    exact ⟨ss, h3, by simpa only [Does] using h4⟩
  | .none, hv, hw, dyn, r, h, hF, append => by
    simp only [bashCompleter] at h; simp at h; subst h
    exact ⟨[], by simpa [BashObj.getCode] using ReadsAs.nil, by simp [Does]⟩
  | .commandArg, hv, hw, dyn, r, h, hF, append => by
    simp only [bashCompleter] at h; simp at h; subst h
    exact ⟨[], by simpa [BashObj.getCode] using ReadsAs.nil, by simp [Does]⟩
  | .date _, hv, hw, dyn, r, h, hF, append => by
    simp only [bashCompleter] at h; simp at h; subst h
    exact ⟨[], by simpa [BashObj.getCode] using ReadsAs.nil, by simp [Does]⟩
  | .choices c, hv, hw, dyn, r, h, hF, append => by
    simp only [bashCompleter] at h; simp at h; subst h
    simpa only [BashObj.getCode] using reads_choices ctxt.pre hp ⟨ctxt.pre, ctxt.v212, F⟩ rfl c append
  | .command p a b, hv, hw, dyn, r, h, hF, append => by
    simp only [bashCompleter] at h; simp at h; subst h
    simp only [Proper] at hv
    exact ⟨_, reads_command _ p a b hv.1 hv.2.1 hv.2.2 append, by simp only [Does]⟩
  | .directory d, hv, hw, dyn, r, h, hF, append => by
    simp only [bashCompleter] at h; simp at h; subst h
    simp only [Proper] at hv
    exact ⟨_, reads_directory ctxt F _ d hv append, by simp only [Does]⟩
  | .file o, hv, hw, dyn, r, h, hF, append => by
    simp only [bashCompleter] at h; obtain ⟨a, ha, h⟩ := ok_bind h; simp at h; subst h
    simp only [Proper] at hv
    obtain ⟨obj, ho, h2⟩ := reads_file ctxt hp F (realName ctxt.pre (S "values")) o hv
    rw [ho] at ha; simp at ha; subst ha
    exact ⟨_, h2 append, by simp only [Does]⟩
  | .directoryList d l, hv, hw, dyn, r, h, hF, append => by
    simp only [bashCompleter] at h
    obtain ⟨f, hf, h⟩ := ok_bind h
    rw [show useHelper bashRepo ctxt.pre (S "value_list") = .ok (realName ctxt.pre (S "value_list")) from rfl] at hf
    simp at hf; subst hf
    simp at h; subst h
    simp only [Proper] at hv
    have h1 := reads_directory ctxt F (realName ctxt.pre (S "values")) d hv.1 false
    refine ⟨_, reads_code _ _ _ _ ?_ (reads_list ctxt.pre hp ⟨ctxt.pre, ctxt.v212, F⟩ rfl l hv.2 _ _ h1), ?_⟩
    · simp [listStmts]
    · simp only [Does]; simp [appending]
  | .fileList o l, hv, hw, dyn, r, h, hF, append => by
    simp only [bashCompleter] at h
    obtain ⟨a, ha, h⟩ := ok_bind h
    obtain ⟨f, hf, h⟩ := ok_bind h
    rw [show useHelper bashRepo ctxt.pre (S "value_list") = .ok (realName ctxt.pre (S "value_list")) from rfl] at hf
    simp at hf; subst hf
    simp at h; subst h
    simp only [Proper] at hv
    obtain ⟨obj, ho, h2⟩ := reads_file ctxt hp F (realName ctxt.pre (S "values")) o hv.1
    rw [ho] at ha; simp at ha; subst ha
    refine ⟨_, reads_code _ _ _ _ ?_ (reads_list ctxt.pre hp ⟨ctxt.pre, ctxt.v212, F⟩ rfl l hv.2 _ _ (h2 false)), ?_⟩
    · simp [listStmts]
    · simp only [Does]; simp [appending]
  | .exec c, hv, hw, dyn, r, h, hF, append => by
    simp only [bashCompleter] at h; obtain ⟨a, ha, h⟩ := ok_bind h; simp at h; subst h
    rw [show bashHelper1 ctxt "exec" c = .ok (.func [realName ctxt.pre (S "exec"), c]) from rfl] at ha
    simp at ha; subst ha
    exact ⟨_, reads_func _ _ _ _ (realName_not_local _ _), by simp only [Does]; rfl⟩
  | .execFast c, hv, hw, dyn, r, h, hF, append => by
    simp only [bashCompleter] at h; obtain ⟨a, ha, h⟩ := ok_bind h; simp at h; subst h
    rw [show bashHelper1 ctxt "exec_fast" c = .ok (.func [realName ctxt.pre (S "exec_fast"), c]) from rfl] at ha
    simp at ha; subst ha
    exact ⟨_, reads_func _ _ _ _ (realName_not_local _ _), by simp only [Does]; rfl⟩
  | .execInternal c, hv, hw, dyn, r, h, hF, append => by
    simp only [bashCompleter] at h; simp at h; subst h
    simp only [Works] at hw
    obtain ⟨ss, hs⟩ := hw
    by_cases hc : c = []
    · subst hc
      exact ⟨[], by simpa [BashObj.getCode] using ReadsAs.nil, by simp [Does]⟩
    · refine ⟨appending append ss, ?_, ?_⟩
      · have hne : List.isEmpty c = false := by simpa using hc
        simpa [BashObj.getCode, hne, appending] using reads_appended append _ _ (reads_of_read hs)
      · simp only [Does, if_neg hc]; exact ⟨ss, hs, rfl⟩
  | .integer o, hv, hw, dyn, r, h, hF, append => by
    simp only [bashCompleter] at h; obtain ⟨a, ha, h⟩ := ok_bind h; simp at h; subst h
    obtain ⟨obj, ho, h2⟩ := reads_number ctxt F (realName ctxt.pre (S "values")) o
    rw [ho] at ha; simp at ha; subst ha
    exact ⟨_, h2 append, by simp only [Does]⟩
  | .float o, hv, hw, dyn, r, h, hF, append => by
    simp only [bashCompleter] at h; obtain ⟨a, ha, h⟩ := ok_bind h; simp at h; subst h
    obtain ⟨obj, ho, h2⟩ := reads_number ctxt F (realName ctxt.pre (S "values")) o
    rw [ho] at ha; simp at ha; subst ha
    exact ⟨_, h2 append, by simp only [Does]⟩
  | .history c, hv, hw, dyn, r, h, hF, append => by
    simp only [bashCompleter] at h; obtain ⟨a, ha, h⟩ := ok_bind h; simp at h; subst h
    rw [show bashHelper1 ctxt "history" c = .ok (.func [realName ctxt.pre (S "history"), c]) from rfl] at ha
    simp at ha; subst ha
    exact ⟨_, reads_func _ _ _ _ (realName_not_local _ _), by simp only [Does]; rfl⟩
  | .mimeFile c, hv, hw, dyn, r, h, hF, append => by
    simp only [bashCompleter] at h; obtain ⟨a, ha, h⟩ := ok_bind h; simp at h; subst h
    rw [show bashHelper1 ctxt "mime_file" c = .ok (.func [realName ctxt.pre (S "mime_file"), c]) from rfl] at ha
    simp at ha; subst ha
    exact ⟨_, reads_func _ _ _ _ (realName_not_local _ _), by simp only [Does]; rfl⟩
  | .ipAddress t, hv, hw, dyn, r, h, hF, append => by
    simp only [bashCompleter] at h; simp at h; subst h
    exact ⟨_, reads_ip ctxt F _ t append, by simp only [Does]⟩
  | .keyValueListExec p v c, hv, hw, dyn, r, h, hF, append => by
    simp only [bashCompleter] at h; obtain ⟨a, ha, h⟩ := ok_bind h; simp at h; subst h
    rw [show useHelper bashRepo ctxt.pre (S "key_value_list_exec") =
      .ok (realName ctxt.pre (S "key_value_list_exec")) from rfl] at ha
    simp at ha; subst ha
    exact ⟨_, reads_func _ _ _ _ (realName_not_local _ _), by simp only [Does]; rfl⟩
  | .keyValuePairExec v c, hv, hw, dyn, r, h, hF, append => by
    simp only [bashCompleter] at h; obtain ⟨a, ha, h⟩ := ok_bind h; simp at h; subst h
    rw [show useHelper bashRepo ctxt.pre (S "key_value_pair_exec") =
      .ok (realName ctxt.pre (S "key_value_pair_exec")) from rfl] at ha
    simp at ha; subst ha
    exact ⟨_, reads_func _ _ _ _ (realName_not_local _ _), by simp only [Does]; rfl⟩
  | .range a b s, hv, hw, dyn, r, h, hF, append => by
    simp only [bashCompleter] at h; simp at h; subst h
    exact ⟨_, reads_bashRange _ a b s append, by simp only [Does]⟩
  | .valueList v o, hv, hw, dyn, r, h, hF, append => by
    simp only [bashCompleter] at h; obtain ⟨a, ha, h⟩ := ok_bind h; simp at h; subst h
    rw [show bashValueList ctxt v o = .ok (.func ([realName ctxt.pre (S "value_list")] ++
      (if o.duplicates then [S "-d"] else []) ++ [o.separator] ++ v.words)) from rfl] at ha
    simp at ha; subst ha
    refine ⟨_, reads_func _ _ _ _ (realName_not_local _ _), ?_⟩
    simp only [Does]
    simp [dupFlag, helper, realName, S]
theorem bash_does_all (ctxt : BashCtxt) (hp : ∀ c ∈ ctxt.pre, isSafeChar c = true) (F : Dyn) :
    ∀ (cs : Comps) (_ : ProperAll cs) (_ : WorksAll ctxt.v212 cs) (dyn : Dyn) (r : List BashObj × Dyn)
      (_ : bashCompleters ctxt cs dyn = .ok r) (_ : ∀ e ∈ r.2, e ∈ F) (append : Bool),
      ∃ ss, ReadsAs (joinWith ['\n'] (BashObj.codes (realName ctxt.pre (S "values")) r.1 append)) ss ∧
        DoesAll ⟨ctxt.pre, ctxt.v212, F⟩ cs append ss
  | .nil, hv, hw, dyn, r, h, hF, append => by
    simp only [bashCompleters] at h; simp at h; subst h
    exact ⟨[], by simpa [BashObj.codes, joinWith] using ReadsAs.nil, by simp [DoesAll]⟩
  | .cons c cs, hv, hw, dyn, r, h, hF, append => by
    simp only [bashCompleters] at h
    obtain ⟨a, ha, h⟩ := ok_bind h
    obtain ⟨b, hb, h⟩ := ok_bind h
    simp at h; subst h
    simp only [ProperAll] at hv
    simp only [WorksAll] at hw
    obtain ⟨s1, h1, h2⟩ := bash_does ctxt hp F c hv.1 hw.1 dyn a ha
      (fun e he => hF e (bash_monos ctxt cs a.2 b hb e he)) append
    obtain ⟨s2, h3, h4⟩ := bash_does_all ctxt hp F cs hv.2 hw.2 a.2 b hb hF true
    refine ⟨s1 ++ s2, ?_, by simp only [DoesAll]; exact ⟨s1, s2, h2, h4, rfl⟩⟩
    simp only [codes_cons]
    cases hr : BashObj.codes (realName ctxt.pre (S "values")) b.1 true with
    | nil =>
      rw [hr] at h3
      have : s2 = [] := readsAs_unique h3 ReadsAs.nil
      subst this
      simpa [joinWith] using h1
    | cons x xs =>
      rw [hr] at h3
      simpa [joinWith] using h1.append h3
theorem bash_does_keys (ctxt : BashCtxt) (hp : ∀ c ∈ ctxt.pre, isSafeChar c = true) (F : Dyn) (isList : Bool)
    (cond : Option Str) :
    ∀ (ks : KeyDefList) (_ : ProperKeys ks) (_ : WorksKeys ctxt.v212 ks) (dyn : Dyn) (r : List Str × Dyn)
      (_ : bashKeyDefs ctxt isList cond ks dyn = .ok r) (_ : ∀ e ∈ r.2, e ∈ F),
      ∃ ss, ReadsAs (joinWith ['\n'] r.1) ss ∧ DoesKeys ⟨ctxt.pre, ctxt.v212, F⟩ isList cond ks ss
  | .nil, hv, hw, dyn, r, h, hF => by
    simp only [bashKeyDefs] at h; simp at h; subst h
    exact ⟨[], ReadsAs.nil, by simp [DoesKeys]⟩
  | .bare k d ex ks, hv, hw, dyn, r, h, hF => by
    simp only [bashKeyDefs] at h
    obtain ⟨b, hb, h⟩ := ok_bind h
    simp at h; subst h
    simp only [ProperKeys] at hv
    simp only [WorksKeys] at hw
    obtain ⟨s2, h3, h4⟩ := bash_does_keys ctxt hp F isList cond ks hv hw dyn b hb hF
    refine ⟨_, keys_join (reads_key isList cond k ex (S "false")) h3, ?_⟩
    simp only [DoesKeys]
    exact ⟨s2, h4, rfl⟩
  | .cons k d ex c ks, hv, hw, dyn, r, h, hF => by
    simp only [ProperKeys] at hv
    simp only [WorksKeys] at hw
    rw [bashKeyDefs.eq_def] at h
    cases c with
    | none =>
      simp only at h
      obtain ⟨b, hb, h⟩ := ok_bind h
      simp at h; subst h
      obtain ⟨s2, h3, h4⟩ := bash_does_keys ctxt hp F isList cond ks hv.2 hw.2 dyn b hb hF
      refine ⟨_, keys_join (reads_key isList cond k ex (S "true")) h3, ?_⟩
      simp only [DoesKeys]
      exact ⟨S "true", s2, Or.inl ⟨by simp [Does], rfl⟩, h4, rfl⟩
    | _ =>
      simp only at h
      obtain ⟨a, ha, h⟩ := ok_bind h
      obtain ⟨g, hg, h⟩ := ok_bind h
      obtain ⟨b, hb, h⟩ := ok_bind h
      simp at h; subst h
      have hm : ∀ e ∈ g.2, e ∈ F := fun e he => hF e (bash_mono_keys ctxt isList cond ks g.2 b hb e he)
      obtain ⟨inner, h1, h2⟩ := bash_does ctxt hp F _ hv.1 hw.1 dyn a ha
        (fun e he => hm e (getFunction_mono hg e he)) false
      obtain ⟨s2, h3, h4⟩ := bash_does_keys ctxt hp F isList cond ks hv.2 hw.2 g.2 b hb hF
      refine ⟨_, keys_join (reads_key isList cond k ex g.1) h3, ?_⟩
      have h5 := function_completes hg (s := ⟨ctxt.pre, ctxt.v212, F⟩) hm h1 h2
      simp only [DoesKeys]
      exact ⟨g.1, s2, h5, h4, rfl⟩
end

/-! ## The generator does not fail -/

theorem exists_bind {α β : Type} {P : β → Prop} {x : Except Err α} {f : α → Except Err β} {a : α} (hx : x = .ok a)
    (hf : ∃ b, f a = .ok b ∧ P b) : ∃ b, (x >>= f) = .ok b ∧ P b := by
  subst hx; exact hf

theorem ite_ok {β : Type} {p : Prop} [Decidable p] {a b : Except Err β} (ha : ∃ o, a = .ok o) (hb : ∃ o, b = .ok o) :
    ∃ o, (if p then a else b) = .ok o := by
  split
  · exact ha
  · exact hb

theorem bashVoid_total (ctxt : BashCtxt) (n : Str) : ∃ o, bashVoid ctxt n = .ok o := by
  have helper : ∀ f, (∃ l, assocGet bashRepo f = some l) →
      ∃ o, (do let g ← useHelper bashRepo ctxt.pre f; .ok (BashObj.func [g]) : Except Err BashObj) = .ok o := by
    rintro f ⟨l, hl⟩
    exact ⟨_, by simp only [useHelper, hl]; rfl⟩
  unfold bashVoid
  simp only
  iterate 8 refine ite_ok ⟨_, rfl⟩ ?_
  refine ite_ok (helper _ ⟨_, rfl⟩) ?_
  iterate 5 refine ite_ok ⟨_, rfl⟩ ?_
  iterate 3 refine ite_ok (helper _ ⟨_, rfl⟩) ?_
  iterate 2 refine ite_ok ⟨_, rfl⟩ ?_
  refine ite_ok ⟨.func [realName ctxt.pre (S "exec"), realName ctxt.pre (S "timezone_list")], rfl⟩ ?_
  iterate 2 refine ite_ok (helper _ ⟨_, rfl⟩) ?_
  exact ⟨_, rfl⟩

theorem bashFile_total (ctxt : BashCtxt) (o : FileOpts) : ∃ obj, bashFile ctxt o = .ok obj := by
  unfold bashFile
  simp only
  split
  · exact ⟨_, rfl⟩
  · exact ⟨_, rfl⟩
  · simp only [show useHelper bashRepo ctxt.pre (S "file_filter") = .ok (realName ctxt.pre (S "file_filter")) from rfl]
    exact ⟨_, rfl⟩

theorem bashNumber_total (ctxt : BashCtxt) (o : NumOpts) : ∃ obj, bashNumber ctxt o = .ok obj := by
  unfold bashNumber
  split
  · exact ⟨_, rfl⟩
  · simp only [show useHelper bashRepo ctxt.pre (S "number") = .ok (realName ctxt.pre (S "number")) from rfl]
    exact ⟨_, rfl⟩

theorem getFunction_total (v base : Str) (dyn : Dyn) (h : DynOk dyn) (o : BashObj) :
    ∃ r, o.getFunction v base dyn = .ok r ∧ DynOk r.2 := by
  unfold BashObj.getFunction
  split
  · exact ⟨_, rfl, h⟩
  · exact ⟨_, rfl, h⟩
  · obtain ⟨n, dyn', h1, h2, _⟩ := addDynamic_spec (dyn.length + 1) base (o.getCode v false) dyn h (by omega)
    unfold addDynFunc
    rw [h1]
    exact ⟨_, rfl, h2⟩

theorem helper_ok {β : Type} {P : β → Prop} (pre name : Str) {f : Str → Except Err β} (hl : ∃ l, assocGet bashRepo name = some l)
    (hf : ∃ b, f (realName pre name) = .ok b ∧ P b) : ∃ b, (useHelper bashRepo pre name >>= f) = .ok b ∧ P b := by
  obtain ⟨l, hl⟩ := hl
  exact exists_bind (a := realName pre name) (by simp only [useHelper, hl]) hf

mutual
theorem bash_total (ctxt : BashCtxt) : ∀ (c : Comp) (dyn : Dyn), DynOk dyn →
    ∃ r, bashCompleter ctxt c dyn = .ok r ∧ DynOk r.2
  | .combine cs, dyn, h => by
    obtain ⟨r, h1, h2⟩ := bash_totals ctxt cs dyn h
    simp only [bashCompleter]
    exact exists_bind h1 ⟨_, rfl, h2⟩
  | .list c o, dyn, h => by
    obtain ⟨r, h1, h2⟩ := bash_total ctxt c dyn h
    simp only [bashCompleter]
    exact exists_bind h1 (helper_ok _ _ ⟨_, rfl⟩ ⟨_, rfl, h2⟩)
  | .prefix p c, dyn, h => by
    obtain ⟨r, h1, h2⟩ := bash_total ctxt c dyn h
    obtain ⟨g, h3, h4⟩ := getFunction_total (realName ctxt.pre (S "values")) ctxt.base r.2 h2 r.1
    simp only [bashCompleter]
    exact exists_bind h1 (exists_bind h3 (helper_ok _ _ ⟨_, rfl⟩ ⟨_, rfl, h4⟩))
  | .keyValueList ps vs ks cond, dyn, h => by
    obtain ⟨r, h1, h2⟩ := bash_total_keys ctxt true cond ks dyn h
    simp only [bashCompleter]
    exact exists_bind h1 (helper_ok _ _ ⟨_, rfl⟩ ⟨_, rfl, h2⟩)
  | .keyValuePair vs ks cond, dyn, h => by
    obtain ⟨r, h1, h2⟩ := bash_total_keys ctxt false cond ks dyn h
    simp only [bashCompleter]
    exact exists_bind h1 (helper_ok _ _ ⟨_, rfl⟩ ⟨_, rfl, h2⟩)
  | .void n, dyn, h => by
    obtain ⟨o, ho⟩ := bashVoid_total ctxt n
    simp only [bashCompleter]
    exact exists_bind ho ⟨_, rfl, h⟩
  | .none, dyn, h => ⟨_, by simp only [bashCompleter]; rfl, h⟩
  | .commandArg, dyn, h => ⟨_, by simp only [bashCompleter]; rfl, h⟩
  | .date _, dyn, h => ⟨_, by simp only [bashCompleter]; rfl, h⟩
  | .choices _, dyn, h => ⟨_, by simp only [bashCompleter]; rfl, h⟩
  | .command _ _ _, dyn, h => ⟨_, by simp only [bashCompleter]; rfl, h⟩
  | .directory _, dyn, h => ⟨_, by simp only [bashCompleter]; rfl, h⟩
  | .file o, dyn, h => by
    obtain ⟨obj, ho⟩ := bashFile_total ctxt o
    simp only [bashCompleter]
    exact exists_bind ho ⟨_, rfl, h⟩
  | .directoryList _ _, dyn, h => by simp only [bashCompleter]; exact helper_ok _ _ ⟨_, rfl⟩ ⟨_, rfl, h⟩
  | .fileList o l, dyn, h => by
    obtain ⟨obj, ho⟩ := bashFile_total ctxt o
    simp only [bashCompleter]
    exact exists_bind ho (helper_ok _ _ ⟨_, rfl⟩ ⟨_, rfl, h⟩)
  | .exec _, dyn, h => by
    simp only [bashCompleter]; exact exists_bind (show bashHelper1 ctxt "exec" _ = .ok _ from rfl) ⟨_, rfl, h⟩
  | .execFast _, dyn, h => by
    simp only [bashCompleter]; exact exists_bind (show bashHelper1 ctxt "exec_fast" _ = .ok _ from rfl) ⟨_, rfl, h⟩
  | .execInternal _, dyn, h => ⟨_, by simp only [bashCompleter]; rfl, h⟩
  | .integer o, dyn, h => by
    obtain ⟨obj, ho⟩ := bashNumber_total ctxt o
    simp only [bashCompleter]
    exact exists_bind ho ⟨_, rfl, h⟩
  | .float o, dyn, h => by
    obtain ⟨obj, ho⟩ := bashNumber_total ctxt o
    simp only [bashCompleter]
    exact exists_bind ho ⟨_, rfl, h⟩
  | .history _, dyn, h => by
    simp only [bashCompleter]; exact exists_bind (show bashHelper1 ctxt "history" _ = .ok _ from rfl) ⟨_, rfl, h⟩
  | .mimeFile _, dyn, h => by
    simp only [bashCompleter]; exact exists_bind (show bashHelper1 ctxt "mime_file" _ = .ok _ from rfl) ⟨_, rfl, h⟩
  | .ipAddress _, dyn, h => ⟨_, by simp only [bashCompleter]; rfl, h⟩
  | .keyValueListExec _ _ _, dyn, h => by simp only [bashCompleter]; exact helper_ok _ _ ⟨_, rfl⟩ ⟨_, rfl, h⟩
  | .keyValuePairExec _ _, dyn, h => by simp only [bashCompleter]; exact helper_ok _ _ ⟨_, rfl⟩ ⟨_, rfl, h⟩
  | .range _ _ _, dyn, h => ⟨_, by simp only [bashCompleter]; rfl, h⟩
  | .valueList v o, dyn, h => by
    simp only [bashCompleter]; exact exists_bind (show bashValueList ctxt v o = .ok _ from rfl) ⟨_, rfl, h⟩
theorem bash_totals (ctxt : BashCtxt) : ∀ (cs : Comps) (dyn : Dyn), DynOk dyn →
    ∃ r, bashCompleters ctxt cs dyn = .ok r ∧ DynOk r.2
  | .nil, dyn, h => ⟨_, by simp only [bashCompleters]; rfl, h⟩
  | .cons c cs, dyn, h => by
    obtain ⟨r, h1, h2⟩ := bash_total ctxt c dyn h
    obtain ⟨q, h3, h4⟩ := bash_totals ctxt cs r.2 h2
    simp only [bashCompleters]
    exact exists_bind h1 (exists_bind h3 ⟨_, rfl, h4⟩)
theorem bash_total_keys (ctxt : BashCtxt) (isList : Bool) (cond : Option Str) : ∀ (ks : KeyDefList) (dyn : Dyn), DynOk dyn →
    ∃ r, bashKeyDefs ctxt isList cond ks dyn = .ok r ∧ DynOk r.2
  | .nil, dyn, h => ⟨_, by simp only [bashKeyDefs]; rfl, h⟩
  | .bare k d ex ks, dyn, h => by
    obtain ⟨r, h1, h2⟩ := bash_total_keys ctxt isList cond ks dyn h
    simp only [bashKeyDefs]
    exact exists_bind h1 ⟨_, rfl, h2⟩
  | .cons k d ex c ks, dyn, h => by
    rw [bashKeyDefs.eq_def]
    cases c with
    | none =>
      obtain ⟨r, h1, h2⟩ := bash_total_keys ctxt isList cond ks dyn h
      exact exists_bind h1 ⟨_, rfl, h2⟩
    | _ =>
      obtain ⟨r, h1, h2⟩ := bash_total ctxt _ dyn h
      obtain ⟨g, h3, h4⟩ := getFunction_total (realName ctxt.pre (S "values")) ctxt.base r.2 h2 r.1
      obtain ⟨q, h5, h6⟩ := bash_total_keys ctxt isList cond ks g.2 h4
      exact exists_bind h1 (exists_bind h3 (exists_bind h5 ⟨_, rfl, h6⟩))
end

/-! ## The property -/

/-- **C78.** The code that Bash gets for a completer is read as calls of the right commands with exactly the
texts of the definition as their words, whatever characters these have, alone or after earlier completers; and
the code never fails to be generated. It is partial because of `Works`: the user's own code of `exec_internal`
must be readable for the specification, and the completers `login_shell` and `filesystem_type` do not work
with bash-completion 2.12 (`C78_login_shell`). -/
theorem C78_bash_code_partial (ctxt : BashCtxt) (hp : ∀ c ∈ ctxt.pre, isSafeChar c = true) (c : Comp) (hv : Proper c)
    (hw : Works ctxt.v212 c) (dyn : Dyn) (hd : DynOk dyn) :
    ∃ o dyn', bashCompleter ctxt c dyn = .ok (o, dyn') ∧ DynOk dyn' ∧ (∀ e ∈ dyn, e ∈ dyn') ∧
      ∀ append F, (∀ e ∈ dyn', e ∈ F) → ∃ ss,
        BashCode.read (o.getCode (realName ctxt.pre (S "values")) append) = some ss ∧
        Does ⟨ctxt.pre, ctxt.v212, F⟩ c append ss := by
  obtain ⟨r, h1, h2⟩ := bash_total ctxt c dyn hd
  refine ⟨r.1, r.2, h1, h2, bash_mono ctxt c dyn r h1, fun append F hF => ?_⟩
  obtain ⟨ss, h3, h4⟩ := bash_does ctxt hp F c hv hw dyn r h1 hF append
  exact ⟨ss, h3.read, h4⟩

/-- **C78**, for places that want the name of a function: the function with that name does what the completer
does. -/
theorem C78_bash_function_partial (ctxt : BashCtxt) (hp : ∀ c ∈ ctxt.pre, isSafeChar c = true) (c : Comp) (hv : Proper c)
    (hw : Works ctxt.v212 c) (dyn : Dyn) (hd : DynOk dyn) (o : BashObj) (dyn' : Dyn)
    (h : bashCompleter ctxt c dyn = .ok (o, dyn')) :
    ∃ g dyn'', o.getFunction (realName ctxt.pre (S "values")) ctxt.base dyn' = .ok (g, dyn'') ∧ DynOk dyn'' ∧
      ∀ F, (∀ e ∈ dyn'', e ∈ F) → Completes ⟨ctxt.pre, ctxt.v212, F⟩ c g := by
  obtain ⟨r, h1, h2⟩ := bash_total ctxt c dyn hd
  rw [h] at h1
  cases h1
  obtain ⟨g, h3, h4⟩ := getFunction_total (realName ctxt.pre (S "values")) ctxt.base dyn' h2 o
  refine ⟨g.1, g.2, h3, h4, fun F hF => ?_⟩
  obtain ⟨ss, h5, h6⟩ := bash_does ctxt hp F c hv hw dyn (o, dyn') h
    (fun e he => hF e (getFunction_mono h3 e he)) false
  exact function_completes h3 hF h5 h6

/-- **C78** fails for `login_shell` (and in the same way for `filesystem_type`) with bash-completion 2.12 or
later: the command with its arguments becomes a single word, the name of a command that does not exist. -/
theorem C78_login_shell (pre base : Str) (dyn : Dyn) (v : Str) :
    ∃ o, bashCompleter ⟨pre, base, true⟩ (.void (S "login_shell")) dyn = .ok (o, dyn) ∧
      BashCode.read (o.getCode v false) = some [.call [S "_comp_compgen -a shells"]] ∧
      ∀ F, ¬ Does ⟨pre, true, F⟩ (.void (S "login_shell")) false [.call [S "_comp_compgen -a shells"]] := by
  refine ⟨.func [S "_comp_compgen -a shells"], rfl, ?_, ?_⟩
  · exact (reads_func v false _ _ (by decide)).read
  · intro F h
    simp only [Does, DoesVoid, actions, helpers, library] at h
    rcases h with ⟨e, he, h1, h2⟩ | ⟨e, he, h1, h2⟩ | ⟨e, he, h1, h2⟩ | ⟨h1, h2⟩
    · simp at h2
    · simp only [List.mem_cons, List.not_mem_nil, or_false] at he
      rcases he with rfl | rfl | rfl | rfl | rfl | rfl | rfl <;> revert h1 <;> decide
    · simp only [List.mem_cons, List.not_mem_nil, or_false] at he
      rcases he with rfl | rfl | rfl | rfl | rfl | rfl | rfl | rfl <;> first | (revert h1; decide) | (revert h2; decide)
    · simp at h2

/-- A case of **C78**: a list of choices with blanks and quotes, a prefix, and a key with its own completer. -/
theorem C78_example :
    Proper (.combine (.cons (.list (.choices (.list [.str (S "it's"), .str (S "a b")])) { separator := S "," })
      (.cons (.keyValuePair (S "=") (.cons (S "k e y") none [] (.exec (S "echo \"$x\"")) .nil) (some (S "f"))) .nil))) ∧
    Works true (.combine (.cons (.list (.choices (.list [.str (S "it's"), .str (S "a b")])) { separator := S "," })
      (.cons (.keyValuePair (S "=") (.cons (S "k e y") none [] (.exec (S "echo \"$x\"")) .nil) (some (S "f"))) .nil))) ∧
    (bashCompleter ⟨S "_p", S "_p__x", true⟩
      (.combine (.cons (.list (.choices (.list [.str (S "it's"), .str (S "a b")])) { separator := S "," })
        (.cons (.keyValuePair (S "=") (.cons (S "k e y") none [] (.exec (S "echo \"$x\"")) .nil) (some (S "f"))) .nil)))
      []).toOption.bind (fun r => BashCode.read (r.1.getCode (S "_p__values") false)) =
    some [.saveCur, .cutCur (S ","), .call [S "_p__values", S "--", S "it's", S "a b"], .restoreCur,
      .callWith [S "_p__value_list", S ","] (S "COMPREPLY"), .saveReply, .newArray, .condition (S "f"),
      .push (some (S "k e y")) [S "k e y", S "_p__x"], .callWith [S "_p__key_value_pair", S "="] (S "a"), .joinReply] := by
  refine ⟨by simp [Proper, ProperAll, ProperKeys, S], by simp [Works, WorksAll, WorksKeys], by decide +kernel⟩

end CC
