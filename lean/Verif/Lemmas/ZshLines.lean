import Verif.Lemmas.ZshAction
/-!
# The lines of combined completers and of keys in Zsh
-/

namespace CC
open BashCode ZshCompleter

/-! ## `_alternative` -/

theorem run_alternative : ∀ (ts : List Str) (o : List Tok) (m : BashCode.Mode), m = .joined → ts ≠ [] →
    run ⟨m, [], [], o⟩ (joinWith (S " \\\n") (ts.map (fun t => [' ', ' '] ++ (S "::" ++ quote t))) ++ ['\n']) =
      some { out := o ++ ts.map (fun t => tok (S "::" ++ t)) ++ [.nl] }
  | [], _, _, _, h => absurd rfl h
  | [t], o, m, hm, _ => by
    subst hm
    have e : joinWith (S " \\\n") ([t].map (fun t => [' ', ' '] ++ (S "::" ++ quote t))) ++ ['\n'] =
        S "  ::" ++ (quote t ++ ['\n']) := by simp [joinWith, S]
    have h1 : run ⟨.joined, [], [], o⟩ (S "  ::") = some ⟨.word, chs (S "::"), [], o⟩ := by
      simp [S, run, step, atStart, operators, unsupported, chs]
    rw [e, run_append, h1, Option.bind_some, run_append, run_quote_word, Option.bind_some]
    simp [run, step, tok, chs]
  | t :: x :: r, o, m, hm, _ => by
    subst hm
    have e : joinWith (S " \\\n") ((t :: x :: r).map (fun t => [' ', ' '] ++ (S "::" ++ quote t))) ++ ['\n'] =
        S "  ::" ++ (quote t ++ (S " \\\n" ++
          (joinWith (S " \\\n") ((x :: r).map (fun t => [' ', ' '] ++ (S "::" ++ quote t))) ++ ['\n']))) := by
      simp [joinWith, S]
    have h1 : run ⟨.joined, [], [], o⟩ (S "  ::") = some ⟨.word, chs (S "::"), [], o⟩ := by
      simp [S, run, step, atStart, operators, unsupported, chs]
    have h2 : ∀ w, run ⟨.word, w, [], o⟩ (S " \\\n") = some ⟨.joined, [], [], o ++ [.word w]⟩ := by
      intro w; simp [S, run, step, atStart]
    rw [e, run_append, h1, Option.bind_some, run_append, run_quote_word, Option.bind_some, run_append, h2,
      Option.bind_some, run_alternative (x :: r) _ .joined rfl (by simp)]
    simp [tok, chs]

theorem alternative_nonblank (t : Str) : stripTruthy (S "::" ++ quote t) = true := by
  rw [stripTruthy_iff]
  exact ⟨':', by simp [S], by decide⟩

theorem reads_alternative (ts : List Str) (h : ∀ t ∈ ts, '\n' ∉ t) :
    ReadsAs (zshAlternative (ts.map (fun t => quote t))) [.call ("_alternative".toList :: ts.map (fun a => "::".toList ++ a))] := by
  by_cases hne : ts = []
  · subst hne
    refine ReadsAs.line (l := [lit "_alternative"]) (by decide +kernel) (by simp [lit]) (by simp) (by decide +kernel)
  · refine ReadsAs.line (l := ("_alternative".toList :: ts.map (fun a => "::".toList ++ a)).map tok) ?_ (by simp [tok]) (by simp)
      (stmt_call _ _ (by decide))
    have e : indent (joinWith (S " \\\n") ((ts.map (fun t => quote t)).map (fun a => S "::" ++ a))) 2 =
        joinWith (S " \\\n") (ts.map (fun t => [' ', ' '] ++ (S "::" ++ quote t))) := by
      have := indent_join (S " \\") ((ts.map (fun t => quote t)).map (fun a => S "::" ++ a)) 2 (by decide) (by simpa using hne) (by
        intro l hl
        obtain ⟨a, ha, rfl⟩ := List.mem_map.mp hl
        obtain ⟨t, ht, rfl⟩ := List.mem_map.mp ha
        refine ⟨?_, alternative_nonblank t⟩
        have := nl_quote (h t ht)
        simp [S, this])
      rw [show S " \\" ++ ['\n'] = S " \\\n" by decide] at this
      rw [this]
      congr 1
      simp [List.map_map, Function.comp_def, List.replicate]
    have h1 : run {} (S "_alternative \\\n") = some ⟨.joined, [], [], [lit "_alternative"]⟩ := by decide +kernel
    unfold zshAlternative
    rw [e, List.append_assoc, run_append, h1, Option.bind_some, run_alternative ts _ .joined rfl hne]
    simp [lit, tok, chs, S]

/-! ## Keys -/

theorem plain_safe {t : Str} (h : Plain t) : ∀ c ∈ t, isSafeChar c = true := by
  intro c hc
  rcases h.2 c hc with h | h | h | h | h
  · simp [isSafeChar, isAsciiAlnum, h]
  all_goals subst h; decide

theorem plain_not {t : Str} (h : Plain t) {c : Char} (hc : c = '(' ∨ c = '*' ∨ c = '[' ∨ c = ':' ∨ c = '\\' ∨ c = '=') : c ∉ t := by
  intro hm
  have := h.2 c hm
  rcases hc with rfl | rfl | rfl | rfl | rfl | rfl <;> revert this <;> decide

theorem escapeColon_plain {t : Str} (h : ':' ∉ t) : escapeColon t = t := by
  unfold escapeColon
  induction t with
  | nil => rfl
  | cons c cs ih =>
    have hc : c ≠ ':' := by rintro rfl; simp at h
    simp [replaceChar, hc, ih (fun hm => h (by simp [hm]))]

/-- At the beginning of a word. -/
theorem run_oper_word {c : Char} (h : c = '\'' ∨ c = '"' ∨ isSafeChar c = true) (r : Str) (o : List Tok) :
    run ⟨.oper, [], [], o⟩ (c :: r) = run ⟨.word, [], [], o⟩ (c :: r) := by
  rcases h with rfl | rfl | h
  · rfl
  · rfl
  · obtain ⟨h1, h2, h3, h4, h5, h6, h7, h8, _, _⟩ := safe_plain h
    simp only [run, step, atStart, h1, h2, h3, h4, h5, h6, h7, h8, if_false, Bool.false_eq_true, Option.bind_some,
      List.nil_append]

theorem quote_start (t : Str) : ∃ c r, quote t = c :: r ∧ (c = '\'' ∨ c = '"' ∨ isSafeChar c = true) := by
  cases hn : needsQuote t with
  | false =>
    have h := needsQuote_false hn
    rw [quote_safe t h.1 h.2]
    cases t with
    | nil => exact absurd rfl h.1
    | cons c r => exact ⟨c, r, rfl, Or.inr (Or.inr (h.2 c (by simp)))⟩
  | true =>
    unfold quote
    simp only [hn, Bool.not_true, Bool.and_false, Bool.false_eq_true, if_false]
    split
    · exact ⟨_, _, rfl, Or.inl rfl⟩
    · split
      · exact ⟨_, _, rfl, Or.inr (Or.inl rfl)⟩
      · exact ⟨_, _, rfl, Or.inl rfl⟩

/-- The definition that a line hands over. -/
def keyText (isList : Bool) (key : Str) (desc : Option Str) (excludes : List Str) (argument : Str) : Str :=
  (if isList && !excludes.isEmpty then S "(" ++ joinWith [' '] excludes ++ S ")" else []) ++
    (if isList && (starred key).2 then S "*" else []) ++ (if isList then (starred key).1 else key) ++
    (match truthyText desc with
     | some d => S "[" ++ escapeSquareBrackets d ++ S "]"
     | none => []) ++ argument

theorem run_keySpec (isList : Bool) (key : Str) (desc : Option Str) (excludes : List Str)
    (hp : Plain (if isList then (starred key).1 else key)) (o : List Tok) (arg argText : Str)
    (ha : ∀ w, run ⟨.word, w, [], o⟩ arg = some ⟨.word, w ++ chs argText, [], o⟩) :
    run ⟨.oper, [], [], o⟩ (zshKeySpec isList key desc excludes ++ arg) =
      some ⟨.word, chs (keyText isList key desc excludes argText), [], o⟩ := by
  have key1 : ∀ w, run ⟨.word, w, [], o⟩ (zshKeySpec isList key desc excludes ++ arg) =
      some ⟨.word, w ++ chs (keyText isList key desc excludes argText), [], o⟩ := by
    intro w
    have hstar : ∀ w, run ⟨.word, w, [], o⟩ (S "'*'") = some ⟨.word, w ++ chs (S "*"), [], o⟩ := by
      intro w; simp [S, run, step, chs]
    have hname := run_word_safe _ (plain_safe hp)
    unfold zshKeySpec keyText
    simp only
    rw [escapeColon_plain (plain_not hp (by simp))]
    generalize (if isList = true then (starred key).fst else key) = name at *
    simp only [List.append_assoc]
    cases h1 : (isList && !excludes.isEmpty) <;> cases h2 : (isList && (starred key).2) <;> cases h3 : truthyText desc <;>
      simp only [h3, if_true, if_false, Bool.false_eq_true, List.nil_append, run_append, run_quote_word, hstar, hname, ha,
        Option.bind_some] <;> simp [chs]
  have hst : ∃ c r, zshKeySpec isList key desc excludes ++ arg = c :: r ∧ (c = '\'' ∨ c = '"' ∨ isSafeChar c = true) := by
    unfold zshKeySpec
    simp only
    rw [escapeColon_plain (plain_not hp (by simp))]
    have hs := plain_safe hp
    have hne := hp.1
    generalize (if isList = true then (starred key).fst else key) = name at *
    simp only [List.append_assoc]
    cases h1 : (isList && !excludes.isEmpty) with
    | true =>
      obtain ⟨c, r, hq, hc⟩ := quote_start (S "(" ++ (joinWith [' '] excludes ++ S ")"))
      simp only [if_true, hq]
      exact ⟨c, _, rfl, hc⟩
    | false =>
      cases h2 : (isList && (starred key).2) with
      | true =>
        simp only [if_true, Bool.false_eq_true, if_false]
        exact ⟨'\'', _, rfl, Or.inl rfl⟩
      | false =>
        simp only [Bool.false_eq_true, if_false]
        cases name with
        | nil => exact absurd rfl hne
        | cons c r => exact ⟨c, _, rfl, Or.inr (Or.inr (hs c (by simp)))⟩
  obtain ⟨c, r, he, hc⟩ := hst
  rw [he, run_oper_word hc, ← he, key1]
  simp

/-- A line is read as one definition. -/
theorem reads_zshPush (isList : Bool) (cond : Option Str) (key : Str) (desc : Option Str) (excludes : List Str)
    (hp : Plain (if isList then BashCompleter.keyName key else key)) (arg argText : Str)
    (ha : ∀ w o, run ⟨.word, w, [], o⟩ arg = some ⟨.word, w ++ chs argText, [], o⟩) :
    ReadsAs (zshPushLine isList cond key desc excludes arg)
      [.push (BashCompleter.keyCondition isList cond key) [keyText isList key desc excludes argText]] := by
  rw [← (starred_eq key).1] at hp
  have hk : (if isList then (starred key).1 else quote key) = quote (if isList then (starred key).1 else key) := by
    cases isList with
    | false => rfl
    | true => simp only [if_true] at hp ⊢; exact (quote_safe _ hp.1 (plain_safe hp)).symm
  have hk2 : BashCompleter.keyCondition isList cond key = cond.map (fun _ => if isList then (starred key).1 else key) := by
    unfold BashCompleter.keyCondition; rw [(starred_eq key).1]
  have hw := fun o => run_keySpec isList key desc excludes hp o arg argText (fun w => ha w o)
  generalize keyText isList key desc excludes argText = W at *
  have hclose : ∀ o, run ⟨.word, chs W, [], o⟩ [')', '\n'] = some { out := o ++ [tok W, .op ')' true, .nl] } := by
    intro o; simp [run, step, operators, tok, atStart]
  rw [hk2]
  cases cond with
  | none =>
    refine ReadsAs.line (l := [lit "a+=", .op '(' true] ++ [W].map tok ++ [.op ')' true]) ?_ (by simp [lit, tok])
      (by simp) (stmt_push [W])
    have e : zshPushLine isList none key desc excludes arg ++ ['\n'] =
        S "a+=(" ++ ((zshKeySpec isList key desc excludes ++ arg) ++ [')', '\n']) := by
      simp [zshPushLine, S]
    have h1 : run {} (S "a+=(") = some ⟨.oper, [], [], [lit "a+=", .op '(' true]⟩ := by decide +kernel
    rw [e, run_append, h1, Option.bind_some, run_append, hw, Option.bind_some, hclose]
    simp
  | some f =>
    generalize hkk : (if isList = true then (starred key).fst else key) = k at *
    refine ReadsAs.line (l := [.word [.exp "c".toList], tok k, .op '&' false, .op '&' true] ++
      ([lit "a+=", .op '(' true] ++ [W].map tok ++ [.op ')' true])) ?_ (by simp [lit, tok])
      (by simp) (stmt_pushIf k [W])
    have e : zshPushLine isList (some f) key desc excludes arg ++ ['\n'] =
        S "$c " ++ ((joinQuoted [k] ++ [' ']) ++ (S "&& a+=(" ++
          ((zshKeySpec isList key desc excludes ++ arg) ++ [')', '\n']))) := by
      simp [zshPushLine, S, joinQuoted, joinWith, hk]
    have h1 : run {} (S "$c ") = some { out := [.word [.exp "c".toList]] } := by decide +kernel
    have h3 : ∀ o, run { out := o } (S "&& a+=(") =
        some ⟨.oper, [], [], o ++ [.op '&' false, .op '&' true, lit "a+=", .op '(' true]⟩ := by
      intro o; simp [S, run, step, atStart, operators, unsupported, lit]
    rw [e, run_append, h1, Option.bind_some, run_append, run_words_blank k [] _ .gap (Or.inl rfl), Option.bind_some,
      run_append, h3, Option.bind_some, run_append, hw, Option.bind_some, hclose]
    simp

theorem truthy_given (d : Option Str) : truthyText d = given d := by
  cases d with
  | none => rfl
  | some x => cases x <;> rfl

theorem readValue_starred (ex : List Str) (s : Str) :
    ZshCode.readValue ex ('*' :: s) = (ZshCode.readRest (ZshCode.readName s).2).map
      (fun x => ⟨ex, true, (ZshCode.readName s).1, x.1, x.2⟩) := rfl

/-- A definition of a key is read back. -/
theorem readDef_key (isList : Bool) (key : Str) (desc : Option Str) (excludes : List Str) (arg : Str) (action : Option Str)
    (h : KeyFits isList key desc excludes) (hr : ZshCode.readAction arg = some action)
    (hh : arg = [] ∨ arg.head? = some ':') :
    ZshCode.readDef (keyText isList key desc excludes arg) = some (keyDef isList key desc excludes action) := by
  obtain ⟨hp, hd, hex⟩ := h
  rw [← (starred_eq key).1] at hp
  have hn : ∀ c ∈ (if isList then (starred key).1 else key), c ≠ '\\' ∧ c ≠ '[' ∧ c ≠ ':' := by
    intro c hc
    refine ⟨?_, ?_, ?_⟩ <;> rintro rfl <;> exact plain_not hp (by simp) hc
  -- the description and the action
  have hrest : ∀ rest : Str, rest = (match truthyText desc with
      | some d => S "[" ++ escapeSquareBrackets d ++ S "]"
      | none => []) ++ arg → ZshCode.readRest rest = some (given desc, action) ∧
        (rest = [] ∨ rest.head? = some '[' ∨ rest.head? = some ':') := by
    rintro rest rfl
    rw [truthy_given]
    cases hg : given desc with
    | none =>
      simp only [List.nil_append]
      refine ⟨?_, by rcases hh with h | h <;> simp [h]⟩
      rcases hh with rfl | hh
      · simp only [ZshCode.readRest, hr]; rfl
      · match arg, hh with
        | c :: r, hh =>
          simp at hh; subst hh
          have e : ZshCode.readRest (':' :: r) = (ZshCode.readAction (':' :: r)).map (fun a => (none, a)) := rfl
          rw [e, hr]; rfl
    | some d =>
      have hd' : '\\' ∉ d := by
        refine hd d ?_
        cases desc with
        | none => cases hg
        | some x => cases x <;> simp_all [given]
      refine ⟨?_, Or.inr (Or.inl rfl)⟩
      have e : S "[" ++ escapeSquareBrackets d ++ S "]" ++ arg = '[' :: (escapeSquareBrackets d ++ ']' :: arg) := by simp [S]
      simp only [e, ZshCode.readRest]
      rw [readExplanation_escaped hd']
      simp [hr]
  generalize hR : ((match truthyText desc with
      | some d => S "[" ++ escapeSquareBrackets d ++ S "]"
      | none => []) ++ arg) = R
  obtain ⟨hR1, hR2⟩ := hrest R hR.symm
  have hname := readName_plain hn hR2
  have hvalue : ∀ ex, ZshCode.readValue ex ((if isList && (starred key).2 then S "*" else []) ++
      (if isList then (starred key).1 else key) ++ R) =
      some ⟨ex, isList && (starred key).2, (if isList then (starred key).1 else key), given desc, action⟩ := by
    intro ex
    cases h2 : (isList && (starred key).2) with
    | true =>
      simp only [if_true]
      rw [show S "*" ++ (if isList then (starred key).1 else key) ++ R =
        '*' :: ((if isList then (starred key).1 else key) ++ R) by simp [S], readValue_starred, hname]
      simp [hR1]
    | false =>
      simp only [Bool.false_eq_true, if_false, List.nil_append]
      rw [readValue_plain, hname]
      · simp [hR1]
      · have h3 := plain_not hp (c := '*') (by simp)
        have h4 := hp.1
        revert h3 h4
        cases (if isList then (starred key).1 else key) with
        | nil => simp
        | cons c r => intro h3 _; simp at h3 ⊢; exact fun h => h3.1 h.symm
  have hdef : ∀ ex, (isList = false → ex = []) → (⟨ex, isList && (starred key).2, (if isList then (starred key).1 else key), given desc, action⟩ : ZshCode.Def) =
      if isList then ⟨ex, key.head? == some '*', BashCompleter.keyName key, given desc, action⟩
      else ⟨[], false, key, given desc, action⟩ := by
    intro ex hex
    have := starred_eq key
    cases isList with
    | false => simp [hex rfl]
    | true =>
      have hb : (starred key).2 = (key.head? == some '*') := by
        rw [Bool.eq_iff_iff, this.2]; simp
      simp [this.1, hb]
  unfold keyText
  rw [List.append_assoc, hR, List.append_assoc, List.append_assoc, ← List.append_assoc (if isList && (starred key).2 then S "*" else [])]
  cases h1 : (isList && !excludes.isEmpty) with
  | true =>
    simp only [if_true]
    rw [show (S "(" ++ joinWith [' '] excludes ++ S ")" ++ ((if isList && (starred key).2 then S "*" else []) ++
      (if isList then (starred key).1 else key) ++ R)) = '(' :: (joinWith [' '] excludes ++ ')' ::
      ((if isList && (starred key).2 then S "*" else []) ++ (if isList then (starred key).1 else key) ++ R)) by simp [S]]
    simp only [ZshCode.readDef]
    rw [readList_join _ _ hex, Option.bind_some, hvalue]
    simp only [keyDef]
    rw [hdef]
    intro h; simp [h] at h1
  | false =>
    simp only [Bool.false_eq_true, if_false, List.nil_append]
    have : ∀ t : Str, t.head? ≠ some '(' → ZshCode.readDef t = ZshCode.readValue [] t := by
      intro t ht
      rw [ZshCode.readDef.eq_def]
      split
      · simp at ht
      · rfl
    rw [this, hvalue]
    · have : isList = true → excludes = [] := by
        intro h; simpa [h] using h1
      simp only [keyDef]
      rw [hdef [] (fun _ => rfl)]
      cases isList with
      | false => rfl
      | true => simp [this rfl]
    · cases h2 : (isList && (starred key).2) with
      | true => simp [S]
      | false =>
        simp only [Bool.false_eq_true, if_false, List.nil_append]
        have h3 := plain_not hp (c := '(') (by simp)
        have h4 := hp.1
        revert h3 h4
        cases (if isList then (starred key).1 else key) with
        | nil => simp
        | cons c r => intro h3 _; simp at h3 ⊢; exact fun h => h3.1 h.symm

theorem keyText_keeps (isList : Bool) (key : Str) (desc : Option Str) (excludes : List Str) (arg : Str)
    (h : KeyFits isList key desc excludes) : ZshCode.keeps (keyText isList key desc excludes arg) = true := by
  obtain ⟨hp, _, _⟩ := h
  rw [← (starred_eq key).1] at hp
  unfold keyText
  cases h1 : (isList && !excludes.isEmpty) with
  | true => exact keeps_cons (by decide)
  | false =>
    cases h2 : (isList && (starred key).2) with
    | true => exact keeps_cons (by decide)
    | false =>
      simp only [Bool.false_eq_true, if_false, List.nil_append]
      have h3 := plain_not hp (c := '=') (by simp)
      have h4 := hp.1
      revert h3 h4
      cases (if isList then (starred key).1 else key) with
      | nil => simp
      | cons c r => intro h3 _; exact keeps_cons (fun h => h3 (by simp [h]))

end CC
