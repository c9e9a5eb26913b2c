import Verif.Lemmas.HelpConverter
import Verif.Props.HelpLayout
import Verif.Props.Loading
/-!
# C76: the definition written from a help text
-/

namespace CC
open YamlText HelpYaml HelpText

theorem reads_line {D D' : Doc} {l : Str} {x : YamlText.Line} (hb : ∀ c ∈ l, isBreak c = false)
    (hl : YamlText.readLine l = some x) (hs : D.step x = some D') : ReadsDoc D (l ++ ['\n']) D' := by
  intro rest
  rw [List.append_assoc, List.singleton_append, linesOf_append, linesOf_line hb, runLines_append,
    runLines_one hl hs]
  rfl

theorem reads_comment (D : Doc) {t : Str} (hb : ∀ c ∈ t, isBreak c = false) :
    ReadsDoc D ('#' :: ' ' :: t ++ ['\n']) D := by
  refine reads_line (x := .skip) (l := '#' :: ' ' :: t) ?_ ?_ rfl
  · intro c hc
    rcases List.mem_cons.1 hc with rfl | hc
    · decide
    · rcases List.mem_cons.1 hc with rfl | hc
      · decide
      · exact hb c hc
  · unfold YamlText.readLine
    rw [if_neg (by intro e; have := (List.cons.inj e).1; revert this; decide)]
    rfl

theorem readQuoted_raw {s : Str} (h : ∀ c ∈ s, c ≠ '"' ∧ c ≠ '\\') (t : Str) :
    readQuoted (s ++ '"' :: t) = some (s, t) := by
  induction s with
  | nil => rfl
  | cons c s ih =>
    have hc := h c (by simp)
    have ih := ih (fun x hx => h x (by simp [hx]))
    rw [List.cons_append, readQuoted.eq_def]
    split <;> simp_all [consRead]

theorem reads_quoted {D : Doc} {k v : Str} (hk : KeyName k) (hv : QuotableName v) :
    ReadsDoc D (k ++ S ": \"" ++ v ++ S "\"" ++ ['\n']) ⟨setKey D.close (.str k) (.str v), none⟩ := by
  obtain ⟨c, r, he, h1, h2, h3⟩ := keyName_cons hk
  have hsp := span_all (t := S ": \"" ++ v ++ S "\"") hk.2 (by intro c r e; cases e; rfl)
  refine reads_line (x := .entry 0 false k (some (.str v))) ?_ ?_ rfl
  · intro x hx
    simp only [List.mem_append] at hx
    rcases hx with ((hx | hx) | hx) | hx
    · exact ascii_noBreak (s := k) (fun c hc => isKeyChar_plain (hk.2 c hc)) x hx
    · revert x; decide
    · exact (hv x hx).1.2
    · revert x; decide
  · have hent : readEntry 0 false (k ++ (S ": \"" ++ v ++ S "\"")) = some (.entry 0 false k (some (.str v))) := by
      unfold readEntry
      rw [hsp.1, hsp.2, if_neg hk.1]
      have hq := readQuoted_raw (s := v) (fun c hc => (hv c hc).2) []
      have e : S ": \"" ++ v ++ S "\"" = ':' :: ' ' :: '"' :: (v ++ ['"']) := by simp [S]
      rw [e]
      simp only [readValue, List.length_cons, readFlow, hq, Option.map_some]
    have e : k ++ S ": \"" ++ v ++ S "\"" = k ++ (S ": \"" ++ v ++ S "\"") := by simp
    rw [e]
    have hskip : skipSpaces (k ++ (S ": \"" ++ v ++ S "\"")) = k ++ (S ": \"" ++ v ++ S "\"") :=
      skipSpaces_self (by rw [he]; intro r' e'; exact h1 (List.cons.inj e').1)
    have htw : (k ++ (S ": \"" ++ v ++ S "\"")).takeWhile (· == ' ') = [] := by rw [he]; simp [h1]
    unfold YamlText.readLine
    rw [if_neg, hskip, htw]
    · rw [he] at hent ⊢
      simp only [List.cons_append] at hent ⊢
      split
      · simp_all
      · simp_all
      · simp_all
      · exact hent
    · rw [he]; intro e'; exact h2 (List.cons.inj e').1

/-- Only characters that YAML allows. -/
def PrintableText (s : Str) : Prop := ∀ c ∈ s, isPrintable c = true

theorem PrintableText.append {a b : Str} (ha : PrintableText a) (hb : PrintableText b) : PrintableText (a ++ b) := by
  intro c hc
  rcases List.mem_append.1 hc with h | h
  · exact ha c h
  · exact hb c h

theorem printable_clean {s : Str} (h : CleanText s) : PrintableText s :=
  List.all_eq_true.1 (clean_printable h)

theorem unparsed_chars {l t : Str} (hl : ∀ c ∈ l, CommentChar c) (ht : t = [] ∨ t = ['\n']) :
    ∀ c ∈ rstrip (l ++ t), CommentChar c := by
  have h1 : rstrip (l ++ t) = rstrip l := by
    rcases ht with rfl | rfl
    · simp
    · unfold rstrip
      rw [List.reverse_append, List.reverse_singleton, List.singleton_append, lstrip, if_pos (by decide)]
  rw [h1]
  intro c hc
  exact hl c (mem_rstrip hc)

theorem reads_output {items : List HelpItem} (h : ∀ i ∈ items, Writable i) :
    ∀ {D : Doc} {o : Open} {k : Str} {l : List Val}, D.seq = some o → Sec o k l →
    ∃ ws vs o', itemsOutput items = .ok ws ∧ ReadsDoc D ((ws.map (· ++ ['\n'])).flatten) { D with seq := some o' } ∧
      Sec o' k (l ++ vs) ∧ SaysAll items vs ∧ PrintableText ((ws.map (· ++ ['\n'])).flatten) := by
  induction items with
  | nil =>
    intro D o k l hD ho
    refine ⟨[], [], o, rfl, ?_, by simpa using ho, .nil, by intro c hc; cases hc⟩
    have : { D with seq := some o } = D := by rw [← hD]
    rw [this]
    exact ReadsDoc.nil D
  | cons i items ih =>
    intro D o k l hD ho
    have hi := h i (by simp)
    cases hi with
    | unparsed s t hs ht =>
      obtain ⟨ws, vs, o', h1, h2, h3, h4, h5⟩ := ih (fun x hx => h x (by simp [hx])) hD ho
      have hc := unparsed_chars hs ht
      refine ⟨(S "# " ++ rstrip (s ++ t)) :: ws, vs, o', ?_, ?_, h3, .unparsed _ h4, ?_⟩
      · simp only [itemsOutput, itemOutput, bind, Except.bind, h1]
        rfl
      · rw [List.map_cons, List.flatten_cons]
        exact (reads_comment D (fun c hcc => (hc c hcc).2)).trans h2
      · rw [List.map_cons, List.flatten_cons]
        refine .append (.append (.append ?_ (fun c hcc => (hc c hcc).1)) ?_) h5
        · intro c hc; revert c; decide
        · intro c hc; revert c; decide
    | options os desc hos hd =>
      have hok := helpItem_ok hos hd
      obtain ⟨o1, h1, h2⟩ := reads_item hok.1 hok.2 hD ho
      obtain ⟨ws, vs, o', g1, g2, g3, g4, g5⟩ := ih (fun x hx => h x (by simp [hx]))
        (D := { D with seq := some o1 }) rfl h2
      have htext := item_text hok.1
      refine ⟨joinWith ['\n'] (itemLines (helpItem os desc).1 (helpItem os desc).2) :: [] :: ws, _ :: vs, o', ?_, ?_, ?_,
        .options (getKey_says os desc) g4, ?_⟩
      · simp only [itemsOutput, itemOutput, bind, Except.bind, g1, option_dict_text]
        rw [← htext]
        rfl
      · simp only [List.map_cons, List.flatten_cons, List.nil_append]
        exact h1.trans ((ReadsDoc.blank _).trans g2)
      · simpa using g3
      · simp only [List.map_cons, List.flatten_cons, List.nil_append]
        refine .append (.append ?_ ?_) (.append ?_ g5)
        · exact printable_clean (clean_join clean_newline (fun w hw => clean_ascii (itemLines_ascii hok.1 w hw)))
        · intro c hc; revert c; decide
        · intro c hc; revert c; decide

theorem join_newline (w : Str) (ws : List Str) :
    joinWith ['\n'] (w :: ws) ++ ['\n'] = w ++ ['\n'] ++ (ws.map (· ++ ['\n'])).flatten := by
  induction ws generalizing w with
  | nil => simp [joinWith]
  | cons v vs ih =>
    simp only [joinWith, List.map_cons, List.flatten_cons, List.append_assoc] at ih ⊢
    rw [ih]

theorem help_text {prog : Str} {items : List HelpItem} (hp : QuotableName prog) (hi : ∀ i ∈ items, Writable i) :
    ∃ ws vs, itemsOutput items = .ok ws ∧ SaysAll items vs ∧
      YamlText.read (joinWith ['\n'] (helpHeader prog :: ws)) = some [document prog vs] := by
  have hk1 : KeyName (S "prog") := by unfold KeyName; decide
  have hk2 : KeyName (S "help") := by unfold KeyName; decide
  have hk3 : KeyName (S "options") := by unfold KeyName; decide
  have r1 := reads_quoted (D := {}) hk1 hp
  have hdesc : QuotableName (S "<Program description here>") := by unfold QuotableName CommentChar; decide
  have r2 := reads_quoted (D := ⟨[(.str (S "prog"), .str prog)], none⟩) hk2 hdesc
  have r3 : ReadsDoc ⟨[(.str (S "prog"), .str prog), (.str (S "help"), .str (S "<Program description here>"))], none⟩
      (S "options" ++ [':'] ++ ['\n'])
      ⟨[(.str (S "prog"), .str prog), (.str (S "help"), .str (S "<Program description here>"))], some ⟨S "options", [], none⟩⟩ :=
    reads_line (by decide) (readLine_open hk3) rfl
  obtain ⟨ws, vs, o', h1, h2, h3, h4, h5⟩ := reads_output hi
    (D := ⟨[(.str (S "prog"), .str prog), (.str (S "help"), .str (S "<Program description here>"))], some ⟨S "options", [], none⟩⟩)
    rfl (show Sec ⟨S "options", [], none⟩ (S "options") [] from ⟨rfl, .inl ⟨rfl, rfl, rfl⟩⟩)
  have hall := ((r1.trans r2).trans r3).trans h2
  have htext : joinWith ['\n'] (helpHeader prog :: ws) ++ List.replicate 1 '\n' =
      (((S "prog" ++ S ": \"" ++ prog ++ S "\"" ++ ['\n']) ++
        (S "help" ++ S ": \"" ++ S "<Program description here>" ++ S "\"" ++ ['\n'])) ++
        (S "options" ++ [':'] ++ ['\n'])) ++ (ws.map (· ++ ['\n'])).flatten := by
    show joinWith ['\n'] (helpHeader prog :: ws) ++ ['\n'] = _
    rw [join_newline]
    simp [helpHeader, S]
  refine ⟨ws, vs, h1, h4, ?_⟩
  have hrun := hall []
  rw [List.append_nil, ← htext] at hrun
  have hrun2 := runLines_newlines (hrun.trans (runLines_blank _))
  have hprint : PrintableText (joinWith ['\n'] (helpHeader prog :: ws) ++ List.replicate 1 '\n') := by
    rw [htext]
    refine .append (.append (.append (.append (.append (.append ?_ (fun c hc => (hp c hc).1.1)) ?_) ?_) ?_) ?_) h5
    all_goals (intro c hc; revert c; decide)
  unfold YamlText.read
  rw [if_pos (List.all_eq_true.2 (fun c hc => hprint c (List.mem_append_left _ hc)))]
  have := readLines_run hrun2 []
  rw [List.append_nil] at this
  rw [this]
  simp only [readLines, Option.some.injEq, List.cons.injEq, and_true]
  unfold Doc.value Doc.close document
  simp only
  have hval : o'.value = if vs = [] then .none else .list vs := by
    rw [List.nil_append] at h3
    by_cases hv : vs = []
    · rw [if_pos hv]
      obtain ⟨_, ⟨g1, g2, _⟩ | ⟨es, g1, g2⟩⟩ := h3
      · unfold Open.value; rw [g1, g2]
      · rw [hv] at g2
        have := congrArg List.length g2
        simp at this
    · rw [if_neg hv]
      exact h3.value hv
  rw [h3.1, hval]
  rfl

/-! ## The property -/

/-- **C76.** The YAML text that is written for a help text can be read; it holds one document with the
name of the program and, for every item of the help text that has options, in the same order, one
option that says what the item says. What is missing: the name must have no quotes or backslashes,
and lines without options no control characters, unusual line separators; the text of options no
characters from U+10000 on (see below). -/
theorem C76_definition_partial (content prog : Str) (items : List HelpItem) (hp : programName content = .ok prog)
    (hi : parseHelp content = .ok items) (hq : QuotableName prog) (hw : ∀ i ∈ items, Writable i) :
    ∃ t vs, helpToYaml content = .ok t ∧ YamlText.read t = some [document prog vs] ∧ SaysAll items vs := by
  obtain ⟨ws, vs, h1, h2, h3⟩ := help_text hq hw
  refine ⟨_, vs, ?_, h3, h2⟩
  unfold helpToYaml
  simp only [hp, hi, h1, bind, Except.bind]

/-! ## The name of the program -/

/-- A newline, a tab or a blank. -/
def UsageBlank (c : Char) : Prop := c = '\n' ∨ c = '\t' ∨ c = ' '

theorem isUsageSpace_iff (c : Char) : isUsageSpace c = true ↔ UsageBlank c := by
  simp [isUsageSpace, UsageBlank, or_assoc]

theorem isUsageSpace_false (c : Char) : isUsageSpace c = false ↔ ¬ UsageBlank c := by
  rw [← isUsageSpace_iff]; simp

theorem span_stop {p : Char → Bool} {a r : Str} (ha : ∀ c ∈ a, p c = true) (hr : ∀ c, r.head? = some c → p c = false) :
    (a ++ r).takeWhile p = a ∧ (a ++ r).dropWhile p = r := by
  induction a with
  | nil =>
    cases r with
    | nil => exact ⟨rfl, rfl⟩
    | cons x xs => simp [List.takeWhile, List.dropWhile, hr x rfl]
  | cons x xs ih =>
    have := ih (fun c hc => ha c (by simp [hc]))
    simp [List.takeWhile, List.dropWhile, ha x (by simp), this]

theorem afterUsage_written {u : Str} (hu : lower u = S "usage:") (r : Str) : afterUsage (u ++ r) = some r := by
  have hlen : u.length = 6 := by
    have := congrArg List.length hu
    rw [lower, List.length_map] at this
    exact this
  match u, hlen with
  | [a, b, c, d, e, f], _ =>
    simp only [lower, List.map_cons, List.map_nil, S] at hu
    have h : asciiLower a = 'u' ∧ asciiLower b = 's' ∧ asciiLower c = 'a' ∧ asciiLower d = 'g' ∧ asciiLower e = 'e' ∧
        asciiLower f = ':' := by simpa using hu
    obtain ⟨h1, h2, h3, h4, h5, h6⟩ := h
    have hf : f = ':' := by
      unfold asciiLower at h6
      split at h6
      · rename_i hc
        exfalso
        have key : ∀ n, n < 91 → 65 ≤ n → Char.ofNat (n + 32) ≠ ':' := by decide
        exact key f.toNat (by omega) hc.1 h6
      · exact h6
    subst hf
    simp [afterUsage, h1, h2, h3, h4, h5]

/-- **C76.** The name is the word after `usage:`, whatever the case of these letters. -/
theorem C76_usage_name (u b p r : Str) (hu : lower u = S "usage:") (hb : ∀ c ∈ b, UsageBlank c) (hb0 : b ≠ [])
    (hp : ∀ c ∈ p, ¬ UsageBlank c) (hp0 : p ≠ []) (hr : ∀ c, r.head? = some c → UsageBlank c) :
    programName (u ++ b ++ p ++ r) = .ok p := by
  have e : u ++ b ++ p ++ r = u ++ (b ++ (p ++ r)) := by simp
  have h1 := span_stop (p := isUsageSpace) (a := b) (r := p ++ r) (fun c hc => (isUsageSpace_iff c).2 (hb c hc)) (by
    intro c hc
    cases p with
    | nil => exact absurd rfl hp0
    | cons x xs =>
      simp only [List.cons_append, List.head?_cons, Option.some.injEq] at hc
      subst hc
      exact (isUsageSpace_false _).2 (hp _ (by simp)))
  have h2 := span_stop (p := fun c => !isUsageSpace c) (a := p) (r := r)
    (fun c hc => by rw [(isUsageSpace_false c).2 (hp c hc)]; rfl)
    (fun c hc => by rw [(isUsageSpace_iff c).2 (hr c hc)]; rfl)
  unfold programName usageName
  rw [e, afterUsage_written hu]
  simp only
  rw [h1.1, h1.2, h2.1, if_neg hb0, if_neg hp0]

theorem afterUsage_some {s r : Str} (h : afterUsage s = some r) : ∃ u, s = u ++ r ∧ u.length = 6 := by
  unfold afterUsage at h
  split at h
  · split at h
    · injection h with h
      subst h
      rename_i u s' a g e r _
      exact ⟨[u, s', a, g, e, ':'], rfl, rfl⟩
    · cases h
  · cases h

/-- **C76.** Without `usage:` at the beginning the name is the first word. -/
theorem C76_first_word (b p r : Str) (hb : ∀ c ∈ b, pyIsSpace c = true) (hp : ∀ c ∈ p, pyIsSpace c = false)
    (hp0 : p ≠ []) (hr : ∀ c, r.head? = some c → pyIsSpace c = true)
    (hu : ∀ u v, b ++ p ++ r = u ++ v → u.length = 6 → u.getLast? ≠ some ':') :
    programName (b ++ p ++ r) = .ok p := by
  have hus : usageName (b ++ p ++ r) = none := by
    unfold usageName
    cases h : afterUsage (b ++ p ++ r) with
    | none => rfl
    | some v =>
      exfalso
      unfold afterUsage at h
      split at h
      · rename_i u s' a g e r' he
        exact hu [u, s', a, g, e, ':'] r' he rfl rfl
      · cases h
  have hls : lstrip (b ++ p ++ r) = p ++ r := by
    clear hu hus
    induction b with
    | nil =>
      cases p with
      | nil => exact absurd rfl hp0
      | cons x xs =>
        rw [List.nil_append, List.cons_append, lstrip, hp x (by simp)]
        rfl
    | cons x xs ih =>
      rw [List.cons_append, List.cons_append, lstrip, hb x (by simp), if_pos rfl]
      exact ih (fun c hc => hb c (by simp [hc]))
  have h2 := span_stop (p := fun c => !pyIsSpace c) (a := p) (r := r)
    (fun c hc => by rw [hp c hc]; rfl) (fun c hc => by rw [hr c hc]; rfl)
  unfold programName
  rw [hus]
  simp only
  rw [hls, h2.1, if_neg hp0]

theorem usageName_chars {s w : Str} (h : usageName s = some w) : (∀ c ∈ w, c ∈ s ∧ c ≠ '\n') ∧ w ≠ [] := by
  unfold usageName at h
  cases hu : afterUsage s with
  | none => rw [hu] at h; cases h
  | some r =>
    rw [hu] at h
    simp only at h
    split at h
    · cases h
    · split at h
      · cases h
      · rename_i hne
        injection h with h
        subst h
        obtain ⟨u, hs, _⟩ := afterUsage_some hu
        refine ⟨fun c hc => ⟨?_, ?_⟩, hne⟩
        · rw [hs]
          exact List.mem_append_right _ ((List.dropWhile_suffix _).subset ((List.takeWhile_prefix _).subset hc))
        · have := mem_takeWhile_true hc
          rintro rfl
          simp [isUsageSpace] at this

/-- The name consists of characters of the text and has no newline. -/
theorem programName_chars {s w : Str} (h : programName s = .ok w) : (∀ c ∈ w, c ∈ s ∧ c ≠ '\n') ∧ w ≠ [] := by
  unfold programName at h
  cases hu : usageName s with
  | some v =>
    rw [hu] at h
    injection h with h
    subst h
    exact usageName_chars hu
  | none =>
    rw [hu] at h
    simp only at h
    split at h
    · cases h
    · rename_i hne
      injection h with h
      subst h
      refine ⟨fun c hc => ⟨mem_of_lstrip ((List.takeWhile_prefix _).subset hc), ?_⟩, hne⟩
      have := mem_takeWhile_true hc
      rintro rfl
      revert this
      decide

/-- **C76.** A name is found in every text that has a character other than white space, and only there. -/
theorem C76_name_total (s : Str) : (∃ p, programName s = .ok p) ↔ ∃ c ∈ s, pyIsSpace c = false := by
  constructor
  · rintro ⟨p, h⟩
    unfold programName at h
    cases hu : usageName s with
    | some v =>
      unfold usageName at hu
      cases ha : afterUsage s with
      | none => rw [ha] at hu; cases hu
      | some r =>
        unfold afterUsage at ha
        split at ha
        · exact ⟨':', by simp, by decide⟩
        · cases ha
    | none =>
      rw [hu] at h
      simp only at h
      split at h
      · cases h
      · rename_i hne
        cases hw : (lstrip s).takeWhile (fun c => !pyIsSpace c) with
        | nil => exact absurd hw hne
        | cons c cs =>
          have hc : c ∈ (lstrip s).takeWhile (fun c => !pyIsSpace c) := by rw [hw]; simp
          refine ⟨c, mem_of_lstrip ((List.takeWhile_prefix _).subset hc), ?_⟩
          simpa using mem_takeWhile_true hc
  · rintro ⟨c, hc, hs⟩
    unfold programName
    cases hu : usageName s with
    | some v => exact ⟨v, rfl⟩
    | none =>
      simp only
      rw [if_neg]
      · exact ⟨_, rfl⟩
      · obtain ⟨a, h1, h2, h3⟩ := lstrip_trimmed s
        rw [h1] at hc
        rcases List.mem_append.1 hc with hc | hc
        · rw [h2 c hc] at hs; cases hs
        · cases hl : lstrip s with
          | nil => rw [hl] at hc; cases hc
          | cons x xs =>
            rw [hl] at h3
            have := h3 x rfl
            simp [List.takeWhile, this]

/-! ## Texts with usual characters -/

theorem written_option_chars {cl : Bool} {o : HelpOption} {t : Str} (h : WrittenOption cl o t) :
    (∀ c ∈ o.option, c ∈ t) ∧ ∀ m, o.metavar = some m → ∀ c ∈ m, c ∈ t := by
  cases h <;> refine ⟨?_, ?_⟩ <;> simp_all
  all_goals (intro c hc; simp [hc])

theorem written_options_chars {os : List HelpOption} {t : Str} (h : WrittenOptions os t) :
    ∀ o ∈ os, (∀ c ∈ o.option, c ∈ t) ∧ ∀ m, o.metavar = some m → ∀ c ∈ m, c ∈ t := by
  induction h with
  | last h =>
    intro o ho
    rw [List.mem_singleton.1 ho]
    exact written_option_chars h
  | dangling h _ _ =>
    intro o ho
    rw [List.mem_singleton.1 ho]
    have := written_option_chars h
    exact ⟨fun c hc => by simp [this.1 c hc], fun m hm c hc => by simp [this.2 m hm c hc]⟩
  | cons h _ _ _ ih =>
    intro o ho
    rcases List.mem_cons.1 ho with rfl | ho
    · have := written_option_chars h
      exact ⟨fun c hc => by simp [this.1 c hc], fun m hm c hc => by simp [this.2 m hm c hc]⟩
    · have := ih o ho
      exact ⟨fun c hc => by simp [this.1 c hc], fun m hm c hc => by simp [this.2 m hm c hc]⟩

theorem written_description_chars {d t : Str} (h : WrittenDescription d t) : ∀ c ∈ d, c ∈ t := by
  induction h with
  | blanks _ => simp
  | line _ _ _ ih =>
    intro c hc
    rcases List.mem_append.1 hc with h | h
    · simp [h]
    · simp [ih c h]

/-- A character that is usual in a help text: a newline or one that may stand in a YAML comment, and
below U+10000. -/
def UsualChar (c : Char) : Prop := (c = '\n' ∨ CommentChar c) ∧ c.toNat < 65536

theorem writable_line {l : Str} (hl : HelpText.Line l) (h : ∀ c ∈ l, UsualChar c) : Writable (.unparsed l) := by
  have key : ∀ {k : Str}, '\n' ∉ k → (∀ c ∈ k, UsualChar c) → ∀ c ∈ k, CommentChar c := by
    intro k hn hk c hc
    rcases (hk c hc).1 with rfl | h
    · exact absurd hc hn
    · exact h
  cases hl with
  | full hn => exact .unparsed _ _ (key hn (fun c hc => h c (List.mem_append_left _ hc))) (.inr rfl)
  | «open» hn =>
    have := Writable.unparsed l [] (key hn h) (.inl rfl)
    rw [List.append_nil] at this
    exact this

theorem writable_of_usual {items : List HelpItem} {s : Str} (h : Covers items s) (hs : ∀ c ∈ s, UsualChar c) :
    ∀ i ∈ items, Writable i := by
  induction h with
  | nil => intro i hi; cases hi
  | cons hi _ ih =>
    intro j hj
    rcases List.mem_cons.1 hj with rfl | hj
    · have ht := fun c hc => hs c (List.mem_append_left _ hc)
      cases hi with
      | unparsed hl hne => exact writable_line hl ht
      | bare ho =>
        have := written_options_chars ho
        refine .options _ _ (fun o hoo => ⟨fun c hc => (ht c ((this o hoo).1 c hc)).2,
          fun m hm c hc => (ht c ((this o hoo).2 m hm c hc)).2⟩) (by intro t e; cases e)
      | described ho hd =>
        have := written_options_chars ho
        have hd := written_description_chars hd
        refine .options _ _ (fun o hoo => ⟨fun c hc => (ht c (List.mem_append_left _ ((this o hoo).1 c hc))).2,
          fun m hm c hc => (ht c (List.mem_append_left _ ((this o hoo).2 m hm c hc))).2⟩) ?_
        intro t e c hc
        cases e
        exact (ht c (List.mem_append_right _ (hd c hc))).2
    · exact ih (fun c hc => hs c (List.mem_append_right _ hc)) j hj

/-- **C76.** A help text of usual characters that ends in a newline and in which every opening bracket
or quote is closed later gives a definition that can be read, if the name has no quotes or
backslashes. -/
theorem C76_text_partial (content prog : Str) (hc : ∀ c ∈ content, UsualChar c) (hp : programName content = .ok prog)
    (hq : '"' ∉ prog ∧ '\\' ∉ prog) (hn : ∃ p, content = p ++ ['\n'])
    (hb : ∀ l o q r, Pair o q → content = l ++ o :: r → q ∈ r) :
    ∃ items t vs, helpToYaml content = .ok t ∧ YamlText.read t = some [document prog vs] ∧
      Covers items content ∧ SaysAll items vs := by
  obtain ⟨items, h1, h2⟩ := C54_total_partial content hn hb
  have hname := programName_chars hp
  have hqn : QuotableName prog := by
    intro c hcc
    refine ⟨?_, fun e => hq.1 (e ▸ hcc), fun e => hq.2 (e ▸ hcc)⟩
    rcases (hc c (hname.1 c hcc).1).1 with e | h
    · exact absurd e (hname.1 c hcc).2
    · exact h
  obtain ⟨t, vs, g1, g2, g3⟩ := C76_definition_partial content prog items hp h1 hqn (writable_of_usual h2 hc)
  exact ⟨items, t, vs, g1, g2, h2, g3⟩

/-- **C76.** In the usual layout the definition has one option for every entry, in the order of the
entries, with the strings of the entry, its metavar and its description. -/
theorem C76_layout_partial (ps : List Part) (prog : Str) (h : Usual false ps) (hc : ∀ c ∈ text ps, UsualChar c)
    (hp : programName (text ps) = .ok prog) (hq : '"' ∉ prog ∧ '\\' ∉ prog) :
    ∃ t vs, helpToYaml (text ps) = .ok t ∧ YamlText.read t = some [document prog vs] ∧
      SaysAll (ps.map Part.meaning) vs := by
  have h1 := C62_layout ps h
  have h2 := C54_covers _ _ h1
  have hname := programName_chars hp
  have hqn : QuotableName prog := by
    intro c hcc
    refine ⟨?_, fun e => hq.1 (e ▸ hcc), fun e => hq.2 (e ▸ hcc)⟩
    rcases (hc c (hname.1 c hcc).1).1 with e | h
    · exact absurd e (hname.1 c hcc).2
    · exact h
  exact C76_definition_partial _ prog _ hp h1 hqn (writable_of_usual h2 hc)

theorem simple_kind (env : ValEnv) {k : Str} (h : k ∈ [S "file", S "integer", S "pid", S "user", S "group", S "command",
    S "signal", S "directory", S "none"]) : _root_.CC.Doc.Simple env k [] := by
  simp only [List.mem_cons, List.not_mem_nil, or_false] at h
  rcases h with rfl | rfl | rfl | rfl | rfl | rfl | rfl | rfl | rfl
  · exact .filedir _ true false [] [] (by simp) (.inl ⟨rfl, rfl⟩) (by simp [Doc.Entries])
      (by intro l h; cases h) (by intro l h; cases h)
  · exact .number _ _ [] [] (.inl ⟨rfl, rfl⟩) (.inl ⟨rfl, rfl⟩) (by simp [Doc.Entries])
      (by intro a b h; cases h) (by intro l h; cases h)
  · exact .void _ (by decide)
  · exact .void _ (by decide)
  · exact .void _ (by decide)
  · exact .command [] [] (.inl ⟨rfl, rfl⟩) (by simp [Doc.Entries]) (by intro h; exact absurd rfl h)
  · exact .void _ (by decide)
  · exact .filedir _ false false [] [] (by simp) (.inl ⟨rfl, rfl⟩) (by simp [Doc.Entries])
      (by intro l h; cases h) (by intro l h; cases h)
  · exact .void _ (by decide)

/-- The completers that are written are documented ones, but for `cmd`. -/
theorem C76_completers (env : ValEnv) (n : Str) (c : List Val) (h : Suggests n c) :
    c = [.str (S "cmd")] ∨ ∃ k args, c = .str k :: args ∧ _root_.CC.Doc.Simple env k args := by
  cases h with
  | name h =>
    rename_i k
    obtain ⟨ws, h, _⟩ := h
    have key : ∀ e ∈ argumentNames, e.1 = S "cmd" ∨ e.1 ∈ [S "file", S "integer", S "pid", S "user", S "group",
        S "command", S "signal", S "directory", S "none"] := by decide
    rcases key _ h with e | e
    · left; exact congrArg (fun k => [Val.str k]) e
    · exact .inr ⟨k, [], rfl, simple_kind env e⟩
  | suffix _ h =>
    obtain ⟨ws, w, p, h, _⟩ := h
    have key : ∀ e ∈ argumentEnds, e.1 ∈ [S "file", S "integer", S "pid", S "user", S "group",
        S "command", S "signal", S "directory", S "none"] := by decide
    exact .inr ⟨_, [], rfl, simple_kind env (key _ h)⟩
  | choices =>
    refine .inr ⟨_, _, rfl, .choices _ ?_⟩
    intro v hv
    obtain ⟨s, _, rfl⟩ := List.mem_map.1 hv
    exact .inl ⟨s, rfl⟩
  | none => exact .inr ⟨_, _, rfl, simple_kind env (by simp)⟩

/-! ## Cases -/

theorem ok_of_toOption {α} {r : Except Err α} {a : α} (h : r.toOption = some a) : r = .ok a := by
  cases r with
  | ok b => simp [Except.toOption] at h; rw [h]
  | error e => simp [Except.toOption] at h

theorem usual_of_ascii {s : Str} (h : s.all (fun c => c == '\n' || (32 ≤ c.toNat && c.toNat ≤ 126)) = true) :
    ∀ c ∈ s, UsualChar c := by
  intro c hc
  have := List.all_eq_true.1 h c hc
  simp only [Bool.or_eq_true, beq_iff_eq, Bool.and_eq_true, decide_eq_true_eq] at this
  rcases this with rfl | ⟨h1, h2⟩
  · exact ⟨.inl rfl, by decide⟩
  · refine ⟨.inr ⟨?_, ?_⟩, by omega⟩
    · simp [isPrintable, h1, h2]
    · unfold isBreak
      have e1 : c ≠ '\n' := by rintro rfl; revert h1; decide
      have e2 : c ≠ '\r' := by rintro rfl; revert h1; decide
      simp [e1, e2]
      omega

/-- The text of `C62_example` meets the hypotheses, and this is the definition. -/
theorem C76_example :
    (Usual false helpParts ∧ (∀ c ∈ text helpParts, UsualChar c) ∧ programName (text helpParts) = .ok (S "prog")) ∧
    helpToYaml (text helpParts) = .ok (S ("prog: \"prog\"\nhelp: \"<Program description here>\"\noptions:\n" ++
      "# usage: prog [-h]\n# \n" ++
      "  - option_strings: [\"-f\", \"--file\"]\n    metavar: \"a file\"\n    help: \"read from -file-\"\n" ++
      "    complete: [\"file\"]\n\n" ++
      "  - option_strings: [\"--color\", \"--colour\"]\n    metavar: \"WHEN\"\n    help: \"use colors\"\n" ++
      "    optional_arg: true\n    complete: [\"none\"]\n")) := by
  refine ⟨⟨C62_example.1, usual_of_ascii (by decide +kernel), ?_⟩, ?_⟩
  · exact ok_of_toOption (by decide +kernel)
  · exact ok_of_toOption (by decide +kernel)

/-- The items of the example meet the hypotheses of `C76_definition_partial`. -/
example : (∀ i ∈ helpParts.map Part.meaning, Writable i) ∧ QuotableName (S "prog") :=
  ⟨writable_of_usual (C54_covers _ _ (C62_layout _ C62_example.1)) (usual_of_ascii (by decide +kernel)),
    by unfold QuotableName CommentChar; decide⟩

/-- Texts that meet the hypotheses of `C76_usage_name` and `C76_first_word`. -/
example : programName (S "Usage: tool [-h]\n") = .ok (S "tool") ∧ programName (S "\n tool - does it\n") = .ok (S "tool") :=
  ⟨C76_usage_name (S "Usage:") [' '] (S "tool") (S " [-h]\n") (by decide) (by unfold UsageBlank; decide) (by decide)
      (by unfold UsageBlank; decide) (by decide) (by intro c h; cases h; exact .inr (.inr rfl)),
    C76_first_word ['\n', ' '] (S "tool") (S " - does it\n") (by decide) (by decide) (by decide)
      (by intro c h; cases h; rfl) (by
        intro u v h hl
        have : u = (S "\n tool - does it\n").take 6 := by
          have := congrArg (List.take 6) h
          rw [List.take_left' hl] at this
          exact this.symm
        rw [this]
        decide)⟩

/-! ## Where the property fails -/

/-- The metavar of `-x <key>=<value>` loses its first and its last character, because they are brackets. -/
theorem C76_two_brackets : helpToYaml (S "usage: a\n  -x <key>=<value>  Text\n") =
    .ok (S ("prog: \"a\"\nhelp: \"<Program description here>\"\noptions:\n# usage: a\n" ++
      "  - option_strings: [\"-x\"]\n    metavar: \"key>=<value\"\n    help: \"Text\"\n    complete: [\"none\"]\n")) :=
  ok_of_toOption (by decide +kernel)

/-- The written text and what is read from it. -/
def readBack (s : String) : Option (Option (List Val)) := (helpToYaml s.toList).toOption.map YamlText.read

/-- A control character in a line without options, such as those that switch colors, makes the text
unreadable. -/
theorem C76_escape : readBack "usage: a\n\x1b[1mOptions\n  -x  Text\n" = some none := by decide +kernel

/-- A line separator in such a line ends the comment, and the rest of the line is not a comment. -/
theorem C76_separator : readBack "usage: a\nSome\u2028text\n  -x  Text\n" = some none := by decide +kernel

/-- A quote in the name of the program ends the text in quotes. -/
theorem C76_quote : readBack "usage: a\"b\n  -x  Text\n" = some none := by decide +kernel

/-- A character from U+10000 on in a description becomes two characters that are none. -/
theorem C76_emoji : readBack "usage: a\n  -x  😀\n" ≠ some (some [document (S "a") [.dict [
    (.str (S "option_strings"), .list [.str (S "-x")]), (.str (S "help"), .str [Char.ofNat 0x1F600])]]]) := by
  decide +kernel

/-- A text without words. -/
theorem C76_blank : helpToYaml " \n\n".toList = .error .crash := rfl

end CC
