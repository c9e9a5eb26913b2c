import Verif.Props.Choices
/-!
# C63: lists of choices in Fish, and in the option specs of Zsh
-/

namespace CC

/-! ## Fish -/

theorem fish_quote_word (acc s t : Str) (h : fishReadable s = true) :
    Fish.read .word acc (quote s ++ t) = Fish.read .word (acc ++ s) t := by
  unfold quote
  simp only [Bool.not_true, Bool.and_false, Bool.false_eq_true, if_false]
  split
  · rename_i h1
    have := needsQuote_false (by simpa using h1)
    exact fish_word_safe s t acc this.2
  · split
    · rename_i h1
      have h' : '\'' ∉ s := by simpa using h1
      have hb : backslashHarmless s = true := by simpa [fishReadable, h'] using h
      have := fish_sq s t acc hb
      rw [replaceChar_not_mem _ _ _ h'] at this
      simp only [List.append_assoc, List.cons_append, List.nil_append, Fish.read]
      simp [this, Fish.blank]
    · rename_i h1
      split
      · rename_i h2
        have h1' : '\'' ∈ s := by simpa using h1
        have h2' : '"' ∉ s := by simpa using h2
        have hb : '`' ∉ s := by simpa [fishReadable, h1', h2'] using h
        simp only [List.append_assoc, List.cons_append, List.nil_append, Fish.read]
        rw [fish_dq _ _ _ h2' hb]; simp [Fish.blank]
      · rename_i h2
        have h2' : '"' ∈ s := by simpa using h2
        have hb : backslashHarmless s = true := by simpa [fishReadable, h2'] using h
        simp only [List.append_assoc, List.cons_append, List.nil_append, Fish.read]
        rw [fish_sq s t acc hb]; simp [Fish.blank]

theorem fish_items {α : Type} (text : α → Str) (word : α → Str) (l : List α)
    (h : ∀ a ∈ l, ∀ t, Fish.read .gap [] (text a ++ t) = Fish.read .word (word a) t) :
    Fish.words (joinWith [' '] (l.map text)) = some (l.map word) := by
  unfold Fish.words
  match l with
  | [] => simp [joinWith, Fish.read]
  | [x] =>
    have := h x (by simp) []
    simp only [List.append_nil] at this
    simp [joinWith, this, Fish.read]
  | x :: y :: xs =>
    have ih := fish_items text word (y :: xs) (fun a ha => h a (by simp [ha]))
    unfold Fish.words at ih
    simp only [List.map_cons, joinWith, List.append_assoc, List.cons_append, List.nil_append] at ih ⊢
    rw [h x (by simp)]
    have e : ∀ w u, Fish.read .word w (' ' :: u) = (Fish.read .gap [] u).map (w :: ·) := by
      intro w u; simp [Fish.read, Fish.blank]
    rw [e, ih]
    simp

theorem stringified_nodup (t : List (Choice × Option Choice)) (acc : List (Str × Str))
    (h : (acc.map (·.1) ++ t.map (fun e => e.1.text)).Nodup) :
    t.foldl (fun acc e =>
      if acc.any (fun a => a.1 == e.1.text)
      then acc.map (fun a => if a.1 == e.1.text then (a.1, str0 e.2) else a)
      else acc ++ [(e.1.text, str0 e.2)]) acc = acc ++ t.map (fun e => (e.1.text, str0 e.2)) := by
  induction t generalizing acc with
  | nil => simp
  | cons e t ih =>
    simp only [List.foldl_cons, List.map_cons]
    have hn : acc.any (fun a => a.1 == e.1.text) = false := by
      rw [List.any_eq_false]
      intro a ha hcon
      have hc : a.1 = e.1.text := by simpa using hcon
      rw [List.nodup_append] at h
      exact h.2.2 a.1 (List.mem_map.mpr ⟨a, ha, rfl⟩) e.1.text (by simp) hc
    rw [hn]
    simp only [Bool.false_eq_true, if_false]
    rw [ih]
    · simp
    · simpa using h

theorem candidate_word (w : Str) (h : '\t' ∉ w) : FishWords.candidate w = (w, []) := by
  have : ∀ c ∈ w, (decide (c ≠ '\t')) = true := by
    intro c hc; simp; rintro rfl; exact h hc
  unfold FishWords.candidate
  have h1 : ∀ l : Str, (∀ c ∈ l, (decide (c ≠ '\t')) = true) → l.takeWhile (· ≠ '\t') = l ∧ l.dropWhile (· ≠ '\t') = [] := by
    intro l
    induction l with
    | nil => simp
    | cons c cs ih =>
      intro hl
      have := ih (fun x hx => hl x (by simp [hx]))
      have hc := hl c (by simp)
      simp only [List.takeWhile, List.dropWhile, hc, this.1, this.2, and_self]
  rw [(h1 w this).1, (h1 w this).2]
  rfl

theorem candidate_described (w d : Str) (h : '\t' ∉ w) : FishWords.candidate (w ++ '\t' :: d) = (w, d) := by
  have hw : ∀ c ∈ w, (decide (c ≠ '\t')) = true := by
    intro c hc; simp; rintro rfl; exact h hc
  unfold FishWords.candidate
  rw [List.takeWhile_append_of_pos hw, List.dropWhile_append_of_pos hw]
  simp

/-- A text whose last character is not stripped. -/
def EndsFirm (s : Str) : Prop := ∃ r c, s = r ++ [c] ∧ (c == ' ' || c == '\\' || c == '\n') = false

theorem EndsFirm.append {a b : Str} (h : EndsFirm b) : EndsFirm (a ++ b) := by
  obtain ⟨r, c, rfl, hc⟩ := h
  exact ⟨a ++ r, c, by simp, hc⟩

theorem rstrip_firm {s t : Str} (h : EndsFirm s) (ht : ∀ c ∈ t, (c == ' ' || c == '\\' || c == '\n') = true) :
    rstripContinuation (s ++ t) = s := by
  obtain ⟨r, c, rfl, hc⟩ := h
  unfold rstripContinuation
  rw [List.reverse_append, List.dropWhile_append_of_pos (by simpa using ht)]
  simp only [List.reverse_append, List.reverse_cons, List.reverse_nil, List.nil_append, List.cons_append]
  rw [List.dropWhile_cons_of_neg (by rw [hc]; decide)]
  simp

theorem quote_firm (s : Str) : EndsFirm (quote s) := by
  unfold quote
  simp only [Bool.not_true, Bool.and_false, Bool.false_eq_true, if_false]
  split
  · rename_i h
    have := needsQuote_false (by simpa using h)
    rcases List.eq_nil_or_concat s with rfl | ⟨r, c, rfl⟩
    · exact absurd rfl this.1
    · refine ⟨r, c, by simp, ?_⟩
      have hs := this.2 c (by simp)
      rw [Bool.eq_false_iff]
      intro hc
      simp only [Bool.or_eq_true, beq_iff_eq] at hc
      rcases hc with (rfl | rfl) | rfl <;> revert hs <;> decide
  · split
    · exact ⟨_, '\'', rfl, by decide⟩
    · split
      · exact ⟨_, '"', rfl, by decide⟩
      · exact ⟨_, '\'', rfl, by decide⟩

theorem joinWith_firm {sep : Str} {ws : List Str} (hne : ws ≠ []) (h : ∀ w ∈ ws, EndsFirm w) :
    EndsFirm (joinWith sep ws) := by
  induction ws with
  | nil => exact absurd rfl hne
  | cons w ws ih =>
    cases ws with
    | nil => simpa [joinWith] using h w (by simp)
    | cons y ys =>
      simp only [joinWith]
      exact (ih (by simp) (fun x hx => h x (by simp [hx]))).append

theorem lines_firm {lines : List (List Str)} (hne : lines ≠ []) (h : ∀ l ∈ lines, l ≠ []) :
    EndsFirm (joinWith [' ', '\\', '\n'] (lines.map (fun l => [' ', ' '] ++ joinQuoted l))) := by
  refine joinWith_firm (by simpa using hne) ?_
  intro w hw
  obtain ⟨l, hl, rfl⟩ := List.mem_map.mp hw
  refine EndsFirm.append (joinWith_firm (by simpa using h l hl) ?_)
  intro x hx
  obtain ⟨y, _, rfl⟩ := List.mem_map.mp hx
  exact quote_firm y

theorem fish_printf_list (t : Str) :
    Fish.read .gap [] (S "printf '%s\\n' \\\n" ++ t) = (Fish.read .gap [] t).map (fun r => S "printf" :: S "%s\\n" :: r) := by
  simp [S, Fish.read, Fish.blank, Fish.special, Option.map_map, Function.comp_def]

theorem fish_printf_table (t : Str) :
    Fish.read .gap [] (S "printf '%s\\t%s\\n' \\\n" ++ t) =
      (Fish.read .gap [] t).map (fun r => S "printf" :: S "%s\\t%s\\n" :: r) := by
  simp [S, Fish.read, Fish.blank, Fish.special, Option.map_map, Function.comp_def]

/-- The candidates that are to be offered; a missing description is an empty one. -/
def Choices.candidates (c : Choices) : List (Str × Str) := c.offers.map (fun e => (e.1, e.2.getD []))

theorem candidates_table (t : List (Choice × Option Choice)) :
    (Choices.table t).candidates = t.map (fun e => (e.1.text, str0 e.2)) := by
  simp only [Choices.candidates, Choices.offers, List.map_map]
  apply List.map_congr_left
  rintro ⟨w, d⟩ _
  cases d with
  | none => rfl
  | some d =>
    simp only [Function.comp_apply, str0]
    by_cases hd : d.text = [] <;> simp [hd]

theorem candidates_list (l : List Choice) :
    (Choices.list l).candidates = l.map (fun c => (c.text, [])) := by
  simp [Choices.candidates, Choices.offers]

/-- Texts that Fish can be given: the words have no tab and no newline, the descriptions no newline, and
Fish and POSIX agree about how they are quoted. -/
structure FishTexts (c : Choices) : Prop where
  words : ∀ w ∈ c.words, fishReadable w.text = true ∧ '\t' ∉ w.text ∧ '\n' ∉ w.text
  descriptions : ∀ d ∈ c.descriptions, fishReadable d.text = true ∧ '\n' ∉ d.text

theorem FishTexts.str0 {t : List (Choice × Option Choice)} (h : FishTexts (.table t)) {e : Choice × Option Choice}
    (he : e ∈ t) : fishReadable (str0 e.2) = true ∧ '\n' ∉ CC.str0 e.2 := by
  obtain ⟨w, d⟩ := e
  cases d with
  | none => exact ⟨(by decide : fishReadable [] = true), by simp [CC.str0]⟩
  | some d => exact h.descriptions d (List.mem_filterMap.mpr ⟨(w, some d), he, rfl⟩)

/-- **C63**, Fish, in place: the argument of `-a` is read as candidates, one for each word, with its
description. The words of a table must print as different texts. -/
theorem C63_fish_inline_partial (c : Choices) (h : FishTexts c) (hn : (c.words.map Choice.text).Nodup) :
    FishWords.offered (fishInline c) = some c.candidates := by
  cases c with
  | list l =>
    have hw := h.words
    unfold FishWords.offered fishInline
    simp only [Choices.words] at hw
    rw [fish_items (fun c : Choice => quote c.text) Choice.text l
      (fun a ha t => C03_fish_quote_in_context_partial _ _ (hw a ha).1)]
    rw [candidates_list]
    simp only [Option.map_some, List.map_map]
    congr 1
    exact List.map_congr_left (fun a ha => candidate_word _ (hw a ha).2.1)
  | table t =>
    have hw := h.words
    have hs := stringified_nodup t [] (by simpa [Choices.words, Function.comp_def] using hn)
    simp only [List.nil_append] at hs
    unfold FishWords.offered
    simp only [fishInline, stringified]
    rw [hs]
    simp only [Choices.words] at hw
    rw [fish_items (fun e : Str × Str => quote e.1 ++ S "\\t" ++ quote e.2) (fun e => e.1 ++ '\t' :: e.2)]
    · rw [candidates_table]
      simp only [Option.map_some, List.map_map]
      congr 1
      apply List.map_congr_left
      intro e he
      exact candidate_described _ _ (hw e.1 (List.mem_map.mpr ⟨e, he, rfl⟩)).2.1
    · intro a ha u
      obtain ⟨e, he, rfl⟩ := List.mem_map.mp ha
      simp only [List.append_assoc]
      rw [C03_fish_quote_in_context_partial _ _ (hw e.1 (List.mem_map.mpr ⟨e, he, rfl⟩)).1]
      have : ∀ w r, Fish.read .word w (S "\\t" ++ r) = Fish.read .word (w ++ ['\t']) r := by
        intro w r; simp [S, Fish.read, Fish.blank]
      rw [this, fish_quote_word _ _ _ (h.str0 he).1]
      simp

theorem joined_lines {α : Type} (t : List α) (f : α → Str) (hne : t ≠ []) :
    t.flatMap (fun e => f e ++ S " \\\n") = joinWith [' ', '\\', '\n'] (t.map f) ++ [' ', '\\', '\n'] := by
  induction t with
  | nil => exact absurd rfl hne
  | cons e t ih =>
    cases t with
    | nil => simp [joinWith, S]
    | cons y ys =>
      have := ih (by simp)
      simp only [List.flatMap_cons, List.map_cons, joinWith] at this ⊢
      rw [this]
      simp [S]

/-- **C63**, Fish, the code of a function: the lines that `printf` prints are the candidates. -/
theorem C63_fish_code_partial (lineLength : Int) (c : Choices) (h : FishTexts c) (hne : c.words ≠ []) :
    FishWords.functionOffers (fishCode lineLength c) = some c.candidates := by
  cases c with
  | list l =>
    have hw := h.words
    simp only [Choices.words] at hw hne
    obtain ⟨lines, h1, h2, h3⟩ := wrapped_quoted [' ', '\\'] (by decide) (lineLength - 2) (l.map Choice.text) (by
      intro i hi
      obtain ⟨w, hw', rfl⟩ := List.mem_map.mp hi
      exact (hw w hw').2.2)
    have hlne : lines ≠ [] := by
      rintro rfl
      simp at h1
      exact hne (by simpa using h1)
    have hcode : fishCode lineLength (.list l) = S "printf '%s\\n' \\\n" ++
        joinWith [' ', '\\', '\n'] (lines.map (fun l => [' ', ' '] ++ joinQuoted l)) := by
      simp only [fishCode]
      simp only [List.map_map] at h3
      have e : S " \\\n" = [' ', '\\'] ++ ['\n'] := rfl
      rw [e]
      have h3' : indent (joinWithWrap [' '] ([' ', '\\'] ++ ['\n']) (lineLength - 2) (l.map (fun c => quote c.text)) []) 2 =
        joinWith [' ', '\\', '\n'] (lines.map (fun l => [' ', ' '] ++ joinQuoted l)) := h3
      rw [h3']
      have := rstrip_firm (t := []) ((lines_firm hlne h2).append (a := S "printf '%s\\n' \\\n")) (by simp)
      simpa using this
    have hread : Fish.words (fishCode lineLength (.list l)) = some (S "printf" :: S "%s\\n" :: l.map Choice.text) := by
      unfold Fish.words
      rw [hcode, fish_printf_list, fish_lines lines h2, h1]
      · rfl
      · intro x hx a ha
        have : a ∈ l.map Choice.text := by rw [← h1]; exact List.mem_flatten.mpr ⟨x, hx, ha⟩
        obtain ⟨w, hw', rfl⟩ := List.mem_map.mp this
        exact (hw w hw').1
    unfold FishWords.functionOffers
    rw [hread]
    simp only
    rw [if_pos (show S "printf" = "printf".toList from rfl)]
    have hpl : FishWords.printfLines (S "%s\\n" :: l.map Choice.text) = some (l.map Choice.text) := by
      simp only [FishWords.printfLines]
      rw [if_pos (show S "%s\\n" = "%s\\n".toList from rfl), if_neg (by simpa using hne)]
    rw [hpl, Option.bind_some, candidates_list]
    have hnl : (l.map Choice.text).any (fun l => l.contains '\n') = false := by
      rw [List.any_eq_false]
      intro x hx
      obtain ⟨w, hw', rfl⟩ := List.mem_map.mp hx
      simpa using (hw w hw').2.2
    rw [hnl]
    simp only [Bool.false_eq_true, if_false, List.map_map]
    congr 1
    exact List.map_congr_left (fun a ha => candidate_word _ (hw a ha).2.1)
  | table t =>
    have hw := h.words
    simp only [Choices.words] at hw hne
    have htne : t ≠ [] := by rintro rfl; exact hne rfl
    have hcode : fishCode lineLength (.table t) = S "printf '%s\\t%s\\n' \\\n" ++
        joinWith [' ', '\\', '\n'] ((t.map (fun e => [e.1.text, CC.str0 e.2])).map (fun l => [' ', ' '] ++ joinQuoted l)) := by
      simp only [fishCode]
      have e : t.flatMap (fun e => S "  " ++ quote e.1.text ++ S " " ++ quote (CC.str0 e.2) ++ S " \\\n") =
          joinWith [' ', '\\', '\n'] (t.map (fun e => S "  " ++ quote e.1.text ++ S " " ++ quote (CC.str0 e.2))) ++
            [' ', '\\', '\n'] :=
        joined_lines t (fun e => S "  " ++ quote e.1.text ++ S " " ++ quote (CC.str0 e.2)) htne
      rw [e, ← List.append_assoc, rstrip_firm]
      · congr 2
        rw [List.map_map]
        apply List.map_congr_left
        intro e _
        simp [joinQuoted, joinWith, S]
      · refine EndsFirm.append (joinWith_firm (by simpa using htne) ?_)
        intro w hw'
        obtain ⟨e, _, rfl⟩ := List.mem_map.mp hw'
        exact EndsFirm.append (quote_firm _)
      · decide
    have hread : Fish.words (fishCode lineLength (.table t)) =
        some (S "printf" :: S "%s\\t%s\\n" :: (t.map (fun e => [e.1.text, CC.str0 e.2])).flatten) := by
      unfold Fish.words
      rw [hcode, fish_printf_table, fish_lines]
      · rfl
      · intro l hl
        obtain ⟨e, _, rfl⟩ := List.mem_map.mp hl
        simp
      · intro l hl a ha
        obtain ⟨e, he, rfl⟩ := List.mem_map.mp hl
        simp only [List.mem_cons, List.not_mem_nil, or_false] at ha
        rcases ha with rfl | rfl
        · exact (hw e.1 (List.mem_map.mpr ⟨e, he, rfl⟩)).1
        · exact (h.str0 he).1
    unfold FishWords.functionOffers
    rw [hread]
    simp only
    rw [if_pos (show S "printf" = "printf".toList from rfl)]
    have hpairs : ∀ t : List (Choice × Option Choice),
        FishWords.printfLines.pairs (t.map (fun e => [e.1.text, CC.str0 e.2])).flatten =
          t.map (fun e => e.1.text ++ '\t' :: CC.str0 e.2) := by
      intro t
      induction t with
      | nil => rfl
      | cons e t ih => simp [FishWords.printfLines.pairs, ih]
    have hpl : FishWords.printfLines (S "%s\\t%s\\n" :: (t.map (fun e => [e.1.text, CC.str0 e.2])).flatten) =
        some (t.map (fun e => e.1.text ++ '\t' :: CC.str0 e.2)) := by
      simp only [FishWords.printfLines]
      rw [if_neg (show ¬ S "%s\\t%s\\n" = "%s\\n".toList by decide),
        if_pos (show S "%s\\t%s\\n" = "%s\\t%s\\n".toList from rfl), if_neg, hpairs]
      cases t with
      | nil => exact absurd rfl htne
      | cons => simp
    rw [hpl, Option.bind_some, candidates_table]
    have hnl : (t.map (fun e => e.1.text ++ '\t' :: CC.str0 e.2)).any (fun l => l.contains '\n') = false := by
      rw [List.any_eq_false]
      intro x hx
      obtain ⟨e, he, rfl⟩ := List.mem_map.mp hx
      have q1 := (hw e.1 (List.mem_map.mpr ⟨e, he, rfl⟩)).2.2
      have q2 := (h.str0 he).2
      simp [q1, q2]
    rw [hnl]
    simp only [Bool.false_eq_true, if_false, List.map_map]
    congr 1
    apply List.map_congr_left
    intro e he
    exact candidate_described _ _ (hw e.1 (List.mem_map.mpr ⟨e, he, rfl⟩)).2.1

/-- **C63**, Fish: the completer for the choices, in place or as a function. -/
theorem C63_fish_partial (lineLength : Int) (c : Choices) (h : FishTexts c) (hn : (c.words.map Choice.text).Nodup) :
    match fishChoices lineLength c with
    | .inline arg => FishWords.offered arg = some c.candidates
    | .function body => FishWords.functionOffers body = some c.candidates := by
  unfold fishChoices
  split
  · rename_i heq
    split at heq
    · cases heq; exact C63_fish_inline_partial c h hn
    · cases heq
  · rename_i heq
    split at heq
    · cases heq
    · rename_i hlong
      cases heq
      refine C63_fish_code_partial lineLength c h ?_
      intro hnil
      apply hlong
      cases c with
      | list l => simp only [Choices.words] at hnil; subst hnil; decide
      | table t =>
        simp only [Choices.words, List.map_eq_nil_iff] at hnil
        subst hnil; decide

/-- Choices that meet the conditions. -/
theorem C63_fish_example :
    fishChoices 80 (.table [(.str (S "up"), some (.str (S "go up"))), (.int 5, none)]) =
      .inline (S "up\\t'go up' 5\\t''") ∧
    FishTexts (.table [(.str (S "up"), some (.str (S "go up"))), (.int 5, none)]) := by
  refine ⟨by decide +kernel, ⟨?_, ?_⟩⟩
  · simp only [Choices.words]; decide
  · simp only [Choices.descriptions]; decide

/-- **C63 is false in Fish for a table with a number and a string of the same text**: one of them is lost. -/
theorem C63_fish_same_text :
    FishWords.offered (fishInline (.table [(.int 1, some (.str (S "a"))), (.str (S "1"), some (.str (S "b")))])) =
      some [(S "1", S "b")] := by
  decide +kernel

/-! ## Zsh: option specs with choices -/

/-- Texts without quotes, dollars, backquotes and backslashes. -/
def Tame (s : Str) : Prop := ∀ c ∈ s, c ≠ '\'' ∧ c ≠ '"' ∧ c ≠ '$' ∧ c ≠ '`' ∧ c ≠ '\\'

theorem quote_tame {s : Str} (h : Tame s) : ∀ c ∈ quote s, c = '\'' ∨ c ∈ s := by
  intro c hc
  unfold quote at hc
  simp only [Bool.not_true, Bool.and_false, Bool.false_eq_true, if_false] at hc
  split at hc
  · exact Or.inr hc
  · split at hc
    · simp only [List.cons_append, List.nil_append, List.mem_cons, List.mem_append, List.not_mem_nil, or_false] at hc
      rcases hc with rfl | hc | rfl
      · exact Or.inl rfl
      · exact Or.inr hc
      · exact Or.inl rfl
    · rename_i h1
      have : '\'' ∈ s := by simpa using h1
      exact absurd rfl (h _ this).1

theorem inline_tame {metavar : Str} {lineLength : Int} {c : Choices} {action : Str}
    (h : zshChoices metavar lineLength c = .ok (.inline action))
    (ht : ∀ x ∈ c.words ++ c.descriptions, Tame x.text) :
    ∃ t, action = quote t ∧ t ≠ [] ∧ ∀ x ∈ t, x ≠ '"' ∧ x ≠ '$' ∧ x ≠ '`' ∧ x ≠ '\\' := by
  have key : ∀ (s : Str), Tame s → ∀ x ∈ quote s, x ≠ '"' ∧ x ≠ '$' ∧ x ≠ '`' ∧ x ≠ '\\' := by
    intro s hs x hx
    rcases quote_tame hs x hx with rfl | hx
    · decide
    · exact (hs x hx).2
  cases c with
  | list l =>
    simp only [zshChoices, zshListAction] at h
    split at h
    · simp only [Except.ok.injEq, Placed.inline.injEq] at h
      subst h
      refine ⟨_, rfl, by simp [S], ?_⟩
      intro x hx
      simp only [S, String.reduceToList, List.mem_append, List.mem_cons, List.not_mem_nil, or_false] at hx
      rcases hx with (rfl | hx) | rfl
      · decide
      · rcases mem_joinWith hx with hx | ⟨w, hw, hc⟩
        · simp at hx; subst hx; decide
        · obtain ⟨i, hi, rfl⟩ := List.mem_map.mp hw
          exact key _ (ht i (List.mem_append_left _ hi)) x hc
      · decide
    · cases hf : zshListFunction metavar lineLength l <;> rw [hf] at h <;> cases h
  | table t =>
    simp only [zshChoices, Except.ok.injEq, zshDictAction] at h
    split at h
    · simp only [Placed.inline.injEq] at h
      subst h
      refine ⟨_, rfl, by simp [S], ?_⟩
      intro x hx
      simp only [S, String.reduceToList, List.mem_append, List.mem_cons, List.not_mem_nil, or_false] at hx
      rcases hx with ((rfl | rfl) | hx) | (rfl | rfl)
      · decide
      · decide
      · rcases mem_joinWith hx with hx | ⟨w, hw, hc⟩
        · simp at hx; subst hx; decide
        · obtain ⟨e, he, rfl⟩ := List.mem_map.mp hw
          unfold zshDictItem at hc
          rcases List.mem_append.mp hc with hc | hc
          · exact key _ (ht e.1 (List.mem_append_left _ (List.mem_map.mpr ⟨e, he, rfl⟩))) x hc
          · split at hc
            · simp at hc
            · rcases List.mem_append.mp hc with hc | hc
              · simp [S] at hc; subst hc; decide
              · obtain ⟨w, d⟩ := e
                cases d with
                | none => simp [str0] at *
                | some d =>
                  exact key _ (ht d (List.mem_append_right _ (List.mem_filterMap.mpr ⟨(w, some d), he, rfl⟩))) x hc
      · decide
      · decide
    · cases h

theorem paired_of_no_backslash {s : Str} (h : '\\' ∉ s) : BackslashPaired s := by
  induction s with
  | nil => simp [BackslashPaired]
  | cons c cs ih =>
    simp only [List.mem_cons, not_or] at h
    rw [BackslashPaired.eq_def]
    split <;> simp_all

/-- **C63**, Zsh, from the option to what is offered: for an option with choices that are written in place,
whose texts have no quotes, dollars, backquotes or backslashes, every word of the option spec is read by
`_arguments` as a spec whose argument has the metavar as its message and an action that offers the choices. -/
theorem C63_zsh_option_partial (options : List Opt) (o : Opt) (ho : o ∈ options) (lineLength : Int) (c : Choices)
    (action : Str) (hz : zshChoices (o.metavar.getD []) lineLength c = .ok (.inline action))
    (ht : ∀ x ∈ c.words ++ c.descriptions, Tame x.text)
    (hne : o.strings ≠ []) (hp : ∀ q ∈ options, ∀ s ∈ q.strings, SimpleOption s)
    (hd : ∀ d, o.help = some d → BackslashBefore d)
    (hm : ∀ m, o.metavar = some m → m ≠ [] ∧ BackslashPaired m)
    (hc : truthyList o.complete = true) (hsep : o.longSep ≠ .inherit) :
    ∃ z text words, zshOption options o (some action) = .ok z ∧ makeOptionSpec z = .ok text ∧
      ZshArgs.Expands text words ∧
      All2 (fun w s => ∃ spec t, ZshArgs.read w = some spec ∧ spec.name = s ∧
        spec.argument = some (o.metavar.getD [' '], t) ∧ ZshWords.offered t = some c.offers) words o.strings := by
  obtain ⟨t, rfl, htn, hchars⟩ := inline_tame hz ht
  obtain ⟨t', ht', hoff⟩ := C63_zsh_inline_partial _ _ _ _ hz (by
    intro t0 _ x hx hb
    exact (ht x hx '\\' hb).2.2.2.2 rfl)
  have : t' = t := by
    rw [C01_quote_roundtrip] at ht'; simpa using ht'.symm
  subst this
  obtain ⟨z, text, words, excl, h1, h2, h3, h4, _⟩ := C53_option_partial options o ho (quote t') t' hne hp hd hm
    ⟨noBackslash_quote t' (fun _ _ => ⟨fun q => (hchars _ q).2.1 rfl, fun q => (hchars _ q).2.2.1 rfl,
        fun q => (hchars _ q).2.2.2 rfl⟩),
      C01_quote_roundtrip t', fun c hc => quote_first _ c hc,
      paired_of_no_backslash (fun q => (hchars _ q).2.2.2 rfl)⟩ hsep
  refine ⟨z, text, words, h1, h2, h3, ?_⟩
  rw [hc] at h4
  simp only [if_true] at h4
  -- word by word
  have gen : ∀ (ws ss : List Str) (f : Str → ZshArgs.Spec), ws.map ZshArgs.read = ss.map (fun s => some (f s)) →
      (∀ s, (f s).name = s ∧ (f s).argument = some (o.metavar.getD [' '], t')) →
      All2 (fun w s => ∃ spec t, ZshArgs.read w = some spec ∧ spec.name = s ∧
        spec.argument = some (o.metavar.getD [' '], t) ∧ ZshWords.offered t = some c.offers) ws ss := by
    intro ws
    induction ws with
    | nil =>
      intro ss f h _
      cases ss with
      | nil => exact .nil
      | cons s ss => simp at h
    | cons w ws ih =>
      intro ss f h hf
      cases ss with
      | nil => simp at h
      | cons s ss =>
        simp only [List.map_cons, List.cons.injEq] at h
        exact .cons ⟨f s, t', h.1, (hf s).1, (hf s).2, hoff⟩ (ih ss f h.2 hf)
  exact gen words o.strings _ h4 (fun s => ⟨rfl, rfl⟩)

/-- An option that meets the conditions. -/
theorem C63_zsh_option_example :
    zshChoices (S "file:x") 80 (.table [(.str (S "up"), some (.str (S "go up"))), (.int 5, none)]) =
      .ok (.inline (S "\"((up:'go up' 5))\"")) ∧
    (zshOption zshExampleOptions (zshExampleOptions.head (by decide)) (some (S "\"((up:'go up' 5))\"")) >>= makeOptionSpec) =
      .ok (S "'(--quiet --output -o)'{-o+,--output=}'[Write to \\[file\\]\\: here]':'file\\:x':\"((up\\\\:'go up' 5))\"") ∧
    (∀ x ∈ (Choices.table [(.str (S "up"), some (.str (S "go up"))), (.int 5, none)]).words ++
      (Choices.table [(.str (S "up"), some (.str (S "go up"))), (.int 5, none)]).descriptions, Tame x.text) := by
  refine ⟨rfl, rfl, ?_⟩
  simp only [Choices.words, Choices.descriptions, Tame]
  decide

end CC
