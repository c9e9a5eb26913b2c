import Verif.Model.ZshUtils
import Verif.Spec.ZshArgs
import Verif.Lemmas.Quoting
import Verif.Props.FishQuoting
/-!
# Lemmas about Zsh specs
-/

namespace CC

/-! ## Reading words -/

theorem read_prefix (s : Str) : ∀ (m : Posix.Mode) (acc : Str), m ≠ .gap →
    Posix.read m acc s = (Posix.read m [] s).map (fun ws => (acc ++ ws.headD []) :: ws.tail) := by
  induction s with
  | nil => intro m acc hm; cases m <;> simp [Posix.read] at hm ⊢
  | cons c cs ih =>
    intro m acc hm
    cases m with
    | gap => exact absurd rfl hm
    | word =>
      simp only [Posix.read]
      by_cases h1 : Posix.blank c = true
      · rw [if_pos h1, if_pos h1]
        cases Posix.read .gap [] cs <;> simp
      rw [if_neg h1, if_neg h1]
      by_cases h2 : c = '\''
      · rw [if_pos h2, if_pos h2]; exact ih .sq acc (by simp)
      rw [if_neg h2, if_neg h2]
      by_cases h3 : c = '"'
      · rw [if_pos h3, if_pos h3]; exact ih .dq acc (by simp)
      rw [if_neg h3, if_neg h3]
      by_cases h4 : c = '\\'
      · rw [if_pos h4, if_pos h4]; exact ih .esc acc (by simp)
      rw [if_neg h4, if_neg h4]
      by_cases h5 : Posix.special.contains c = true
      · rw [if_pos h5, if_pos h5]; rfl
      rw [if_neg h5, if_neg h5, ih .word (acc ++ [c]) (by simp), ih .word ([] ++ [c]) (by simp)]
      cases Posix.read .word [] cs <;> simp
    | sq =>
      simp only [Posix.read]
      by_cases h1 : c = '\''
      · rw [if_pos h1, if_pos h1]; exact ih .word acc (by simp)
      rw [if_neg h1, if_neg h1, ih .sq (acc ++ [c]) (by simp), ih .sq ([] ++ [c]) (by simp)]
      cases Posix.read .sq [] cs <;> simp
    | dq =>
      simp only [Posix.read]
      by_cases h1 : c = '"'
      · rw [if_pos h1, if_pos h1]; exact ih .word acc (by simp)
      rw [if_neg h1, if_neg h1]
      by_cases h2 : c = '\\'
      · rw [if_pos h2, if_pos h2]; exact ih .dqEsc acc (by simp)
      rw [if_neg h2, if_neg h2]
      by_cases h3 : c = '$' ∨ c = '`'
      · rw [if_pos h3, if_pos h3]; rfl
      rw [if_neg h3, if_neg h3, ih .dq (acc ++ [c]) (by simp), ih .dq ([] ++ [c]) (by simp)]
      cases Posix.read .dq [] cs <;> simp
    | esc =>
      simp only [Posix.read]
      by_cases h1 : c = '\n'
      · rw [if_pos h1, if_pos h1]; exact ih .word acc (by simp)
      rw [if_neg h1, if_neg h1, ih .word (acc ++ [c]) (by simp), ih .word ([] ++ [c]) (by simp)]
      cases Posix.read .word [] cs <;> simp
    | dqEsc =>
      simp only [Posix.read]
      by_cases h1 : c = '$' ∨ c = '`' ∨ c = '"' ∨ c = '\\'
      · rw [if_pos h1, if_pos h1, ih .dq (acc ++ [c]) (by simp), ih .dq ([] ++ [c]) (by simp)]
        cases Posix.read .dq [] cs <;> simp
      rw [if_neg h1, if_neg h1]
      by_cases h2 : c = '\n'
      · rw [if_pos h2, if_pos h2]; exact ih .dq acc (by simp)
      rw [if_neg h2, if_neg h2, ih .dq (acc ++ ['\\', c]) (by simp), ih .dq ([] ++ ['\\', c]) (by simp)]
      cases Posix.read .dq [] cs <;> simp

theorem read_one {s a : Str} (acc : Str) (h : Posix.read .word [] s = some [a]) :
    Posix.read .word acc s = some [acc ++ a] := by
  rw [read_prefix s .word acc (by simp), h]; simp

/-- Between words and in a word not yet begun, a text that does not begin with a blank reads the same. -/
theorem read_gap_word {s : Str} (hne : s ≠ []) (h : ∀ c, s.head? = some c → Posix.blank c = false) :
    Posix.read .gap [] s = Posix.read .word [] s := by
  cases s with
  | nil => exact absurd rfl hne
  | cons c cs =>
    have hb := h c rfl
    simp [Posix.read, hb]

theorem quote_first (s : Str) (c : Char) (h : (quote s).head? = some c) : Posix.blank c = false := by
  unfold quote at h
  simp only [Bool.not_true, Bool.and_false, Bool.false_eq_true, if_false] at h
  split at h
  · rename_i hq
    have hs := needsQuote_false (by simpa using hq)
    have hc : isSafeChar c = true := hs.2 c (List.mem_of_mem_head? h)
    exact (safe_not_special hc).1
  · split at h
    · simp at h; subst h; decide
    · split at h
      · simp at h; subst h; decide
      · simp at h; subst h; decide

theorem quote_not_nil (s : Str) : quote s ≠ [] := by
  unfold quote
  simp only [Bool.not_true, Bool.and_false, Bool.false_eq_true, if_false]
  split
  · rename_i hq
    exact (needsQuote_false (by simpa using hq)).1
  · split
    · simp
    · split <;> simp

/-! ## Escaping -/

theorem escapeColon_cons (c : Char) (s : Str) :
    escapeColon (c :: s) = (if c = ':' then ['\\', ':'] else [c]) ++ escapeColon s := by
  unfold escapeColon
  rw [replaceChar_eq_flatMap, replaceChar_eq_flatMap, List.flatMap_cons]

theorem escapeColon_nil : escapeColon [] = [] := rfl

theorem escapeColon_append (a b : Str) : escapeColon (a ++ b) = escapeColon a ++ escapeColon b :=
  replaceChar_append _ _ _ _

theorem escapeColon_id {s : Str} (h : ':' ∉ s) : escapeColon s = s := by
  induction s with
  | nil => rfl
  | cons c cs ih =>
    simp only [List.mem_cons, not_or] at h
    rw [escapeColon_cons, if_neg (fun hc => h.1 hc.symm), ih h.2]; rfl

theorem escapeDescription_cons (c : Char) (s : Str) :
    escapeColon (escapeSquareBrackets (c :: s)) =
      (if c = ':' ∨ c = '[' ∨ c = ']' then ['\\', c] else [c]) ++ escapeColon (escapeSquareBrackets s) := by
  by_cases h1 : c = ':'
  · subst h1; simp [escapeColon, escapeSquareBrackets, replaceChar]
  by_cases h2 : c = '['
  · subst h2; simp [escapeColon, escapeSquareBrackets, replaceChar]
  by_cases h3 : c = ']'
  · subst h3; simp [escapeColon, escapeSquareBrackets, replaceChar]
  simp [escapeColon, escapeSquareBrackets, replaceChar, h1, h2, h3]

/-! ## The loop of `escape_colon_in_quoted_string` -/

/-- `sub` inside single quotes, colons escaped. -/
theorem read_sq_colon (sub t acc : Str) (h : '\'' ∉ sub) :
    Posix.read .sq acc (replaceChar ':' ['\\', ':'] sub ++ '\'' :: t) =
      Posix.read .word (acc ++ escapeColon sub) t := by
  have : '\'' ∉ escapeColon sub := by
    intro hm
    unfold escapeColon at hm
    rw [replaceChar_eq_flatMap] at hm
    obtain ⟨d, hd, hm⟩ := List.mem_flatMap.mp hm
    split at hm
    · simp at hm
    · simp at hm; subst hm; exact h hd
  exact read_sq _ _ _ this

theorem read_dq_colon (sub t : Str) : ∀ acc, '"' ∉ sub → '\\' ∉ sub → '$' ∉ sub → '`' ∉ sub →
    Posix.read .dq acc (replaceChar ':' ['\\', '\\', ':'] sub ++ '"' :: t) =
      Posix.read .word (acc ++ escapeColon sub) t := by
  induction sub with
  | nil => intro acc _ _ _ _; simp [replaceChar, Posix.read, escapeColon]
  | cons c cs ih =>
    intro acc h1 h2 h3 h4
    simp only [List.mem_cons, not_or] at h1 h2 h3 h4
    rw [escapeColon_cons]
    by_cases hc : c = ':'
    · subst hc
      simp [replaceChar, Posix.read, ih _ h1.2 h2.2 h3.2 h4.2]
    · simp only [replaceChar, if_neg hc, List.cons_append, List.nil_append, Posix.read]
      rw [if_neg (fun h => h1.1 h.symm), if_neg (fun h => h2.1 h.symm),
        if_neg (fun h => h.elim (fun h => h3.1 h.symm) (fun h => h4.1 h.symm)), ih _ h1.2 h2.2 h3.2 h4.2]
      simp

/-- No backslash outside single quotes. The mode says in which kind of quotes the text begins. -/
def noBackslash : Posix.Mode → Str → Bool
  | _, [] => true
  | .sq, c :: cs => if c = '\'' then noBackslash .word cs else noBackslash .sq cs
  | .dq, c :: cs => if c = '\\' then false else if c = '"' then noBackslash .word cs else noBackslash .dq cs
  | _, c :: cs =>
    if c = '\\' then false
    else if c = '\'' then noBackslash .sq cs
    else if c = '"' then noBackslash .dq cs
    else noBackslash .word cs

theorem escapeGo_read (s : Str) :
    (∀ ws, noBackslash .word s = true → Posix.read .gap [] s = some ws →
      ∃ act, escapeColonGo .plain s = .ok act ∧ Posix.read .gap [] act = some (ws.map escapeColon)) ∧
    (∀ acc ws, noBackslash .word s = true → Posix.read .word acc s = some ws →
      ∃ act, escapeColonGo .plain s = .ok act ∧
        Posix.read .word (escapeColon acc) act = some (ws.map escapeColon)) ∧
    (∀ acc sub ws, '\'' ∉ sub → noBackslash .sq s = true → Posix.read .sq (acc ++ sub) s = some ws →
      ∃ act, escapeColonGo (.single sub) s = .ok ('\'' :: act) ∧
        Posix.read .sq (escapeColon acc) act = some (ws.map escapeColon)) ∧
    (∀ acc sub ws, '"' ∉ sub → '\\' ∉ sub → '$' ∉ sub → '`' ∉ sub → noBackslash .dq s = true →
      Posix.read .dq (acc ++ sub) s = some ws →
      ∃ act, escapeColonGo (.double sub) s = .ok ('"' :: act) ∧
        Posix.read .dq (escapeColon acc) act = some (ws.map escapeColon)) := by
  induction s with
  | nil =>
    refine ⟨fun ws _ h => ⟨[], rfl, ?_⟩, fun acc ws _ h => ⟨[], rfl, ?_⟩, fun acc sub ws _ _ h => ?_,
      fun acc sub ws _ _ _ _ _ h => ?_⟩
    · simp [Posix.read] at h; subst h; rfl
    · simp [Posix.read] at h; subst h; rfl
    · simp [Posix.read] at h
    · simp [Posix.read] at h
  | cons c cs ih =>
    obtain ⟨ihg, ihw, ihs, ihd⟩ := ih
    refine ⟨fun ws hb h => ?_, fun acc ws hb h => ?_, fun acc sub ws h1 hb h => ?_,
      fun acc sub ws h1 h2 h3 h4 hb h => ?_⟩
    · simp only [noBackslash] at hb
      simp only [Posix.read] at h
      simp only [escapeColonGo]
      by_cases hc1 : Posix.blank c = true
      · rw [if_pos hc1] at h
        have n1 : c ≠ '\'' := by rintro rfl; simp [Posix.blank] at hc1
        have n2 : c ≠ '"' := by rintro rfl; simp [Posix.blank] at hc1
        have n3 : c ≠ ':' := by rintro rfl; simp [Posix.blank] at hc1
        have n4 : c ≠ '\\' := by rintro rfl; simp [Posix.blank] at hc1
        rw [if_neg n4, if_neg n1, if_neg n2] at hb
        obtain ⟨act, ha, hr⟩ := ihg ws hb h
        rw [if_neg n1, if_neg n2, if_neg n3, ha]
        exact ⟨c :: act, rfl, by simp [Posix.read, hc1, hr]⟩
      rw [if_neg hc1] at h
      by_cases n4 : c = '\\'
      · rw [if_pos n4] at hb; cases hb
      rw [if_neg n4] at hb
      by_cases n1 : c = '\''
      · rw [if_pos n1] at h hb ⊢
        obtain ⟨act, ha, hr⟩ := ihs [] [] ws (by simp) hb h
        refine ⟨_, ha, ?_⟩
        simpa [Posix.read, Posix.blank, escapeColon_nil] using hr
      rw [if_neg n1] at h hb ⊢
      by_cases n2 : c = '"'
      · rw [if_pos n2] at h hb ⊢
        obtain ⟨act, ha, hr⟩ := ihd [] [] ws (by simp) (by simp) (by simp) (by simp) hb h
        refine ⟨_, ha, ?_⟩
        simpa [Posix.read, Posix.blank, escapeColon_nil] using hr
      rw [if_neg n2] at h hb ⊢
      rw [if_neg n4] at h
      by_cases n5 : Posix.special.contains c = true
      · rw [if_pos n5] at h; cases h
      rw [if_neg n5] at h
      obtain ⟨act, ha, hr⟩ := ihw [c] ws hb h
      rw [ha]
      by_cases n3 : c = ':'
      · subst n3
        exact ⟨_, rfl, by simpa [Posix.read, Posix.blank, Posix.special, escapeColon, replaceChar] using hr⟩
      · rw [if_neg n3]
        refine ⟨_, rfl, ?_⟩
        rw [escapeColon_cons, if_neg n3] at hr
        simp only [Posix.read, if_neg hc1, if_neg n1, if_neg n2, if_neg n4, if_neg n5]
        exact hr
    · simp only [noBackslash] at hb
      simp only [Posix.read] at h
      simp only [escapeColonGo]
      by_cases hc1 : Posix.blank c = true
      · rw [if_pos hc1] at h
        have n1 : c ≠ '\'' := by rintro rfl; simp [Posix.blank] at hc1
        have n2 : c ≠ '"' := by rintro rfl; simp [Posix.blank] at hc1
        have n3 : c ≠ ':' := by rintro rfl; simp [Posix.blank] at hc1
        have n4 : c ≠ '\\' := by rintro rfl; simp [Posix.blank] at hc1
        rw [if_neg n4, if_neg n1, if_neg n2] at hb
        obtain ⟨ws', hw', rfl⟩ := Option.map_eq_some_iff.mp h
        obtain ⟨act, ha, hr⟩ := ihg ws' hb hw'
        rw [if_neg n1, if_neg n2, if_neg n3, ha]
        exact ⟨c :: act, rfl, by simp [Posix.read, hc1, hr]⟩
      rw [if_neg hc1] at h
      by_cases n4 : c = '\\'
      · rw [if_pos n4] at hb; cases hb
      rw [if_neg n4] at hb
      by_cases n1 : c = '\''
      · rw [if_pos n1] at h hb ⊢
        obtain ⟨act, ha, hr⟩ := ihs acc [] ws (by simp) hb (by simpa using h)
        refine ⟨_, ha, ?_⟩
        simpa [Posix.read, Posix.blank] using hr
      rw [if_neg n1] at h hb ⊢
      by_cases n2 : c = '"'
      · rw [if_pos n2] at h hb ⊢
        obtain ⟨act, ha, hr⟩ := ihd acc [] ws (by simp) (by simp) (by simp) (by simp) hb (by simpa using h)
        refine ⟨_, ha, ?_⟩
        simpa [Posix.read, Posix.blank] using hr
      rw [if_neg n2] at h hb ⊢
      rw [if_neg n4] at h
      by_cases n5 : Posix.special.contains c = true
      · rw [if_pos n5] at h; cases h
      rw [if_neg n5] at h
      obtain ⟨act, ha, hr⟩ := ihw (acc ++ [c]) ws hb h
      rw [ha]
      rw [escapeColon_append] at hr
      by_cases n3 : c = ':'
      · subst n3
        exact ⟨_, rfl, by simpa [Posix.read, Posix.blank, Posix.special, escapeColon, replaceChar] using hr⟩
      · rw [if_neg n3]
        refine ⟨_, rfl, ?_⟩
        rw [escapeColon_cons, if_neg n3] at hr
        simp only [Posix.read, if_neg hc1, if_neg n1, if_neg n2, if_neg n4, if_neg n5]
        exact hr
    · simp only [noBackslash] at hb
      simp only [Posix.read] at h
      simp only [escapeColonGo]
      by_cases n1 : c = '\''
      · rw [if_pos n1] at h hb ⊢
        obtain ⟨act, ha, hr⟩ := ihw _ ws hb h
        rw [ha]
        refine ⟨_, by simp only [List.cons_append, List.nil_append, List.append_assoc]; rfl, ?_⟩
        rw [read_sq_colon sub act _ h1, ← escapeColon_append]; exact hr
      · rw [if_neg n1] at h hb ⊢
        rw [List.append_assoc] at h
        exact ihs acc (sub ++ [c]) ws (by simp [h1, Ne.symm n1]) hb h
    · simp only [noBackslash] at hb
      simp only [Posix.read] at h
      simp only [escapeColonGo]
      by_cases n4 : c = '\\'
      · rw [if_pos n4] at hb; cases hb
      rw [if_neg n4] at hb ⊢
      by_cases n1 : c = '"'
      · rw [if_pos n1] at h hb ⊢
        obtain ⟨act, ha, hr⟩ := ihw _ ws hb h
        rw [ha]
        refine ⟨_, by simp only [List.cons_append, List.nil_append, List.append_assoc]; rfl, ?_⟩
        rw [read_dq_colon sub act _ h1 h2 h3 h4, ← escapeColon_append]; exact hr
      · rw [if_neg n1] at h hb ⊢
        rw [if_neg n4] at h
        by_cases n5 : c = '$' ∨ c = '`'
        · rw [if_pos n5] at h; cases h
        rw [if_neg n5, List.append_assoc] at h
        have n6 := not_or.mp n5
        exact ihd acc (sub ++ [c]) ws (by simp [h1, Ne.symm n1]) (by simp [h2, Ne.symm n4])
          (by simp [h3, Ne.symm n6.1]) (by simp [h4, Ne.symm n6.2]) hb h

/-- The characters of the words come from the text, but for backslashes. -/
theorem read_chars (s : Str) : ∀ (m : Posix.Mode) (acc : Str) (ws : List Str), Posix.read m acc s = some ws →
    ∀ w ∈ ws, ∀ c ∈ w, c ∈ acc ∨ c ∈ s ∨ c = '\\' := by
  induction s with
  | nil => intro m acc ws h; cases m <;> simp [Posix.read] at h <;> subst h <;> simp +contextual
  | cons d ds ih =>
    intro m acc ws h w hw c hc
    have key : ∀ (m' : Posix.Mode) (acc' : Str) (ws' : List Str), Posix.read m' acc' ds = some ws' → w ∈ ws' →
        (∀ x ∈ acc', x ∈ acc ∨ x = d ∨ x = '\\') → c ∈ acc ∨ c ∈ d :: ds ∨ c = '\\' := by
      intro m' acc' ws' h' hw' ha
      rcases ih m' acc' ws' h' w hw' c hc with q | q | q
      · rcases ha c q with q | q | q
        · exact Or.inl q
        · exact Or.inr (Or.inl (by simp [q]))
        · exact Or.inr (Or.inr q)
      · exact Or.inr (Or.inl (List.mem_cons_of_mem _ q))
      · exact Or.inr (Or.inr q)
    cases m <;> simp only [Posix.read] at h <;> repeat' split at h
    all_goals first
      | cases h; done
      | (obtain ⟨ws', hw', rfl⟩ := Option.map_eq_some_iff.mp h
         rcases List.mem_cons.mp hw with q | q
         · subst q; exact Or.inl hc
         · exact key _ _ _ hw' q (by simp))
      | exact key _ _ _ h hw (by intro x hx; grind)

end CC
