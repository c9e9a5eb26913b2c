import Verif.Lemmas.ZshGood
/-!
# The actions and functions of the completion objects of Zsh
-/

namespace CC
open BashCode ZshCompleter

/-- There are no two underscores side by side. -/
def noDouble : Str → Bool
  | [] => true
  | '_' :: '_' :: _ => false
  | _ :: r => noDouble r

theorem noDouble_false (a b : Str) : noDouble (a ++ '_' :: '_' :: b) = false := by
  induction a with
  | nil => rfl
  | cons c r ih =>
    rw [List.cons_append, noDouble.eq_def]
    split
    · simp_all
    · rfl
    · rename_i e; cases e; exact ih

theorem takes_library {s : Setting} {f : Str} (h : noDouble f = true) : TakesOptions s f := by
  left
  intro name he
  rw [he] at h
  have := noDouble_false s.pre name
  simp at h
  rw [this] at h
  cases h

/-! ## The action and the function of a good object -/

theorem intStr_safe (i : Int) : ∀ c ∈ intStr i, c.isDigit = true ∨ c = '-' := by
  intro c hc
  unfold intStr at hc
  split at hc
  · simp at hc
    rcases hc with rfl | hc
    · exact Or.inr rfl
    · exact Or.inl (natStr_isDigit hc)
  · exact Or.inl (natStr_isDigit hc)

theorem braces_chars (a b st : Int) : ∀ c ∈ BashCompleter.braces a b st, c.isDigit = true ∨ c = '-' ∨ c = '.' ∨ c = '{' ∨ c = '}' := by
  intro c hc
  unfold BashCompleter.braces at hc
  simp only [List.mem_append] at hc
  have e1 := intStr_safe a c
  have e2 := intStr_safe b c
  have e3 := intStr_safe st c
  have hdots : c ∈ "..".toList → c = '.' := by intro h; simpa using h
  rcases hc with (((hc | hc) | hc) | hc) | hc
  · rcases hc with hc | hc
    · simp at hc; simp [hc]
    · rcases e1 hc with h | h <;> simp [h]
  all_goals grind

theorem range_quoted (a b st : Int) :
    zshRangeAction a b st = quote (['('] ++ BashCompleter.braces a b st ++ [')']) := by
  have hq : '\'' ∉ ['('] ++ BashCompleter.braces a b st ++ [')'] := by
    intro hm
    simp only [List.mem_append, List.mem_singleton] at hm
    rcases hm with (hm | hm) | hm
    · revert hm; decide
    · rcases braces_chars a b st _ hm with h | h | h | h | h <;> revert h <;> decide
    · revert hm; decide
  have hn : needsQuote (['('] ++ BashCompleter.braces a b st ++ [')']) = true := by
    simp [needsQuote, isSafeChar, isAsciiAlnum, show ('('.isAlphanum) = false by decide]
  unfold quote
  simp only [hn, Bool.not_true, Bool.and_false, Bool.false_eq_true, if_false]
  rw [if_pos (by simpa using hq)]
  simp [zshRangeAction, BashCompleter.braces, S]

theorem action_of_good {s : Setting} {c : Comp} {ctxt : ZshCtxt} (hm : s.metavar = ctxt.metavar) (hb : NameOk ctxt.base)
    {dyn : Dyn} (hd : ∀ e ∈ dyn, NameOk e.2) (hf : Fits s c) {o : ZshObj} (hg : Good s c o)
    {a : Str × Dyn} (h : o.getAction ctxt dyn = .ok a) (hF : ∀ e ∈ a.2, e ∈ s.functions) : ∃ t, Acts s c a.1 t := by
  cases hg with
  | call hq hl hh hk hn hs hdo =>
    rename_i f ws b
    simp only [ZshObj.getAction] at h
    rw [zshCmd_eq hq] at h
    have hr := zread_call hl hk
    have hne := quote_ne hq
    cases b with
    | true =>
      cases h
      exact ⟨_, acts_braces hr hdo (fun hx => joinQuoted_nl (hn hx))
        (fun hx => joinQuoted_bsOk (hs hx))⟩
    | false =>
      cases h
      exact ⟨_, rfl, ⟨_, .command (by
          show ∀ c, (joinQuoted (f :: ws)).head? = some c → _
          rw [head_joinQuoted hq hne]; exact (hh rfl).2) hr (hh rfl).1, hdo⟩,
        fun hx => joinQuoted_nl (hn hx), fun hx => joinQuoted_bsOk (hs hx)⟩
  | code hc =>
    rename_i code
    subst hc
    cases h
    simp only [Fits, FitsHere] at hf
    obtain ⟨⟨ss, hr⟩, _⟩ := hf
    exact ⟨_, acts_braces hr ⟨ss, hr, rfl⟩ (fun hx => hx code (by simp [texts])) (fun hx => bsOk_none (hx code (by simp [texts])))⟩
  | nothing hc =>
    subst hc
    cases h
    exact ⟨S " ", rfl, ⟨_, .nothing (by intro c hc; simpa [S] using hc), rfl⟩, fun _ => by decide, fun _ => by decide⟩
  | choices hc =>
    subst hc
    simp only [Fits, FitsHere, ownWords] at hf
    refine choices_acts hm hb hd hf.1 ?_ h hF
    intro i hi
    exact hf.2 i.1 (List.mem_map.mpr ⟨i, hi, rfl⟩)
  | command hc =>
    subst hc
    simp only [Fits, FitsHere] at hf
    obtain ⟨⟨h1, h2, h3⟩, _⟩ := hf
    rcases reads_pathCode _ _ _ h1 h2 h3 with ⟨e1, e2⟩ | ⟨code, ps, e1, e2, e3⟩
    · rw [e1] at h
      cases h
      have hN := named_command_names
      refine ⟨S "_command_names", hN.quote.symm, ⟨_, .command hN.2.1 (read_name hN) ?_, ?_⟩, fun _ => hN.no (Or.inl rfl),
        fun _ => bsOk_none (hN.no (Or.inr rfl))⟩
      · exact takes_library (by decide)
      · simp only [Does, e2]; rfl
    · rw [e1] at h
      simp only [ZshObj.getAction] at h
      have hn := addDynFunc_named hb hd h
      exact ⟨_, acts_name hn.1 (hF _ (addDynFunc_spec h).2) (body_command s e3 e2) rfl⟩
  | range hc =>
    rename_i x y z
    subst hc
    cases h
    refine ⟨_, range_quoted x y z, ⟨_, .numbers, rfl⟩, fun _ => ?_, fun _ => bsOk_none ?_⟩
    all_goals
      intro hm
      simp only [List.mem_append, List.mem_singleton] at hm
      rcases hm with (hm | hm) | hm
      · revert hm; decide
      · rcases braces_chars x y z _ hm with h | h | h | h | h <;> revert h <;> decide
      · revert hm; decide
  | combined hg hdo =>
    cases h
    exact ⟨_, acts_braces (read_name hg) hdo (fun _ => hg.no (Or.inl rfl)) (fun _ => bsOk_none (hg.no (Or.inr rfl)))⟩

/-- A function for a list or a prefix. -/
structure Fun (s : Setting) (c : Comp) (g : Str) : Prop where
  via : Via s c g
  keeps : ZshCode.keeps g = true
  no : ∀ ch, ch = '\n' ∨ ch = '\\' → ch ∉ g

theorem fun_named {s : Setting} {c : Comp} {g code : Str} {task : Task} (hg : NameOk g) (hF : (code, g) ∈ s.functions)
    (hb : Body s code task) (hd : Does s c task) : Fun s c g :=
  ⟨Or.inr ⟨code, task, hF, hb, hd⟩, hg.keeps, fun _ hc => hg.no hc⟩

theorem plain_no {t : Str} (h : Plain t) : ∀ ch, ch = '\n' ∨ ch = '\\' → ch ∉ t := by
  intro ch hc hm
  rcases hc with rfl | rfl <;> rcases h.2 _ hm with h | h | h | h | h <;> revert h <;> decide

theorem plain_keeps {t : Str} (h : Plain t) : ZshCode.keeps t = true := by
  refine keeps_head ?_
  intro he
  have := h.2 '=' (List.mem_of_mem_head? he)
  revert this; decide

theorem quote_no {f : Str} (hq : quote f = f) : ∀ ch, ch = '\n' ∨ ch = '\\' → ch ∉ f := by
  intro ch hc
  cases hn : needsQuote f with
  | false => exact safe_no (needsQuote_false hn).2 hc
  | true =>
    exfalso
    have h1 := congrArg List.length hq
    unfold quote at h1
    simp only [hn, Bool.not_true, Bool.and_false, Bool.false_eq_true, if_false] at h1
    have len : ∀ (c : Char) (r x : Str), r ≠ [] → x.length ≤ (replaceChar c r x).length := by
      intro c r x hr
      induction x with
      | nil => simp
      | cons y ys ih =>
        have : 0 < r.length := List.length_pos_iff.mpr hr
        by_cases h : y = c <;> simp [replaceChar, h] <;> omega
    split at h1
    · simp at h1; omega
    · split at h1
      · simp only [escapeDouble, List.length_append] at h1
        have a1 := len '\\' ['\\', '\\'] f (by decide)
        have := len '$' ['\\', '$'] (replaceChar '\\' ['\\', '\\'] f) (by decide)
        have := len '`' ['\\', '`'] (replaceChar '$' ['\\', '$'] (replaceChar '\\' ['\\', '\\'] f)) (by decide)
        simp only [List.length_singleton] at h1
        omega
      · have := len '\'' ['\'', '"', '\'', '"', '\''] f (by decide)
        simp at h1
        omega

theorem function_of_good {s : Setting} {c : Comp} {ctxt : ZshCtxt} (hm : s.metavar = ctxt.metavar) (hb : NameOk ctxt.base)
    {dyn : Dyn} (hd : ∀ e ∈ dyn, NameOk e.2) (hf : Fits s c) (hi : NamesFunction c) {o : ZshObj} (hg : Good s c o)
    {g : Str × Dyn} (h : o.getFunction ctxt dyn = .ok g) (hF : ∀ e ∈ g.2, e ∈ s.functions) : Fun s c g.1 := by
  cases hg with
  | call hq hl hh hk hn hs hdo =>
    rename_i f ws b
    cases ws with
    | nil =>
      cases h
      exact ⟨Or.inl hdo, hk f (by simp), quote_no hq⟩
    | cons w ws =>
      simp only [ZshObj.getFunction] at h
      have hN := addDynFunc_named hb hd h
      exact fun_named hN.1 (hF _ (addDynFunc_spec h).2) (.code (zread_call hl hk)) hdo
  | code hc =>
    subst hc
    cases h
    simp only [NamesFunction] at hi
    exact ⟨Or.inl ⟨_, hi.2, rfl⟩, plain_keeps hi.1, plain_no hi.1⟩
  | nothing hc => subst hc; exact absurd hi (by simp [NamesFunction])
  | choices hc =>
    subst hc
    simp only [Fits, FitsHere, ownWords] at hf
    simp only [ZshObj.getFunction] at h
    obtain ⟨body, hbody, h⟩ := ok_bind h
    have hN := addDynFunc_named hb hd h
    refine fun_named hN.1 (hF _ (addDynFunc_spec h).2) (.offer (hm ▸ choices_function hf.1 hbody) ?_) rfl
    intro i hi
    exact hf.2 i.1 (List.mem_map.mpr ⟨i, hi, rfl⟩)
  | command hc =>
    subst hc
    simp only [Fits, FitsHere] at hf
    obtain ⟨⟨h1, h2, h3⟩, _⟩ := hf
    rcases reads_pathCode _ _ _ h1 h2 h3 with ⟨e1, e2⟩ | ⟨code, ps, e1, e2, e3⟩
    · rw [e1] at h
      cases h
      have hN := named_command_names
      refine ⟨Or.inl ?_, hN.keeps, fun _ hc => hN.no hc⟩
      simp only [Does, e2]; rfl
    · rw [e1] at h
      simp only [ZshObj.getFunction] at h
      have hn := addDynFunc_named hb hd h
      exact fun_named hn.1 (hF _ (addDynFunc_spec h).2) (body_command s e3 e2) rfl
  | range hc =>
    subst hc
    simp only [ZshObj.getFunction] at h
    have hn := addDynFunc_named hb hd h
    exact fun_named hn.1 (hF _ (addDynFunc_spec h).2) .numbers rfl
  | combined hg hdo =>
    cases h
    exact ⟨Or.inl hdo, hg.keeps, fun _ hc => hg.no hc⟩

end CC
