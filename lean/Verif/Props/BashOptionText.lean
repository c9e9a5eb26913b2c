import Verif.Lemmas.BashOffersWhole
/-!
# C102: running the text that offers option strings

`Spec/BashOffers.lean` reads and runs the Bash text.
-/

namespace CC

open ShellGrammar (Denotes Tok)
open WhenSpec
open BashText (isName)
open BashOffers (Env)

/-! ## The lines of the options -/

namespace OffersLex

/-- The lines and what they add, if `val` has the values of the conditions. -/
def linePairs (val : Str → Bool) (entries : List TextEntry) : List (Str × List Str) :=
  (groupBy TextEntry.full entries).map (fun g =>
    (condLineText g.1 (g.2.flatMap (fun e => offeredStrings e.option)), if val g.1 then g.2.flatMap (fun e => offeredStrings e.option) else []))

theorem linePairs_lines (val : Str → Bool) (entries : List TextEntry) : (linePairs val entries).map (·.1) = optionStringLines entries := by
  unfold linePairs optionStringLines
  rw [List.map_map]
  rfl

theorem linePairs_mem (val : Str → Bool) (entries : List TextEntry) (w : Str) :
    w ∈ (linePairs val entries).flatMap (·.2) ↔ ∃ e ∈ entries, val e.full = true ∧ w ∈ offeredStrings e.option := by
  simp only [linePairs, List.mem_flatMap, List.mem_map]
  constructor
  · rintro ⟨g, ⟨⟨k, xs⟩, hm, rfl⟩, hw⟩
    simp only at hw
    split at hw
    · rename_i hv
      obtain ⟨e, he, hw'⟩ := List.mem_flatMap.mp hw
      have hxs := C40_group_by_groups _ _ _ _ hm
      subst hxs
      simp only [List.mem_filter, decide_eq_true_eq] at he
      exact ⟨e, he.1, by rw [he.2]; exact hv, hw'⟩
    · cases hw
  · rintro ⟨e, he, hv, hw⟩
    obtain ⟨⟨k, xs⟩, hm, hk⟩ := List.mem_map.mp (((C40_group_by_keys TextEntry.full entries).2.1 e.full).mpr ⟨e, he, rfl⟩)
    simp only at hk
    have hxs := C40_group_by_groups _ _ _ _ hm
    refine ⟨_, ⟨(k, xs), hm, rfl⟩, ?_⟩
    simp only
    rw [hk, if_pos hv]
    exact List.mem_flatMap.mpr ⟨e, by rw [hxs]; simp [he, hk], hw⟩

theorem linePairs_nil {val : Str → Bool} {entries : List TextEntry} : linePairs val entries = [] ↔ entries = [] := by
  unfold linePairs
  rw [List.map_eq_nil_iff]
  constructor
  · intro h
    cases entries with
    | nil => rfl
    | cons e r =>
      have := ((C40_group_by_keys TextEntry.full (e :: r)).2.1 e.full).mpr ⟨e, by simp, rfl⟩
      rw [h] at this
      cases this
  · rintro rfl; rfl

/-- The members of `group_by`. -/
theorem group_member {entries : List TextEntry} {g : Str × List TextEntry} (h : g ∈ groupBy TextEntry.full entries) :
    (∃ e ∈ entries, e.full = g.1) ∧ ∀ e ∈ g.2, e ∈ entries := by
  constructor
  · exact ((C40_group_by_keys TextEntry.full entries).2.1 g.1).mp (List.mem_map.mpr ⟨g, h, rfl⟩)
  · intro e he
    rw [C40_group_by_groups _ _ _ _ (show (g.1, g.2) ∈ _ from h)] at he
    exact (List.mem_filter.mp he).1

theorem textEntry_code {isRegex : Str → Bool} {pre : Str} {options : List Opt} {fs finals : List Str} {o : Opt} {te : TextEntry} (ho : o ∈ options)
    (h : textEntry isRegex pre options fs o = .ok te) : ∃ e, optEntry isRegex options finals o = .ok e := by
  obtain ⟨conf, hconf, -⟩ := C17_conflicts options o ho
  simp only [optEntry, textEntry, hconf, bind, Except.bind] at h ⊢
  cases hwhen : o.when_ with
  | none => exact ⟨_, rfl⟩
  | some t =>
    simp only [hwhen] at h
    cases hpw : parseWhen isRegex t with
    | error x => rw [hpw] at h; cases h
    | ok ts =>
      rw [hpw] at h
      simp only at h
      cases hx : bashWhenText pre (bashResolve options) ts with
      | error x => rw [hx] at h; cases h
      | ok wt =>
        obtain ⟨code, hg⟩ := bashWhen_code hx
        simp only [hpw, hg]
        exact ⟨_, rfl⟩

theorem mapE_total {α β : Type} {f : α → Except Err β} : ∀ {l : List α}, (∀ x ∈ l, ∃ y, f x = .ok y) → ∃ ys, mapE f l = .ok ys
  | [], _ => ⟨[], rfl⟩
  | x :: l, h => by
    obtain ⟨y, hy⟩ := h x (by simp)
    obtain ⟨ys, hys⟩ := mapE_total (l := l) (fun z hz => h z (by simp [hz]))
    exact ⟨y :: ys, by simp [mapE, hy, hys, bind, Except.bind]⟩

theorem offered_chars {o : Opt} (h : ∀ s ∈ o.strings, s ≠ [] ∧ ∀ c ∈ s, BashOffers.Harmless c) : ∀ w ∈ offeredStrings o, w ≠ [] ∧ ∀ c ∈ w, BashOffers.Harmless c := by
  have hsub : ∀ s, s ∈ o.shortStrings ∨ s ∈ o.longStrings ∨ s ∈ o.oldStrings → s ∈ o.strings := by
    intro s hs
    unfold Opt.shortStrings Opt.longStrings Opt.oldStrings at hs
    rcases hs with hs | hs | hs <;> exact (List.mem_filter.mp hs).1
  have heq : ∀ s ∈ o.strings, s ++ ['='] ≠ [] ∧ ∀ c ∈ s ++ ['='], BashOffers.Harmless c := by
    intro s hs
    refine ⟨by simp, ?_⟩
    intro c hc
    rcases List.mem_append.mp hc with hc | hc
    · exact (h s hs).2 c hc
    · simp only [List.mem_singleton] at hc
      subst hc
      decide
  intro w hw
  unfold offeredStrings at hw
  simp only [List.mem_append] at hw
  rcases hw with hw | hw
  · exact h w (hsub w (.inl hw))
  · split at hw
    · rcases List.mem_append.mp hw with hw | hw
      · obtain ⟨s, hs, rfl⟩ := List.mem_map.mp hw
        exact heq s (hsub s (.inr (.inl hs)))
      · obtain ⟨s, hs, rfl⟩ := List.mem_map.mp hw
        exact heq s (hsub s (.inr (.inr hs)))
    · rcases List.mem_append.mp hw with hw | hw
      · exact h w (hsub w (.inr (.inl hw)))
      · exact h w (hsub w (.inr (.inr hw)))

theorem harmless_break {w : Str} (h : ∀ c ∈ w, BashOffers.Harmless c) : '\n' ∉ w := fun hm => by
  have := h _ hm
  revert this
  decide

end OffersLex

open OffersLex

open Classical in
/-- **C102** For every command, every state of the arrays and every word at the cursor: Bash can read the generated text; running
it returns from the function exactly if the word begins with `-` and the options have not ended; it adds to `COMPREPLY` exactly the
strings that have to be offered; and it asks for no space behind the word exactly if the first word in `COMPREPLY` ends with `=`.
Partial: option strings consist of letters, digits and `-_=+:,.@%/` (otherwise `compgen -W` changes them), the names of the
arrays are names of variables, the values in `when` have no line breaks, `when` is as in C08, and a command with final options (or a
parent with some) has an option that is not hidden. -/
theorem C102_offered_partial (isRegex : Str → Bool) (pre : Str) (hp : ∀ c ∈ pre, ZshLex.idChar c = true) (parents : List Cmd) (c : Cmd) (text : Str)
    (htext : optionStringsText isRegex pre parents c = .ok (some text))
    (hcheck : ∀ o ∈ c.data.options, o.check = true)
    (hname : ∀ o, o ∈ c.data.options ∨ FinalHere parents c o → isName (captureVariable o) = true)
    (hchars : ∀ o ∈ c.data.options, ∀ s ∈ o.strings, ∀ x ∈ s, BashOffers.Harmless x)
    (hvisible : (∃ o ∈ c.data.options, o.hidden = false) ∨ ∀ f, ¬ FinalHere parents c f)
    (rx : Bool → Str → Str → Bool) (env : Env) (henv : env.call = bashHelperCall pre rx) (l : Line) (varOf : Str → Str)
    (hvar : ∀ s o, c.data.options.find? (fun o => decide (s ∈ o.strings)) = some o → varOf s = captureVariable o)
    (hview : BashView varOf l ⟨env.arrays, env.arrays (S "POSITIONALS")⟩)
    (given : Opt → Prop)
    (hgiven : ∀ x, x ∈ c.data.options ∨ FinalHere parents c x → (env.arrays (captureVariable x) ≠ [] ↔ given x))
    (hwhen : ∀ o ∈ c.data.options, o.hidden = false → ∀ w, o.when_ = some w → ∀ ts, parseWhen isRegex w = .ok ts →
      (∃ e, Denotes ts e) ∧ ∀ c, .cmd c ∈ ts → condSafe c ∧ condLine c) :
    ∃ returns s, BashOffers.runText env text = some (returns, s) ∧
      (returns = true ↔ env.endOfOptions = false ∧ ['-'] <+: env.cur) ∧
      (∀ w, w ∈ s.added ↔ Offered parents c isRegex given (holdsEach (fun a b => varOf a == varOf b) rx l) env.endOfOptions env.cur w) ∧
      (s.nospace = true ↔ returns = true ∧ ∃ w r, env.before ++ s.added = w :: r ∧ ['='] <:+ w) := by
  unfold optionStringsText at htext
  split at htext
  · cases htext
  simp only [bind, Except.bind] at htext
  have efin : (getFinalOptions parents c).map (fun o => noneText (captureVariable o)) = ((getFinalOptions parents c).map captureVariable).map noneText := by
    rw [List.map_map]; rfl
  rw [efin] at htext
  generalize hfs : (getFinalOptions parents c).map captureVariable = finals at htext
  cases hm : mapE (textEntry isRegex pre c.data.options (finals.map noneText)) (c.data.options.filter (fun o => !o.hidden)) with
  | error e => rw [hm] at htext; cases htext
  | ok entries =>
    rw [hm] at htext
    simp only [Except.ok.injEq, Option.some.injEq] at htext
    obtain ⟨m1, m2, m3⟩ := mapE_mem hm
    obtain ⟨es, hes⟩ := mapE_total (f := optEntry isRegex c.data.options finals) (l := c.data.options.filter (fun o => !o.hidden)) (by
      intro o ho
      obtain ⟨te, -, hte⟩ := m1 o ho
      exact textEntry_code (List.mem_filter.mp ho).1 hte)
    obtain ⟨k1, k2, -⟩ := mapE_mem hes
    have hcode : optionCode isRegex parents c = .ok ⟨finals, optionLines es⟩ := by
      simp only [optionCode, bind, Except.bind, hfs, hes]
    have hnameO : ∀ o ∈ c.data.options, isName (captureVariable o) = true := fun o ho => hname o (.inl ho)
    have hval : ∀ o ∈ c.data.options, o.hidden = false → ∀ te e, textEntry isRegex pre c.data.options (finals.map noneText) o = .ok te →
        optEntry isRegex c.data.options finals o = .ok e →
        te.option = o ∧ e.option = o ∧ Value pre rx env te.full (lineRuns rx (stateOf env) e.full) := by
      intro o ho hh te e h1 h2
      exact entry_value hp ho h2 h1 hnameO hvar rx env hview (hwhen o ho hh)
    let val : Str → Bool := fun t => decide (Value pre rx env t true)
    have hvalue : ∀ {t b}, Value pre rx env t b → val t = b := by
      intro t b h
      cases b with
      | true => exact decide_eq_true h
      | false => exact decide_eq_false (fun q => by cases value_unique hp henv q h)
    have hvisO : ∀ te ∈ entries, ∃ o ∈ c.data.options, o.hidden = false ∧ textEntry isRegex pre c.data.options (finals.map noneText) o = .ok te := by
      intro te hte
      obtain ⟨o, ho, h⟩ := m2 te hte
      obtain ⟨ho1, ho2⟩ := List.mem_filter.mp ho
      exact ⟨o, ho1, by simpa using ho2, h⟩
    have hV : ∀ te ∈ entries, Value pre rx env te.full (val te.full) ∧ te.option ∈ c.data.options := by
      intro te hte
      obtain ⟨o, ho, hh, h⟩ := hvisO te hte
      obtain ⟨e, -, he⟩ := k1 o (by simp [ho, hh])
      obtain ⟨q1, -, q3⟩ := hval o ho hh te e h he
      rw [hvalue q3]
      exact ⟨q3, by rw [q1]; exact ho⟩
    have hstr : ∀ o ∈ c.data.options, ∀ s ∈ o.strings, s ≠ [] ∧ ∀ x ∈ s, BashOffers.Harmless x := by
      intro o ho s hs
      refine ⟨?_, hchars o ho s hs⟩
      have hc := hcheck o ho
      unfold Opt.check at hc
      simp only [Bool.and_eq_true, List.all_eq_true] at hc
      obtain ⟨_, a, as, he, _⟩ := (C15_accepted _).mp (hc.1.1.1.1.2 _ hs)
      rw [he]; simp
    have hwords : ∀ g ∈ groupBy TextEntry.full entries, ∀ w ∈ g.2.flatMap (fun e => offeredStrings e.option), w ≠ [] ∧ ∀ x ∈ w, BashOffers.Harmless x := by
      intro g hg w hw
      obtain ⟨e, he, hwe⟩ := List.mem_flatMap.mp hw
      exact offered_chars (hstr e.option (hV e ((group_member hg).2 e he)).2) w hwe
    have hps : ∀ p ∈ linePairs val entries, LineAdds env p.1 p.2 ∧ '\n' ∉ p.1 ∧ ∀ w ∈ p.2, w ≠ [] ∧ ∀ x ∈ w, BashOffers.Harmless x := by
      intro p hpm
      obtain ⟨g, hg, rfl⟩ := List.mem_map.mp hpm
      obtain ⟨⟨e, he, hek⟩, -⟩ := group_member hg
      have hvg := (hV e he).1
      rw [hek] at hvg
      have hnb : ∀ w ∈ g.2.flatMap (fun e => offeredStrings e.option), '\n' ∉ w := fun w hw => harmless_break (hwords g hg w hw).2
      refine ⟨line_adds hp henv hvg _ hnb, ?_, ?_⟩
      · have hjb := joinQuoted_nl hnb
        have htb : '\n' ∉ g.1 := by
          rcases hvg with ⟨h, -⟩ | ⟨-, h, -⟩
          · rw [h]; simp
          · exact h
        unfold condLineText
        split
        · simp only [List.mem_append, not_or]
          exact ⟨⟨by decide +kernel, hjb⟩, by decide +kernel⟩
        · simp only [List.mem_append, not_or]
          exact ⟨⟨htb, by decide +kernel⟩, ⟨by decide +kernel, hjb⟩, by decide +kernel⟩
      · intro w hw
        simp only at hw
        split at hw
        · exact hwords g hg w hw
        · cases hw
    have hfn : ∀ v ∈ finals, isName v = true := by
      intro v hv
      rw [← hfs] at hv
      obtain ⟨f, hf, rfl⟩ := List.mem_map.mp hv
      exact hname f (.inr (final_mem.mp hf))
    have hok : finals = [] ∨ linePairs val entries ≠ [] := by
      rcases hvisible with ⟨o, ho, hh⟩ | h
      · right
        rw [Ne, linePairs_nil]
        rintro rfl
        obtain ⟨y, hy, -⟩ := m1 o (by simp [ho, hh])
        cases hy
      · left
        rw [← hfs, List.map_eq_nil_iff, List.eq_nil_iff_forall_not_mem]
        exact fun f hf => h f (final_mem.mp hf)
    have hrun := whole_run (env := env) finals (linePairs val entries) hfn (fun p hq => (hps p hq).1) (fun p hq => (hps p hq).2.1) hok (fun p hq => (hps p hq).2.2)
    rw [linePairs_lines] at hrun
    have etext : text = wholeText (finals.map noneText) (optionStringLines entries) := htext.symm
    rw [← etext] at hrun
    have hoff := fun w => C47_offered_partial isRegex parents c _ hcode hcheck rx l (stateOf env) varOf hvar hview given hgiven
      (fun o ho hh w hw ts hts => ⟨(hwhen o ho hh w hw ts hts).1, fun c hc => ((hwhen o ho hh w hw ts hts).2 c hc).1⟩) env.endOfOptions env.cur w
    by_cases hcond : env.endOfOptions = false ∧ ['-'] <+: env.cur
    · rw [if_pos hcond] at hrun
      refine ⟨_, _, hrun, by simp [hcond], ?_, ?_⟩
      · intro w
        rw [← hoff w]
        unfold OptionCode.offers
        have hb : (!env.endOfOptions && startsWith env.cur ['-']) = true := by
          rw [Bool.and_eq_true, startsWith_prefix]
          exact ⟨by simp [hcond.1], hcond.2⟩
        rw [hb]
        simp only [if_true, List.mem_filter, decide_eq_true_eq, startsWith_prefix]
        refine and_congr_left (fun _ => ?_)
        show (w ∈ if finals.all (fun v => (env.arrays v).isEmpty) = true then _ else _) ↔ (w ∈ if finals.all (fun v => (env.arrays v).isEmpty) = true then _ else _)
        split
        · rw [linePairs_mem, optionLines_mem]
          constructor
          · rintro ⟨te, hte, hv, hw⟩
            obtain ⟨o, ho, hh, h⟩ := hvisO te hte
            obtain ⟨e, hem, he⟩ := k1 o (by simp [ho, hh])
            obtain ⟨q1, q2, q3⟩ := hval o ho hh te e h he
            rw [hvalue q3] at hv
            exact ⟨e, hem, hv, by rw [q2, ← q1]; exact hw⟩
          · rintro ⟨e, hem, hv, hw⟩
            obtain ⟨o, ho, he⟩ := k2 e hem
            obtain ⟨ho1, ho2⟩ := List.mem_filter.mp ho
            obtain ⟨te, hte, h⟩ := m1 o ho
            obtain ⟨q1, q2, q3⟩ := hval o ho1 (by simpa using ho2) te e h he
            exact ⟨te, hte, by rw [hvalue q3]; exact hv, by rw [q1, ← q2]; exact hw⟩
        · rfl
      · simp only [decide_eq_true_eq, true_and]
        constructor
        · intro h
          cases hb : env.before ++ List.filter (fun w => decide (env.cur <+: w))
              (if finals.all (fun v => (env.arrays v).isEmpty) = true then (linePairs val entries).flatMap (·.2) else []) with
          | nil => rw [hb] at h; simp at h
          | cons w r => rw [hb] at h; exact ⟨w, r, rfl, h⟩
        · rintro ⟨w, r, h1, h2⟩
          rw [h1]
          exact h2
    · rw [if_neg hcond] at hrun
      refine ⟨_, _, hrun, by simp [hcond], ?_, by simp⟩
      intro w
      simp only [List.not_mem_nil, false_iff]
      rintro ⟨a, b, -⟩
      exact hcond ⟨a, b⟩

/-- **C102, what Bash cannot read** If all options of a command are hidden and the command or a parent has a final option, Bash cannot
read the text (the body of an `if` is empty), so that the whole script fails. -/
theorem C102_unreadable (isRegex : Str → Bool) (pre : Str) (parents : List Cmd) (c : Cmd) (text : Str)
    (htext : optionStringsText isRegex pre parents c = .ok (some text))
    (hname : ∀ f, FinalHere parents c f → isName (captureVariable f) = true)
    (hhidden : ∀ o ∈ c.data.options, o.hidden = true) (hfinal : ∃ f, FinalHere parents c f) (env : Env) :
    BashOffers.runText env text = none := by
  unfold optionStringsText at htext
  split at htext
  · cases htext
  have hno : c.data.options.filter (fun o => !o.hidden) = [] := by
    rw [List.filter_eq_nil_iff]
    intro o ho
    simp [hhidden o ho]
  rw [hno] at htext
  simp only [bind, Except.bind, mapE, Except.ok.injEq, Option.some.injEq] at htext
  have efin : (getFinalOptions parents c).map (fun o => noneText (captureVariable o)) = ((getFinalOptions parents c).map captureVariable).map noneText := by
    rw [List.map_map]; rfl
  have e : text = wholeText (((getFinalOptions parents c).map captureVariable).map noneText) [] := by
    rw [← htext, efin]; rfl
  rw [e]
  apply whole_unreadable
  · obtain ⟨f, hf⟩ := hfinal
    intro h
    rw [List.map_eq_nil_iff] at h
    have := final_mem.mpr hf
    rw [h] at this
    cases this
  · intro v hv
    obtain ⟨f, hf, rfl⟩ := List.mem_map.mp hv
    exact hname f (final_mem.mp hf)

/-! ## Examples -/

/-- The arrays, with the given ones set. -/
def exampleOfferEnv (given : List Str) (cur : Str) : Env :=
  { arrays := fun v => if given.contains v then [S "_OPT_ISSET_"] else [], endOfOptions := false, cur := cur,
    call := bashHelperCall (S "_prog") (fun _ _ _ => false), before := [] }

/-- The text for the example of C47. -/
def exampleOfferText : Str := S "if (( ! END_OF_OPTIONS )) && [[ \"$cur\" = -* ]]; then
  local -a opts
  if (( ! ${#OPT_help[@]} )); then
    opts+=(-v --verbose --help)
    (( ! ${#OPT_in[@]} && ! ${#OPT_out[@]} )) && opts+=(--in --out=)
    (( ! ${#OPT_level[@]} )) && { (( ${#OPT_verbose[@]} )) || (( ${#POSITIONALS[@]} > 1 )); } && opts+=(--level)
  fi
  COMPREPLY+=($(compgen -W \"${opts[*]}\" -- \"$cur\"))
  [[ ${COMPREPLY-} == *= ]] && compopt -o nospace
  return 1
fi"

theorem C102_example_text : (optionStringsText (fun _ => true) (S "_prog") [] exampleOffers).toOption = some (some exampleOfferText) := by
  simp only [optionStringsText, exampleOffers, Cmd.data, List.filter, mapE, textEntry, example_when, Bool.not_false, Bool.not_true]
  decide +kernel

theorem C102_example_run :
    BashOffers.runText (exampleOfferEnv [] (S "-")) exampleOfferText =
      some (true, ⟨[S "-v", S "--verbose", S "--help", S "--in", S "--out="], [S "-v", S "--verbose", S "--help", S "--in", S "--out="], false⟩) ∧
    BashOffers.runText (exampleOfferEnv [S "OPT_verbose", S "OPT_in"] (S "--l")) exampleOfferText =
      some (true, ⟨[S "-v", S "--verbose", S "--help", S "--level"], [S "--level"], false⟩) ∧
    BashOffers.runText (exampleOfferEnv [] (S "--o")) exampleOfferText =
      some (true, ⟨[S "-v", S "--verbose", S "--help", S "--in", S "--out="], [S "--out="], true⟩) ∧
    BashOffers.runText (exampleOfferEnv [S "OPT_help"] (S "-")) exampleOfferText = some (true, {}) ∧
    BashOffers.runText (exampleOfferEnv [] (S "x")) exampleOfferText = some (false, {}) := by
  decide +kernel

/-- The example meets the conditions. -/
theorem C102_example_hypotheses :
    (∀ o ∈ exampleOffers.data.options, o.check = true ∧ isName (captureVariable o) = true ∧ (∀ s ∈ o.strings, ∀ x ∈ s, BashOffers.Harmless x)) ∧
    (∃ o ∈ exampleOffers.data.options, o.hidden = false) ∧ (∃ f, FinalHere [] exampleOffers f) ∧
    ∀ o ∈ exampleOffers.data.options, o.hidden = false → ∀ w, o.when_ = some w → ∀ ts, parseWhen (fun _ => true) w = .ok ts →
      (∃ e, Denotes ts e) ∧ ∀ c, .cmd c ∈ ts → condSafe c ∧ condLine c := by
  refine ⟨by decide +kernel, by decide +kernel, ⟨{ strings := [S "--help"], final := true, repeatable := .val false }, rfl, .inl (by decide +kernel)⟩, ?_⟩
  intro o ho hh w hw ts hts
  obtain ⟨h1, h2⟩ := C47_example_hypotheses.2 o ho hh w hw ts hts
  refine ⟨h1, fun c hc => ⟨h2 c hc, ?_⟩⟩
  have : w = S "has_option -v || positional_count '>' 1" := by
    simp only [exampleOffers, Cmd.data, List.mem_cons, List.not_mem_nil, or_false] at ho
    rcases ho with rfl | rfl | rfl | rfl | rfl | rfl <;> simp at hw
    exact hw.symm
  subst this
  rw [example_when] at hts
  cases hts
  simp at hc
  rcases hc with rfl | rfl <;> simp [condLine]

/-- A command whose only option is hidden and final. -/
def exampleHiddenOffers : Cmd := .node { prog := S "prog", options := [{ strings := [S "--help"], final := true, hidden := true, repeatable := .val false }] } none []

theorem C102_unreadable_example : ∃ text, (optionStringsText (fun _ => true) (S "_prog") [] exampleHiddenOffers).toOption = some (some text) ∧
    BashOffers.runText (exampleOfferEnv [] (S "-")) text = none := by
  refine ⟨S "if (( ! END_OF_OPTIONS )) && [[ \"$cur\" = -* ]]; then
  local -a opts
  if (( ! ${#OPT_help[@]} )); then

  fi
  COMPREPLY+=($(compgen -W \"${opts[*]}\" -- \"$cur\"))
  [[ ${COMPREPLY-} == *= ]] && compopt -o nospace
  return 1
fi", by decide +kernel, by decide +kernel⟩

end CC
