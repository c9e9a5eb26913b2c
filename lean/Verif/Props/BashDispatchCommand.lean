import Verif.Props.BashDispatchText
import Verif.Props.BashFunction
/-!
# C105 for the commands of a definition
-/

namespace CC

open BashText (isName)
open DispatchLex (OldString)
open ShellGrammar (Denotes)
open WhenSpec
open OffersLex (condLine)

/-- The options that a command has or, if it inherits options, sees, `bash_option_completion.py` 202-203. -/
def seenOptions (parents : List Cmd) (c : Cmd) : List Opt := getOptions parents c (decide (c.data.inheritOptions = .val true)) false

/-- Option strings that stand for themselves in the patterns. -/
structure PlainString (s : Str) : Prop where
  valid : isValidOptionString s = true
  plain : ∀ x ∈ s, PlainChar x
  letter : s.length = 2 → ∀ x ∈ s.tail, PlainLetter x

namespace DispatchLex

theorem short_is {s : Str} (h : isValidOptionString s = true) (hs : isShortOptionString s = true) : ∃ c, s = ['-', c] ∧ c ≠ '-' := by
  simp only [isShortOptionString, beq_iff_eq] at hs
  rcases C15_exactly_one s h with h | h | h
  · exact h.1
  · obtain ⟨c, cs, rfl⟩ := h.2.1
    simp at hs
  · obtain ⟨c, d, cs, rfl, -⟩ := h.2.2
    simp at hs

theorem letters_mem {os : List Opt} (h : ∀ o ∈ os, ∀ s ∈ o.strings, PlainString s) : ∀ c ∈ shortLetters os, PlainLetter c := by
  intro c hc
  unfold shortLetters at hc
  obtain ⟨o, ho, hc⟩ := List.mem_flatMap.mp hc
  obtain ⟨s, hs, hc⟩ := List.mem_flatMap.mp hc
  obtain ⟨hs1, hs2⟩ := List.mem_filter.mp hs
  have hp := h o ho s hs1
  obtain ⟨d, rfl, hd⟩ := short_is hp.valid hs2
  rw [short_letter hd] at hc
  subst hc
  exact hp.letter rfl c (by simp)

theorem letters_ne {os : List Opt} (h : ∀ o ∈ os, ∀ s ∈ o.strings, PlainString s) {o : Opt} (ho : o ∈ os) (hs : o.shortStrings ≠ []) : shortLetters os ≠ [] := by
  obtain ⟨s, hm⟩ := List.exists_mem_of_ne_nil _ hs
  obtain ⟨hs1, hs2⟩ := List.mem_filter.mp hm
  obtain ⟨d, rfl, hd⟩ := short_is (h o ho s hs1).valid hs2
  have : d ∈ shortLetters os := List.mem_flatMap.mpr ⟨o, ho, List.mem_flatMap.mpr ⟨_, hm, (short_letter hd).mpr rfl⟩⟩
  exact List.ne_nil_of_mem this

theorem own_args {root : Cmd} {parents : List Cmd} {c : Cmd} (hat : At root parents c) {o : Opt} (h : o ∈ getOptions parents c false true) :
    o ∈ seenOptions parents c ∧ o.complete.isSome = true := by
  obtain ⟨pre, x, post, h1, h2, -⟩ := (C16_mem root parents c hat false true o).mp h
  have hx : x = c := by
    simp only [searched, Bool.false_eq_true, if_false] at h1
    cases pre with
    | nil => simp at h1; exact h1.1.symm
    | cons y r => simp at h1
  subst hx
  obtain ⟨h3, h4⟩ := List.mem_filter.mp h2
  refine ⟨own_in_all hat _ h3, ?_⟩
  cases hc : o.complete with
  | none => rw [hc] at h4; simp [truthyList] at h4
  | some l => rfl

theorem old_names {parents : List Cmd} {c : Cmd} {ss l : List Str} (h : optionNames parents c ss = .ok l) (hs : ∀ s ∈ ss, PlainString s ∧ isOldOptionString s = true) :
    ∀ s ∈ l, OldString s := by
  intro s hm
  rw [optionNames_eq h] at hm
  obtain ⟨w, hw, hpre, hlen⟩ := mem_namesOf hm
  obtain ⟨hp, ho⟩ := hs w hw
  simp only [isOldOptionString, Bool.and_eq_true, Bool.not_eq_true', decide_eq_true_eq] at ho
  obtain ⟨x, y, t, rfl, hx⟩ : IsOld w := by
    rcases C15_exactly_one w hp.valid with h | h | h
    · obtain ⟨x, rfl, -⟩ := h.1
      simp at ho
    · obtain ⟨x, xs, rfl⟩ := h.2.1
      simp [startsWith] at ho
    · exact h.2.2
  have h3 : 3 ≤ s.length := by
    rcases hlen with rfl | h
    · simp
    · exact h
  obtain ⟨r, hr⟩ := hpre
  match s, h3, hr with
  | a :: b :: d :: u, _, hr =>
    simp only [List.cons_append, List.cons.injEq] at hr
    obtain ⟨rfl, rfl, rfl, rfl⟩ := hr
    refine ⟨b, d :: u, rfl, hx, ?_⟩
    intro z hz
    apply hp.plain
    rcases List.mem_cons.mp hz with rfl | hz
    · simp
    · rcases List.mem_cons.mp hz with rfl | hz <;> simp_all

/-- What the dispatcher of a command knows is fine. -/
theorem info_good {root : Cmd} {parents : List Cmd} {c : Cmd} (hat : At root parents c) {i : DispatchInfo} (hi : dispatchInfo parents c = .ok i)
    (hstr : ∀ o ∈ seenOptions parents c, ∀ s ∈ o.strings, PlainString s) (hne : ∀ o ∈ seenOptions parents c, o.strings ≠ []) :
    (∀ x ∈ i.noArgs ++ i.requiredArgs ++ i.optionalArgs, PlainLetter x) ∧ (i.shortRequired = true → i.requiredArgs ≠ []) ∧
    (i.shortOptional = true → i.requiredArgs ++ i.optionalArgs ≠ []) ∧ (∀ s ∈ i.oldStrings, OldString s) ∧
    (getOptions parents c false true ≠ [] → (i.shortRequired || i.longRequired || i.oldRequired || (i.shortOptional || i.longOptional || i.oldOptional)) = true) := by
  simp only [dispatchInfo, bind, Except.bind] at hi
  cases ho : optionNames parents c ((getOptions parents c (decide (c.data.inheritOptions = .val true)) false).flatMap (fun o => o.oldStrings)) with
  | error e => rw [ho] at hi; cases hi
  | ok old =>
    rw [ho] at hi
    simp only [Except.ok.injEq] at hi
    subst hi
    have hsub : ∀ p : Opt → Bool, ∀ o ∈ (getOptions parents c (decide (c.data.inheritOptions = .val true)) false).filter p, ∀ s ∈ o.strings, PlainString s :=
      fun p o h => hstr o (List.mem_filter.mp h).1
    refine ⟨?_, ?_, ?_, ?_, ?_⟩
    · intro x hx
      simp only [List.mem_append] at hx
      rcases hx with (hx | hx) | hx <;> exact letters_mem (hsub _) x hx
    · intro h
      simp only [List.any_eq_true, Bool.and_eq_true, Bool.not_eq_true'] at h
      obtain ⟨o, hm, ⟨h1, -⟩, h3⟩ := h
      exact letters_ne (hsub _) (List.mem_filter.mpr ⟨(own_args hat hm).1, h3⟩) (by simpa using h1)
    · intro h
      simp only [List.any_eq_true, Bool.and_eq_true, Bool.not_eq_true'] at h
      obtain ⟨o, hm, h1, h3⟩ := h
      have hr : o.hasRequiredArg = false := by
        simp only [Opt.hasOptionalArg, Bool.and_eq_true] at h3
        simp [Opt.hasRequiredArg, h3.2]
      have := letters_ne (hsub (fun o => !o.hasRequiredArg && o.hasOptionalArg)) (List.mem_filter.mpr ⟨(own_args hat hm).1, by simp [hr, h3]⟩) (by simpa using h1)
      intro e
      exact this (List.append_eq_nil_iff.mp e).2
    · refine old_names ho ?_
      intro s hs
      obtain ⟨o, hm, hs⟩ := List.mem_flatMap.mp hs
      obtain ⟨h1, h2⟩ := List.mem_filter.mp hs
      exact ⟨hstr o hm s h1, h2⟩
    · intro h
      obtain ⟨o, hm⟩ := List.exists_mem_of_ne_nil _ h
      obtain ⟨ha, hc⟩ := own_args hat hm
      obtain ⟨s, hs⟩ := List.exists_mem_of_ne_nil _ (hne o ha)
      have hv := (hstr o ha s hs).valid
      have key : o.shortStrings ≠ [] ∨ o.longStrings ≠ [] ∨ o.oldStrings ≠ [] := by
        rcases C15_exactly_one s hv with h | h | h
        · obtain ⟨x, rfl, -⟩ := h.1
          exact .inl (List.ne_nil_of_mem (List.mem_filter.mpr ⟨hs, rfl⟩))
        · obtain ⟨x, xs, rfl⟩ := h.2.1
          exact .inr (.inl (List.ne_nil_of_mem (List.mem_filter.mpr ⟨hs, by simp [isLongOptionString, startsWith]⟩)))
        · obtain ⟨x, y, xs, rfl, hx⟩ := h.2.2
          exact .inr (.inr (List.ne_nil_of_mem (List.mem_filter.mpr ⟨hs, by simp [isOldOptionString, startsWith, hx]⟩)))
      have harg : (o.hasOptionalArg = true ∧ o.hasRequiredArg = false) ∨ (o.hasOptionalArg = false ∧ o.hasRequiredArg = true) := by
        unfold Opt.hasOptionalArg Opt.hasRequiredArg
        rw [hc]
        cases o.optionalArg <;> simp
      have hany : ∀ p : Opt → Bool, p o = true → (getOptions parents c false true).any p = true := fun p hp => List.any_eq_true.mpr ⟨o, hm, hp⟩
      simp only [Bool.or_eq_true]
      rcases harg with ⟨h1, h2⟩ | ⟨h1, h2⟩ <;> rcases key with k | k | k
      · exact .inr (.inl (.inl (hany _ (by simp [k, h1]))))
      · exact .inr (.inl (.inr (hany _ (by simp [k, h1]))))
      · exact .inr (.inr (hany _ (by simp [k, h1])))
      · exact .inl (.inl (.inl (hany _ (by simp [k, h1, h2]))))
      · exact .inl (.inl (.inr (hany _ (by simp [k, h1, h2]))))
      · exact .inl (.inr (hany _ (by simp [k, h1, h2])))

end DispatchLex

/-- The two texts that are written for the arguments of the options of a command, and what they are run with: `text` defines `__complete_option`, `dispatcher` calls
it; the options have plain strings, and the code of their completers can stand in a function; conditions are written with the names of variables as in C104. -/
structure OptionTexts (root : Cmd) (parents : List Cmd) (c : Cmd) (E : BEnv) (isRegex : Str → Bool) (rx : Bool → Str → Str → Bool) (env : BashOffers.Env) (l : Line)
    (prefixed text dispatcher : Str) : Prop where
  place : At root parents c
  clean : CleanOptions root
  completers : HasCompleters c
  plain : ∀ o ∈ seenOptions parents c, ∀ s ∈ o.strings, PlainString s
  strings : ∀ o ∈ seenOptions parents c, o.strings ≠ []
  numbers : NoNumericClash (fun w => ∃ o ∈ getOptions parents c false true, NamesOption parents c w o)
  codes : ∀ o ∈ c.data.options, CompleteCode (E.optCode c o)
  helper : isName prefixed = true
  written : ∃ pre options os i varOf, (∀ x ∈ pre, ZshLex.idChar x = true) ∧ mapE (argOpt (E.optCode c) parents c) (getOptions parents c false true) = .ok os ∧
    dispatchInfo parents c = .ok i ∧ masterText isRegex pre options os (S "__complete_option") = .ok (some text) ∧
    dispatcher = dispatcherText (os.any (fun o => o.optional)) prefixed i ∧ (∀ o ∈ options, isName (captureVariable o) = true) ∧
    env.call = bashHelperCall pre rx ∧ (∀ s o, options.find? (fun o => decide (s ∈ o.strings)) = some o → varOf s = captureVariable o) ∧
    BashView varOf l ⟨env.arrays, env.arrays (S "POSITIONALS")⟩ ∧
    ∀ o ∈ c.data.options, ∀ w, o.when_ = some w →
      (∀ ts, parseWhen isRegex w = .ok ts → (∃ e, Denotes ts e) ∧ ∀ c, .cmd c ∈ ts → condSafe c ∧ condLine c) ∧
      (E.holds c w = true ↔ WhenTrue isRegex (holdsEach (fun a b => varOf a == varOf b) rx l) w)

section
variable {root : Cmd} {parents : List Cmd} {c : Cmd} {E : BEnv} {isRegex : Str → Bool} {rx : Bool → Str → Str → Bool} {env : BashOffers.Env} {l : Line}
  {prefixed text dispatcher : Str} (h : OptionTexts root parents c E isRegex rx env l prefixed text dispatcher)
include h

theorem DispatchLex.texts_run (prev cur : Str) :
    BashDispatch.runText (scriptEnv env text prefixed) dispatcher prev cur = some ((ownDispatch E parents c prev cur).1.map argLines, (ownDispatch E parents c prev cur).2) ∧
    ∀ ln : BLine, ln.prev = prev → ln.cur = cur → runOptionCompletion E ln parents c = .ok (ownDispatch E parents c prev cur) := by
  obtain ⟨hat, ho, hk, hstr, hne, hnum, hcode, hpn, pre, options, os, i, varOf, hp, hos, hi, htext, rfl, hname, henv, hvar, hview, hw⟩ := h
  have hos' : os ≠ [] := by
    rintro rfl
    simp [masterText, masterOf, masterNoWhen, addOptionsNoWhen, mapE, bind, Except.bind] at htext
  have hown : getOptions parents c false true ≠ [] := by
    intro e
    rw [e] at hos
    simp only [mapE, Except.ok.injEq] at hos
    exact hos' hos.symm
  obtain ⟨g1, g2, g3, g4, g5⟩ := info_good hat hi hstr hne
  have heq := (mapE_eq (fun x y => argOpt_eq) hos).1
  have mem : ∀ a ∈ os, ∃ o, o ∈ getOptions parents c false true ∧ o ∈ c.data.options ∧ a = argOf (E.optCode c) parents c o := by
    intro a ha
    rw [heq] at ha
    obtain ⟨o, hm, rfl⟩ := List.mem_map.mp ha
    exact ⟨o, hm, ((mem_own hat true o).mp hm).1, rfl⟩
  have names : ∀ o ∈ c.data.options, ∀ s, s ∈ (argOf (E.optCode c) parents c o).strings ↔ NamesOption parents c s o := fun o hm s => argOf_names ho hat hm s
  have key := C105_with_function_partial isRegex pre hp options os text htext hname hos' ?_ ?_ ?_ ?_ ?_ rx env henv l varOf hvar hview ?_ (E.holds c) ?_
    prefixed hpn i (g5 hown) g1 g2 g3 g4 prev cur
  · have h1 : ownDispatch E parents c prev cur = runDispatcher i (completeOption (E.holds c) os) prev cur := by
      rw [dispatchInfo_eq hi, heq]
    refine ⟨by rw [key, h1], ?_⟩
    rintro ln rfl rfl
    simp only [runOptionCompletion, bind, Except.bind, hos, hi]
    rw [if_neg (by simpa using hos'), h1]
  · intro a ha
    obtain ⟨o, -, hm, rfl⟩ := mem a ha
    obtain ⟨s, hs⟩ := List.exists_mem_of_ne_nil _ (hne o (own_in_all hat _ hm))
    exact List.ne_nil_of_mem ((names o hm s).mpr ⟨hm, .inl hs⟩)
  · intro a ha s hs
    obtain ⟨o, -, hm, rfl⟩ := mem a ha
    have hn := (names o hm s).mp hs
    refine ⟨(names_shape ho hat hn).2.2, ?_⟩
    rcases hn.2 with hs | ⟨-, -, w, hw, -, hpre, -⟩
    · exact (hstr o (own_in_all hat _ hm) s hs).plain
    · exact fun x hx => (hstr o (own_in_all hat _ hm) w hw).plain x (hpre.subset hx)
  · intro a x y hx hy
    refine hnum a x y ?_ ?_
    · obtain ⟨b, hb, hs⟩ := hx
      obtain ⟨o, hg, hm, rfl⟩ := mem b hb
      exact ⟨o, hg, (names o hm _).mp hs⟩
    · obtain ⟨b, hb, hs⟩ := hy
      obtain ⟨o, hg, hm, rfl⟩ := mem b hb
      exact ⟨o, hg, (names o hm _).mp hs⟩
  · intro a ha
    obtain ⟨o, -, hm, rfl⟩ := mem a ha
    exact hcode o hm
  · intro a ha b hb s h1 h2
    rw [heq] at ha hb
    exact own_single ho hat (E.optCode c) a ha b hb s h1 h2
  · intro a ha w hc
    obtain ⟨o, -, hm, rfl⟩ := mem a ha
    exact (hw o hm w hc).1
  · intro a ha w hc
    obtain ⟨o, -, hm, rfl⟩ := mem a ha
    exact (hw o hm w hc).2

/-- For a command of a definition, running the two texts does what the model says about the part of its function that completes the arguments of options.
What is missing is as in `C104_as_modelled_partial` and `C105_as_modelled_partial`. -/
theorem C105_command_partial (ln : BLine) :
    ∃ r, runOptionCompletion E ln parents c = .ok r ∧ BashDispatch.runText (scriptEnv env text prefixed) dispatcher ln.prev ln.cur = some (r.1.map argLines, r.2) := by
  obtain ⟨h1, h2⟩ := DispatchLex.texts_run h ln.prev ln.cur
  exact ⟨_, h2 ln rfl rfl, h1⟩

/-- If the word before is the name of an option that must have an argument, or a cluster of flags that ends with its letter, then running the texts runs the code of that
option for the word at the cursor, and nothing else. -/
theorem C105_next_partial {o : Opt} {n prev : Str} (cur : Str) (hn : NamesOption parents c n o) (hr : o.kind = .required) (hw : WhenMet E c o)
    (hp : (prev = n ∧ (IsLong n ∨ IsOld n)) ∨
      ∃ cs x, n = ['-', x] ∧ prev = '-' :: (cs ++ [x]) ∧ (cs ++ [x]).head? ≠ some '-' ∧ ListedFlags parents c cs ∧
        (cs ≠ [] → ∀ o', ¬ NamesOption parents c prev o')) :
    BashDispatch.runText (scriptEnv env text prefixed) dispatcher prev cur = some ([(clauseLines (E.optCode c o), cur, [])], true) := by
  rw [(DispatchLex.texts_run h prev cur).1, dispatch_next h.clean h.place h.completers E cur hn hr hw hp]
  rfl

/-- If the word at the cursor is `--name=VALUE` or `-old=VALUE`, then running the texts runs the code of that option for VALUE, and nothing else. -/
theorem C105_equals_partial {o : Opt} {n prev : Str} (v : Str) (hq : Quiet parents c prev) (hna : NotAllOptional c)
    (hn : NamesOption parents c n o) (hf : o.kind ≠ .flag) (hw : WhenMet E c o) (hst : IsLong n ∨ IsOld n) :
    BashDispatch.runText (scriptEnv env text prefixed) dispatcher prev (n ++ '=' :: v) = some ([(clauseLines (E.optCode c o), v, [])], true) := by
  rw [(DispatchLex.texts_run h prev _).1, dispatch_eq h.clean h.place h.completers E v hq hna hn hf hw hst]
  rfl

/-- If the word at the cursor is `-xyoVALUE`, where `x` and `y` are flags and `o` has an argument, then running the texts runs the code of `-o` for VALUE with the prefix
`-xyo`, and nothing else. -/
theorem C105_attached_partial {o : Opt} {prev : Str} (cs : Str) (x : Char) (v : Str) (hq : Quiet parents c prev) (hna : NotAllOptional c)
    (hn : NamesOption parents c ['-', x] o) (hf : o.kind ≠ .flag) (hw : WhenMet E c o) (hd : (cs ++ [x]).head? ≠ some '-')
    (hl : ListedFlags parents c cs) (hcs : ∀ y ∈ cs, ∀ o', NamesOption parents c ['-', y] o' → o'.kind = .flag)
    (hold : ∀ o' ∈ getOptions parents c (decide (Inherits c)) false, ∀ s ∈ o'.strings, IsOld s → ¬ ('-' :: (cs ++ x :: v)) <+: s)
    (heq : ∀ s t, '-' :: (cs ++ x :: v) = s ++ '=' :: t → ∀ o', ¬ NamesOption parents c s o') :
    BashDispatch.runText (scriptEnv env text prefixed) dispatcher prev ('-' :: (cs ++ x :: v)) =
      some ([(clauseLines (E.optCode c o), v, '-' :: (cs ++ [x]))], true) := by
  rw [(DispatchLex.texts_run h prev _).1, dispatch_attached h.clean h.place h.completers E cs x v hq hna hn hf hw hd hl hcs hold ?_]
  · rfl
  · intro o'
    by_cases h : '=' ∈ cs ++ x :: v
    · left
      have h' : '=' ∈ '-' :: (cs ++ x :: v) := List.mem_cons_of_mem _ h
      have : ∃ s t, '-' :: (cs ++ x :: v) = s ++ '=' :: t ∧ '=' ∉ s := by
        generalize '-' :: (cs ++ x :: v) = l at h'
        induction l with
        | nil => cases h'
        | cons a l ih =>
          by_cases ha : a = '='
          · exact ⟨[], l, by rw [ha]; rfl, by simp⟩
          · obtain ⟨s, t, h1, h2⟩ := ih (by
              rcases List.mem_cons.mp h' with h | h
              · exact absurd h.symm ha
              · exact h)
            exact ⟨a :: s, t, by rw [h1]; rfl, by
              intro h
              rcases List.mem_cons.mp h with h | h
              · exact ha h.symm
              · exact h2 h⟩
      obtain ⟨s, t, h1, h2⟩ := this
      rw [h1, beforeEq_append h2]
      exact heq s t h1 o'
    · exact Or.inr h

end

/-! ## An example -/

/-- Every completer is `files`. -/
def filesEnv : BEnv := ⟨fun _ _ => S "files", fun _ _ => S "files", fun _ _ => true⟩

/-- The option of `prog run` that has an argument. -/
def runArms : List ArgOpt := [⟨[S "-o", S "--out"], false, none, S "files"⟩]

/-- The shell when `prog run` has no options and no positionals. -/
def quietShell : BashOffers.Env := ⟨fun _ => [], false, [], bashHelperCall (S "_prog") (fun _ _ _ => false), []⟩

theorem toOption_some {α : Type} {x : Except Err α} {a : α} (h : x.toOption = some a) : x = .ok a := by
  cases x with
  | error e => cases h
  | ok b => cases h; rfl

theorem run_names {w : Str} {o : Opt} (h : NamesOption [scriptRoot] scriptRun w o) : o ∈ scriptRun.data.options ∧ w ∈ o.strings := by
  refine ⟨h.1, ?_⟩
  rcases h.2 with h | ⟨h, -⟩
  · exact h
  · exact absurd h (by decide)

/-- The texts for the command `run` of `prog`, with the options `-q` and `-o|--out FILE`, meet the conditions. -/
theorem run_texts : ∃ text dispatcher,
    OptionTexts scriptRoot [scriptRoot] scriptRun filesEnv (fun _ => true) (fun _ _ _ => false) quietShell ⟨[], []⟩ (S "_prog__prefix_compreply") text dispatcher := by
  have hos : mapE (argOpt (filesEnv.optCode scriptRun) [scriptRoot] scriptRun) (getOptions [scriptRoot] scriptRun false true) = .ok runArms :=
    toOption_some (by decide +kernel)
  have hi : (dispatchInfo [scriptRoot] scriptRun).toOption.isSome = true := by decide +kernel
  obtain ⟨i, hi⟩ := Option.isSome_iff_exists.mp hi
  have hi := toOption_some hi
  have ht : ((masterText (fun _ => true) (S "_prog") scriptRun.data.options runArms (S "__complete_option")).toOption.bind id).isSome = true := by decide +kernel
  obtain ⟨text, ht⟩ := Option.isSome_iff_exists.mp ht
  have ht' : masterText (fun _ => true) (S "_prog") scriptRun.data.options runArms (S "__complete_option") = .ok (some text) := by
    cases h : masterText (fun _ => true) (S "_prog") scriptRun.data.options runArms (S "__complete_option") with
    | error e => rw [h] at ht; cases ht
    | ok t => rw [h] at ht; cases t <;> cases ht; rfl
  have hat : At scriptRoot [scriptRoot] scriptRun := .child .root (by simp [scriptRoot, Cmd.children])
  have h : ∀ o ∈ seenOptions [scriptRoot] scriptRun, ∀ s ∈ o.strings, isValidOptionString s = true ∧ (∀ x ∈ s, PlainChar x) ∧ (s.length = 2 → ∀ x ∈ s.tail, PlainLetter x) := by
    unfold PlainChar PlainLetter; decide +kernel
  refine ⟨text, dispatcherText (runArms.any (fun o => o.optional)) (S "_prog__prefix_compreply") i, hat, script_clean.2.2, script_hasCompleters.2,
    fun o ho s hs => ⟨(h o ho s hs).1, (h o ho s hs).2.1, (h o ho s hs).2.2⟩, by decide +kernel, ?_, ?_, by decide +kernel, S "_prog", scriptRun.data.options, runArms, i,
    fun s => match scriptRun.data.options.find? (fun o => decide (s ∈ o.strings)) with
      | some o => captureVariable o
      | none => [], by decide +kernel, hos, hi, ht', rfl, by decide +kernel, rfl, ?_, ⟨fun _ => rfl, rfl⟩, ?_⟩
  · have hn := C95_no_numbers [S "-o", S "--out"] (by decide +kernel)
    have hl : ∀ w, (∃ o ∈ getOptions [scriptRoot] scriptRun false true, NamesOption [scriptRoot] scriptRun w o) → w ∈ [S "-o", S "--out"] := by
      rintro w ⟨o, ho, hw⟩
      have hg : ∀ o ∈ getOptions [scriptRoot] scriptRun false true, ∀ s ∈ o.strings, s ∈ [S "-o", S "--out"] := by decide +kernel
      exact hg o ho w (run_names hw).2
    exact fun a x y hx hy => hn a x y (hl _ hx) (hl _ hy)
  · intro o ho
    show CompleteCode (S "files")
    exact .inr ⟨by decide +kernel, S "files", 's', by decide +kernel, by decide +kernel, by decide +kernel, by decide +kernel, by decide +kernel, by decide +kernel, by decide +kernel⟩
  · intro s o hf
    simp only [hf]
  · intro o ho w hw
    have : ∀ o ∈ scriptRun.data.options, o.when_ = none := by decide +kernel
    rw [this o ho] at hw
    cases hw

/-- The option `-o|--out FILE` of `run`. -/
def outOption : Opt := { strings := [S "-o", S "--out"], complete := some [.str (S "file")] }

/-- For the texts of `run`, `files` is called for the word `x` after `--out`, and for `file` with the prefix `-qo` if the word is `-qofile`. -/
theorem C105_command_example : ∃ text dispatcher,
    OptionTexts scriptRoot [scriptRoot] scriptRun filesEnv (fun _ => true) (fun _ _ _ => false) quietShell ⟨[], []⟩ (S "_prog__prefix_compreply") text dispatcher ∧
    BashDispatch.runText (scriptEnv quietShell text (S "_prog__prefix_compreply")) dispatcher (S "--out") (S "x") = some ([(clauseLines (S "files"), S "x", [])], true) ∧
    BashDispatch.runText (scriptEnv quietShell text (S "_prog__prefix_compreply")) dispatcher (S "run") (S "--out=x") = some ([(clauseLines (S "files"), S "x", [])], true) ∧
    BashDispatch.runText (scriptEnv quietShell text (S "_prog__prefix_compreply")) dispatcher (S "run") (S "-qofile") =
      some ([(clauseLines (S "files"), S "file", S "-qo")], true) := by
  obtain ⟨text, dispatcher, h⟩ := run_texts
  have hm : outOption ∈ scriptRun.data.options := by decide +kernel
  have h1 : NamesOption [scriptRoot] scriptRun (S "--out") outOption := ⟨hm, .inl (by decide +kernel)⟩
  have h2 : NamesOption [scriptRoot] scriptRun ['-', 'o'] outOption := ⟨hm, .inl (by decide +kernel)⟩
  have hk : outOption.kind = .required := by decide +kernel
  have hf : outOption.kind ≠ .flag := by decide +kernel
  have hw : WhenMet filesEnv scriptRun outOption := by intro w hw; cases hw
  have hq : Quiet [scriptRoot] scriptRun (S "run") := quiet_other h.clean h.place (by intro a r e; exact absurd e (by simp [S]))
  have hna : NotAllOptional scriptRun := .inl ⟨_, hm, hk⟩
  have hl : IsLong (S "--out") := ⟨'o', S "ut", rfl⟩
  refine ⟨text, dispatcher, h, C105_next_partial h (S "x") h1 hk hw (.inl ⟨rfl, .inl hl⟩), C105_equals_partial h (S "x") hq hna h1 hf hw (.inl hl),
    C105_attached_partial h ['q'] 'o' (S "file") hq hna h2 hf hw (by decide) ?_ ?_ ?_ ?_⟩
  · intro x hx
    simp only [List.mem_singleton] at hx
    subst hx
    exact ⟨{ strings := [S "-q"] }, by decide +kernel, rfl, by decide +kernel⟩
  · intro y hy o' ho'
    simp only [List.mem_singleton] at hy
    subst hy
    have : ∀ o ∈ scriptRun.data.options, ['-', 'q'] ∈ o.strings → o.kind = .flag := by decide +kernel
    exact this o' (run_names ho').1 (run_names ho').2
  · intro o' ho' s hs _ hp
    have : ∀ o ∈ getOptions [scriptRoot] scriptRun (decide (Inherits scriptRun)) false, ∀ s ∈ o.strings, s.length < 7 := by decide +kernel
    have h3 := this o' ho' s hs
    have h4 := hp.length_le
    simp [S] at h4
    omega
  · intro s t e
    have : '=' ∈ '-' :: (['q'] ++ 'o' :: S "file") := by rw [e]; simp
    exact absurd this (by decide +kernel)

end CC
