import Verif.Lemmas.FishReads
/-!
# The completers of Fish, one by one (lemmas for C86)
-/

namespace CC
namespace FishReads
open FishCode FishCompleter

/-- The surroundings that the generator and the script agree on. -/
structure FishReady (s : Setting) (ctxt : FishCtxt) : Prop where
  pre : s.pre = ctxt.pre
  position : s.position = ctxt.position
  safe : ∀ c ∈ ctxt.pre, isSafeChar c = true
  named : NameOk ctxt.base

/-- What is known of the completion object for a completer. -/
structure FishGood (s : Setting) (ctxt : FishCtxt) (inner : Bool) (c : Comp) (o : FishObj) : Prop where
  code : ∃ ss, FishCode.read (o.getCode ctxt) = some ss ∧ Does s inner c ss
  nothing : o = .nothing → Does s inner c [call ["true".toList]]
  command : ∀ f, o = .command [f] → fishReadable f = true ∧ Does s inner c [call [f]]
  file : ∀ f, o = .file f [] → fishReadable f = true ∧ Does s inner c [call [f]] ∧
    ∃ p, c = .file p ∧ p.directory = none ∧ p.extensions = [] ∧ p.ignoreGlobs = []
  choices : ∀ ch, o = .choices ch → fixedItems c = some ch.candidates ∧ FishTexts ch ∧ ch.words ≠ [] ∧
    (ch.words.map Choice.text).Nodup

theorem helper_name (s : Setting) (name : String) : FishCompleter.helper s name = realName s.pre name.toList := by
  simp [FishCompleter.helper, realName, S]

theorem realName_safe {pre : Str} (hp : ∀ c ∈ pre, isSafeChar c = true) (name : Str) (hn : ∀ c ∈ name, isSafeChar c = true) :
    ∀ c ∈ realName pre name, isSafeChar c = true := by
  intro c hc
  simp only [realName, S, List.mem_append] at hc
  rcases hc with (hc | hc) | hc
  · exact hp c hc
  · simp at hc; subst hc; decide
  · exact hn c hc

theorem realName_readable {pre : Str} (hp : ∀ c ∈ pre, isSafeChar c = true) (name : Str) (hn : ∀ c ∈ name, isSafeChar c = true) :
    fishReadable (realName pre name) = true := readable_safe (realName_safe hp name hn)

theorem used_fish {pre name f : Str} (h : useHelper fishRepo pre name = .ok f) : f = realName pre name := by
  unfold useHelper at h
  split at h
  · cases h; rfl
  · cases h

/-- A call. -/
theorem good_call {s : Setting} {ctxt : FishCtxt} {inner : Bool} {c : Comp} {ws : List Str} (hne : ws ≠ [])
    (hw : ∀ w ∈ ws, fishReadable w = true) (hd : Does s inner c [call ws]) : FishGood s ctxt inner c (.command ws) where
  code := ⟨_, (stmts_call hne hw).read, hd⟩
  nothing := by simp
  command := by
    intro f hf; cases hf
    exact ⟨hw f (by simp), hd⟩
  file := by simp
  choices := by simp

theorem good_helper_call {s : Setting} {ctxt : FishCtxt} (R : FishReady s ctxt) {inner : Bool} {c : Comp} {name : String}
    {args : List Str} {o : FishObj} (h : fishHelper ctxt name args = .ok o) (hn : ∀ c ∈ name.toList, isSafeChar c = true)
    (hw : ∀ w ∈ args, fishReadable w = true) (hd : Does s inner c [call (FishCompleter.helper s name :: args)]) :
    FishGood s ctxt inner c o := by
  unfold fishHelper at h
  obtain ⟨f, hf, h⟩ := ok_bind h
  cases h
  rw [used_fish hf]
  rw [helper_name, R.pre] at hd
  refine good_call (by simp) ?_ hd
  intro w hw'
  rcases List.mem_cons.mp hw' with rfl | hw'
  · exact realName_readable R.safe _ hn
  · exact hw w hw'

/-- Code that is written out. -/
theorem good_raw {s : Setting} {ctxt : FishCtxt} {inner : Bool} {c : Comp} {t : Str} {ss : List Stmt}
    (h : FishCode.read t = some ss) (hd : Does s inner c ss) : FishGood s ctxt inner c (.raw t) where
  code := ⟨_, h, hd⟩
  nothing := by simp
  command := by simp
  file := by simp
  choices := by simp

theorem good_nothing {s : Setting} {ctxt : FishCtxt} {inner : Bool} {c : Comp} (h1 : Does s inner c [])
    (h2 : Does s inner c [call ["true".toList]]) : FishGood s ctxt inner c .nothing where
  code := ⟨_, rfl, h1⟩
  nothing := fun _ => h2
  command := by simp
  file := by simp
  choices := by simp

/-! ## Lists of candidates -/

theorem prints_plain (l : List Str) (hne : l ≠ []) (h : ∀ w ∈ l, '\t' ∉ w ∧ '\n' ∉ w) :
    Prints [call ("printf".toList :: "%s\\n".toList :: l)] (l.map (fun w => (w, []))) := by
  refine ⟨_, l, rfl, ?_, fun w hw => (h w hw).2, ?_⟩
  · simp [FishWords.printfLines, hne]
  · exact List.map_congr_left (fun w hw => candidate_word _ (h w hw).1)

theorem prints_table (t : List (Str × Str)) (hne : t ≠ []) (h : ∀ e ∈ t, '\t' ∉ e.1 ∧ '\n' ∉ e.1 ∧ '\n' ∉ e.2) :
    Prints [call ("printf".toList :: "%s\\t%s\\n".toList :: (t.map (fun e => [e.1, e.2])).flatten)] t := by
  have hpairs : ∀ t : List (Str × Str), FishWords.printfLines.pairs (t.map (fun e => [e.1, e.2])).flatten =
      t.map (fun e => e.1 ++ '\t' :: e.2) := by
    intro t
    induction t with
    | nil => rfl
    | cons e t ih => simp [FishWords.printfLines.pairs, ih]
  refine ⟨_, t.map (fun e => e.1 ++ '\t' :: e.2), rfl, ?_, ?_, ?_⟩
  · simp only [FishWords.printfLines]
    rw [if_neg (by decide), if_pos trivial, if_neg, hpairs]
    cases t with
    | nil => exact absurd rfl hne
    | cons => simp
  · intro w hw
    obtain ⟨e, he, rfl⟩ := List.mem_map.mp hw
    simp [h e he]
  · rw [List.map_map]
    conv => rhs; rw [← List.map_id t]
    exact List.map_congr_left (fun e he => candidate_described _ _ (h e he).1)

theorem stmts_plain (lines : List (List Str)) (hne : lines ≠ []) (h : ∀ l ∈ lines, ∀ w ∈ l, fishReadable w = true) :
    Stmts (S "printf '%s\\n' \\\n" ++ joinWith [' ', '\\', '\n'] (lines.map (fun l => [' ', ' '] ++ joinQuoted l)))
      [call ("printf".toList :: "%s\\n".toList :: lines.flatten)] := by
  have h1 := words_continued (words_joined ["printf".toList, "%s\\n".toList] (by decide)) (words_lines lines hne h)
  have e : joinQuoted ["printf".toList, "%s\\n".toList] ++ [' ', '\\', '\n'] = S "printf '%s\\n' \\\n" := by decide
  rw [e] at h1
  have := stmts_of_words (l := call ("printf".toList :: "%s\\n".toList :: lines.flatten)) h1 (endsInWord_call _ (by simp))
  exact this

theorem stmts_table (lines : List (List Str)) (hne : lines ≠ []) (h : ∀ l ∈ lines, ∀ w ∈ l, fishReadable w = true) :
    Stmts (S "printf '%s\\t%s\\n' \\\n" ++ joinWith [' ', '\\', '\n'] (lines.map (fun l => [' ', ' '] ++ joinQuoted l)))
      [call ("printf".toList :: "%s\\t%s\\n".toList :: lines.flatten)] := by
  have h1 := words_continued (words_joined ["printf".toList, "%s\\t%s\\n".toList] (by decide)) (words_lines lines hne h)
  have e : joinQuoted ["printf".toList, "%s\\t%s\\n".toList] ++ [' ', '\\', '\n'] = S "printf '%s\\t%s\\n' \\\n" := by decide
  rw [e] at h1
  have := stmts_of_words (l := call ("printf".toList :: "%s\\t%s\\n".toList :: lines.flatten)) h1 (endsInWord_call _ (by simp))
  exact this

/-- A table, printed line by line. -/
theorem table_code {α : Type} (t : List α) (word desc : α → Str) (hne : t ≠ []) :
    rstripContinuation (S "printf '%s\\t%s\\n' \\\n" ++
      t.flatMap (fun e => S "  " ++ quote (word e) ++ S " " ++ quote (desc e) ++ S " \\\n")) =
    S "printf '%s\\t%s\\n' \\\n" ++
      joinWith [' ', '\\', '\n'] ((t.map (fun e => [word e, desc e])).map (fun l => [' ', ' '] ++ joinQuoted l)) := by
  have e : t.flatMap (fun e => S "  " ++ quote (word e) ++ S " " ++ quote (desc e) ++ S " \\\n") =
      joinWith [' ', '\\', '\n'] (t.map (fun e => S "  " ++ quote (word e) ++ S " " ++ quote (desc e))) ++
        [' ', '\\', '\n'] :=
    joined_lines t (fun e => S "  " ++ quote (word e) ++ S " " ++ quote (desc e)) hne
  rw [e, ← List.append_assoc, rstrip_firm]
  · congr 2
    rw [List.map_map]
    apply List.map_congr_left
    intro e _
    simp [joinQuoted, joinWith, S]
  · refine EndsFirm.append (joinWith_firm (by simpa using hne) ?_)
    intro w hw'
    obtain ⟨e, _, rfl⟩ := List.mem_map.mp hw'
    exact EndsFirm.append (quote_firm _)
  · decide

/-- Words, one on each line. -/
theorem list_code (l : List Str) (hne : l ≠ []) :
    rstripContinuation (S "printf '%s\\n' \\\n" ++ l.flatMap (fun e => S "  " ++ quote e ++ S " \\\n")) =
    S "printf '%s\\n' \\\n" ++
      joinWith [' ', '\\', '\n'] ((l.map (fun e => [e])).map (fun l => [' ', ' '] ++ joinQuoted l)) := by
  have e : l.flatMap (fun e => S "  " ++ quote e ++ S " \\\n") =
      joinWith [' ', '\\', '\n'] (l.map (fun e => S "  " ++ quote e)) ++ [' ', '\\', '\n'] :=
    joined_lines l (fun e => S "  " ++ quote e) hne
  rw [e, ← List.append_assoc, rstrip_firm]
  · congr 2
    rw [List.map_map]
    apply List.map_congr_left
    intro e _
    simp [joinQuoted, joinWith, S]
  · refine EndsFirm.append (joinWith_firm (by simpa using hne) ?_)
    intro w hw'
    obtain ⟨e, _, rfl⟩ := List.mem_map.mp hw'
    exact EndsFirm.append (quote_firm _)
  · decide

theorem choices_code (lineLength : Int) (c : Choices) (h : FishTexts c) (hne : c.words ≠ []) :
    ∃ ss, FishCode.read (fishCode lineLength c) = some ss ∧ Prints ss c.candidates := by
  cases c with
  | list l =>
    have hw := h.words
    simp only [Choices.words] at hw hne
    obtain ⟨lines, h1, h2, h3⟩ := wrapped_quoted [' ', '\\'] (by decide) (lineLength - 2) (l.map Choice.text) (by
      intro i hi
      obtain ⟨w, hw', rfl⟩ := List.mem_map.mp hi
      exact (hw w hw').2.2)
    have hlne : lines ≠ [] := by
      rintro rfl
      simp at h1
      exact hne (by simpa using h1)
    have hcode : fishCode lineLength (.list l) = S "printf '%s\\n' \\\n" ++
        joinWith [' ', '\\', '\n'] (lines.map (fun l => [' ', ' '] ++ joinQuoted l)) := by
      simp only [fishCode]
      simp only [List.map_map] at h3
      have e : S " \\\n" = [' ', '\\'] ++ ['\n'] := rfl
      rw [e]
      have h3' : indent (joinWithWrap [' '] ([' ', '\\'] ++ ['\n']) (lineLength - 2) (l.map (fun c => quote c.text)) []) 2 =
        joinWith [' ', '\\', '\n'] (lines.map (fun l => [' ', ' '] ++ joinQuoted l)) := h3
      rw [h3']
      have := rstrip_firm (t := []) ((lines_firm hlne h2).append (a := S "printf '%s\\n' \\\n")) (by simp)
      simpa using this
    rw [hcode]
    refine ⟨_, (stmts_plain lines hlne ?_).read, ?_⟩
    · intro x hx a ha
      have : a ∈ l.map Choice.text := by rw [← h1]; exact List.mem_flatten.mpr ⟨x, hx, ha⟩
      obtain ⟨w, hw', rfl⟩ := List.mem_map.mp this
      exact (hw w hw').1
    · rw [h1, candidates_list]
      have := prints_plain (l.map Choice.text) (by simpa using hne) (by
        intro i hi
        obtain ⟨w, hw', rfl⟩ := List.mem_map.mp hi
        exact (hw w hw').2)
      simpa [List.map_map, Function.comp_def] using this
  | table t =>
    have hw := h.words
    simp only [Choices.words] at hw hne
    have htne : t ≠ [] := by rintro rfl; exact hne rfl
    have hcode := table_code t (fun e => e.1.text) (fun e => CC.str0 e.2) htne
    simp only [fishCode]
    rw [hcode]
    refine ⟨_, (stmts_table _ (by simpa using htne) ?_).read, ?_⟩
    · intro l hl a ha
      obtain ⟨e, he, rfl⟩ := List.mem_map.mp hl
      simp only [List.mem_cons, List.not_mem_nil, or_false] at ha
      rcases ha with rfl | rfl
      · exact (hw e.1 (List.mem_map.mpr ⟨e, he, rfl⟩)).1
      · exact (h.str0 he).1
    · rw [candidates_table]
      have := prints_table (t.map (fun e => (e.1.text, CC.str0 e.2))) (by simpa using htne) (by
        intro i hi
        obtain ⟨e, he, rfl⟩ := List.mem_map.mp hi
        have := hw e.1 (List.mem_map.mpr ⟨e, he, rfl⟩)
        exact ⟨this.2.1, this.2.2, (h.str0 he).2⟩)
      simpa [List.map_map, Function.comp_def] using this

theorem good_choices {s : Setting} {ctxt : FishCtxt} {inner : Bool} {c : Comp} {ch : Choices} (h : FishTexts ch)
    (hne : ch.words ≠ []) (hn : (ch.words.map Choice.text).Nodup) (hc : fixedItems c = some ch.candidates)
    (hd : ∀ ss, Prints ss ch.candidates → Does s inner c ss) : FishGood s ctxt inner c (.choices ch) where
  code := by
    obtain ⟨ss, h1, h2⟩ := choices_code ctxt.lineLength ch h hne
    exact ⟨ss, h1, hd ss h2⟩
  nothing := by simp
  command := by simp
  file := by simp
  choices := by
    intro x hx; cases hx
    exact ⟨hc, h, hne, hn⟩

theorem values_code (v : ValueWords) (h : ValuesFit v) (hr : ∀ i ∈ valueItems v, fishReadable i.1 = true ∧ fishReadable i.2 = true) :
    ∃ ss, FishCode.read (fishValuesCode v) = some ss ∧ Prints ss (valueItems v) := by
  obtain ⟨hne, hv⟩ := h
  cases v with
  | list l =>
    simp only [valueItems] at hne hv hr ⊢
    have hlne : l ≠ [] := by rintro rfl; exact hne rfl
    simp only [fishValuesCode]
    rw [list_code l hlne]
    refine ⟨_, (stmts_plain _ (by simpa using hlne) ?_).read, ?_⟩
    · intro x hx a ha
      obtain ⟨e, he, rfl⟩ := List.mem_map.mp hx
      simp at ha; subst ha
      exact (hr _ (List.mem_map.mpr ⟨a, he, rfl⟩)).1
    · have e : (l.map (fun e => [e])).flatten = l := by
        rw [← List.flatMap_def, List.flatMap_singleton']
      rw [e]
      exact prints_plain l hlne (fun w hw => by
        have := hv _ (List.mem_map.mpr ⟨w, hw, rfl⟩)
        exact ⟨this.1, this.2.1⟩)
  | table t =>
    simp only [valueItems] at hne hv hr ⊢
    simp only [fishValuesCode]
    rw [table_code t _ _ hne]
    refine ⟨_, (stmts_table _ (by simpa using hne) ?_).read, ?_⟩
    · intro x hx a ha
      obtain ⟨e, he, rfl⟩ := List.mem_map.mp hx
      simp at ha
      rcases ha with rfl | rfl
      · exact (hr e he).1
      · exact (hr e he).2
    · exact prints_table t hne hv

/-! ## Completers without arguments -/

theorem signals_fit : FishTexts (.table signalTable) ∧ (Choices.table signalTable).words ≠ [] ∧
    ((Choices.table signalTable).words.map Choice.text).Nodup ∧ (Choices.table signalTable).candidates = signalItems := by
  refine ⟨⟨?_, ?_⟩, ?_, ?_, ?_⟩
  · simp only [Choices.words]; decide +kernel
  · simp only [Choices.descriptions]; decide +kernel
  · simp only [Choices.words]; decide +kernel
  · simp only [Choices.words]; decide +kernel
  · rw [candidates_table]; decide +kernel

theorem fishVoid_library (ctxt : FishCtxt) : ∀ e ∈ library, fishVoid ctxt e.1.toList = .ok (.command (e.2.map String.toList)) ∨
    ∃ t, fishVoid ctxt e.1.toList = .ok (.raw t) ∧ FishCode.read t = some [call (e.2.map String.toList)] := by
  intro e he
  simp only [library, List.mem_cons, List.not_mem_nil, or_false] at he
  rcases he with rfl | rfl | rfl | rfl | rfl | rfl | rfl | rfl | rfl | rfl | rfl | rfl | rfl | rfl | rfl | rfl <;>
    first
      | exact Or.inl rfl
      | exact Or.inr ⟨_, rfl, by decide +kernel⟩

theorem fishVoid_helpers (ctxt : FishCtxt) : ∀ e ∈ FishCompleter.helpers,
    fishVoid ctxt e.1.toList = .ok (.command [realName ctxt.pre e.2.toList]) := by
  intro e he
  simp only [FishCompleter.helpers, List.mem_cons, List.not_mem_nil, or_false] at he
  rcases he with rfl | rfl | rfl | rfl | rfl <;> rfl

theorem fishVoid_known : ∀ n ∈ voidNames, n ∈ library.map (·.1.toList) ∨ n ∈ FishCompleter.helpers.map (·.1.toList) ∨
    n = "signal".toList := by
  decide +kernel

theorem library_readable : ∀ e ∈ library, e.2.map String.toList ≠ [] ∧ ∀ w ∈ e.2.map String.toList, fishReadable w = true := by
  decide +kernel

theorem helpers_safe : ∀ e ∈ FishCompleter.helpers, ∀ c ∈ e.2.toList, isSafeChar c = true := by
  decide +kernel

theorem good_void {s : Setting} {ctxt : FishCtxt} (R : FishReady s ctxt) {inner : Bool} {n : Str} (hn : n ∈ voidNames) {o : FishObj}
    (h : fishVoid ctxt n = .ok o) : FishGood s ctxt inner (.void n) o := by
  rcases fishVoid_known n hn with hm | hm | rfl
  · obtain ⟨e, he, rfl⟩ := List.mem_map.mp hm
    have hd : Does s inner (.void e.1.toList) [call (e.2.map String.toList)] := by
      simp only [Does]; exact Or.inl ⟨e, he, rfl, rfl⟩
    rcases fishVoid_library ctxt e he with h1 | ⟨t, h1, h2⟩
    · rw [h1] at h; cases h
      exact good_call (library_readable e he).1 (library_readable e he).2 hd
    · rw [h1] at h; cases h
      exact good_raw h2 hd
  · obtain ⟨e, he, rfl⟩ := List.mem_map.mp hm
    rw [fishVoid_helpers ctxt e he] at h; cases h
    refine good_call (by simp) ?_ ?_
    · intro w hw; simp at hw; subst hw
      exact realName_readable R.safe _ (helpers_safe e he)
    · simp only [Does]
      exact Or.inr (Or.inl ⟨e, he, rfl, by rw [helper_name, R.pre]⟩)
  · rw [show fishVoid ctxt "signal".toList = .ok (.choices (.table signalTable)) from rfl] at h
    cases h
    obtain ⟨h1, h2, h3, h4⟩ := signals_fit
    refine good_choices h1 h2 h3 ?_ ?_
    · rw [h4]; rfl
    · intro ss hs
      rw [h4] at hs
      simp only [Does]
      exact Or.inr (Or.inr ⟨rfl, hs⟩)

/-! ## Files and directories -/

theorem bh_append : ∀ (a b : Str), backslashHarmless a = true → backslashHarmless b = true → backslashHarmless (a ++ b) = true
  | [], b, _, h => h
  | c :: r, b, h, hb => by
    have hc := bh_cons h
    have ih := bh_append r b hc.1 hb
    by_cases he : c = '\\'
    · subst he
      obtain ⟨d, ds, rfl, h1, h2⟩ := hc.2 rfl
      simp only [List.cons_append] at ih ⊢
      simp [backslashHarmless, h1, h2, ih]
    · rw [List.cons_append, backslashHarmless.eq_def]
      split <;> simp_all

theorem bh_flatMap {α : Type} (f : α → Str) : ∀ (l : List α), (∀ a ∈ l, backslashHarmless (f a) = true) →
    backslashHarmless (l.flatMap f) = true
  | [], _ => rfl
  | a :: r, h => by
    rw [List.flatMap_cons]
    exact bh_append _ _ (h a (by simp)) (bh_flatMap f r (fun x hx => h x (by simp [hx])))

theorem bh_join {sep : Str} (hs : backslashHarmless sep = true) : ∀ (l : List Str), (∀ a ∈ l, backslashHarmless a = true) →
    backslashHarmless (joinWith sep l) = true
  | [], _ => rfl
  | [a], h => h a (by simp)
  | a :: b :: r, h => by
    simp only [joinWith]
    exact bh_append _ _ (bh_append _ _ (h a (by simp)) hs) (bh_join hs (b :: r) (fun x hx => h x (by simp [hx])))

/-- A character of an extension. -/
def extChar (c : Char) : Prop := c.isAlphanum = true ∨ c = '.' ∨ c = '+' ∨ c = '_' ∨ c = '-'

theorem ext_cases {c : Char} (h : extChar c) : c = '.' ∨ c = '+' ∨ RxPlain c := by
  rcases h with h | h | h | h | h
  · right; right
    simp only [RxPlain, S, String.reduceToList, List.mem_cons, List.not_mem_nil, or_false, not_or]
    refine ⟨?_, ?_, ?_, ?_, ?_, ?_, ?_, ?_, ?_, ?_, ?_, ?_, ?_, ?_⟩ <;> rintro rfl <;> revert h <;> decide
  · exact Or.inl h
  · exact Or.inr (Or.inl h)
  · subst h; right; right; unfold RxPlain; decide
  · subst h; right; right; unfold RxPlain; decide

theorem ext_char_plain {c : Char} (h : extChar c) : '\'' ∉ fishExtChar c ∧ backslashHarmless (fishExtChar c) = true := by
  have h1 : c ≠ '\'' ∧ c ≠ '\\' := by
    constructor <;> rintro rfl <;> revert h <;> unfold extChar <;> decide
  unfold fishExtChar
  split
  · rename_i ha
    have hl := alpha_rx (alpha_lower ha)
    have hu := alpha_rx (alpha_upper ha)
    have al := alpha_lower ha
    have au := alpha_upper ha
    have k1 : asciiLower c ≠ '\'' ∧ asciiLower c ≠ '\\' := by
      constructor <;> intro e <;> rw [e] at al <;> revert al <;> decide
    have k2 : asciiUpper c ≠ '\'' ∧ asciiUpper c ≠ '\\' := by
      constructor <;> intro e <;> rw [e] at au <;> revert au <;> decide
    refine ⟨?_, bh_none ?_⟩
    · simp [bothCases, Ne.symm k1.1, Ne.symm k2.1]
    · simp [bothCases, Ne.symm k1.2, Ne.symm k2.2]
  · split
    · rename_i hp
      rcases hp with rfl | rfl <;> decide
    · exact ⟨by simp [Ne.symm h1.1], bh_none (by simp [Ne.symm h1.2])⟩

theorem not_mem_join {x : Char} {sep : Str} (hs : x ∉ sep) : ∀ (l : List Str), (∀ a ∈ l, x ∉ a) → x ∉ joinWith sep l
  | [], _ => by simp [joinWith]
  | [a], h => h a (by simp)
  | a :: b :: r, h => by
    simp only [joinWith, List.mem_append, not_or]
    exact ⟨⟨h a (by simp), hs⟩, not_mem_join hs (b :: r) (fun x hx => h x (by simp [hx]))⟩

theorem regex_readable {exts : List Str} (h : ∀ e ∈ exts, ∀ c ∈ e, extChar c) (fuzzy : Bool) :
    fishReadable (fishExtensionRegex exts fuzzy) = true := by
  have hone : ∀ e ∈ exts, '\'' ∉ (['('] ++ (S ".*\\." ++ e.flatMap fishExtChar ++ (if fuzzy then S ".*" else [])) ++ [')']) ∧
      backslashHarmless (['('] ++ (S ".*\\." ++ e.flatMap fishExtChar ++ (if fuzzy then S ".*" else [])) ++ [')']) = true := by
    intro e he
    have h1 : '\'' ∉ e.flatMap fishExtChar := by
      intro hm
      obtain ⟨c, hc, hm⟩ := List.mem_flatMap.mp hm
      exact (ext_char_plain (h e he c hc)).1 hm
    have h2 : backslashHarmless (e.flatMap fishExtChar) = true := bh_flatMap _ _ (fun c hc => (ext_char_plain (h e he c hc)).2)
    have h3 : '\'' ∉ (if fuzzy = true then S ".*" else []) := by split <;> decide
    have h4 : backslashHarmless (if fuzzy = true then S ".*" else []) = true := by split <;> decide
    refine ⟨?_, bh_append _ _ (bh_append _ _ (by decide) (bh_append _ _ (bh_append _ _ (by decide) h2) h4)) (by decide)⟩
    simp only [List.mem_append, not_or]
    exact ⟨⟨by decide, ⟨by decide, h1⟩, h3⟩, by decide⟩
  have h5 : '\'' ∉ fishExtensionRegex exts fuzzy := by
    unfold fishExtensionRegex
    refine not_mem_join (by decide) _ ?_
    intro a ha
    obtain ⟨e, he, rfl⟩ := List.mem_map.mp ha
    exact (hone e he).1
  have h6 : backslashHarmless (fishExtensionRegex exts fuzzy) = true := by
    unfold fishExtensionRegex
    refine bh_join (by decide) _ ?_
    intro a ha
    obtain ⟨e, he, rfl⟩ := List.mem_map.mp ha
    exact (hone e he).2
  simp [fishReadable, h5, h6]

theorem regex_globs {o : FileOpts} {globs : List Str} (h : o.ignoreGlobs.map bashGlobToRegex = globs.map .ok) :
    o.ignoreGlobs.filterMap (fun g => (bashGlobToRegex g).toOption) = globs := by
  generalize o.ignoreGlobs = l at h
  induction l generalizing globs with
  | nil => cases globs <;> simp_all
  | cons x xs ih =>
    cases globs with
    | nil => simp at h
    | cons g gs =>
      simp only [List.map_cons, List.cons.injEq] at h
      have := ih h.2
      rw [List.filterMap_cons, h.1, this]
      rfl

/-- The file object: its arguments select the files and can be read. -/
theorem file_object {s : Setting} {ctxt : FishCtxt} (R : FishReady s ctxt) {o : FileOpts} (hd : BashCompleter.NotEmpty o.directory)
    (hx : ExtensionsFit o) (hr : ∀ w ∈ ownWords.fileTexts o, fishReadable w = true) {obj : FishObj}
    (h : fishFile ctxt o = .ok obj) : ∃ args, obj = .file (FishCompleter.helper s "filedir") args ∧ FileArgs o args ∧
      (∀ w ∈ args, fishReadable w = true) ∧
      (args = [] → o.directory = none ∧ o.extensions = [] ∧ o.ignoreGlobs = []) := by
  unfold fishFile at h
  obtain ⟨f, hf, h⟩ := ok_bind h
  obtain ⟨globs, hg, h⟩ := ok_bind h
  have hg := mapE_all _ _ _ hg
  cases h
  have e0 : f = FishCompleter.helper s "filedir" := by rw [used_fish hf, helper_name, R.pre]; rfl
  rw [e0]
  simp only [ownWords.fileTexts] at hr
  rw [regex_globs hg] at hr
  refine ⟨_, rfl, ⟨if o.extensions.isEmpty then [] else [S "-r", fishExtensionRegex o.extensions o.fuzzy],
    if o.ignoreGlobs.isEmpty then [] else [S "-i", joinWith ['|'] (globs.map inParens)], ?_, ?_, ?_⟩, ?_, ?_⟩
  · congr 2
    rcases not_empty_cases hd with ⟨h1, h2⟩ | ⟨d, h1, h2⟩ <;> rw [h2, h1] <;> rfl
  · cases he : o.extensions with
    | nil => simp
    | cons e es =>
      simp only [List.isEmpty_cons, Bool.false_eq_true, if_false, List.cons_ne_nil]
      rw [← he]
      refine ⟨_, rfl, C12_fish_partial _ _ (by rw [he]; simp) ?_⟩
      exact fun e he c hc => ext_cases (hx e he c hc)
  · cases he : o.ignoreGlobs with
    | nil => simp
    | cons e es =>
      simp only [List.isEmpty_cons, Bool.false_eq_true, if_false, List.cons_ne_nil]
      rw [← he]
      exact ⟨globs, hg, rfl⟩
  · intro w hw
    simp only [List.mem_append] at hw
    rcases hw with (hw | hw) | hw
    · rcases not_empty_cases hd with ⟨h1, h2⟩ | ⟨d, h1, h2⟩
      · rw [h2] at hw; simp [fishDirArgs] at hw
      · rw [h2] at hw
        rw [h1] at hr
        simp [fishDirArgs] at hw
        rcases hw with rfl | rfl
        · decide
        · exact hr _ (by simp)
    · split at hw
      · simp at hw
      · simp at hw
        rcases hw with rfl | rfl
        · decide
        · exact regex_readable (fun e he c hc => hx e he c hc) _
    · split at hw
      · simp at hw
      · simp at hw
        rcases hw with rfl | rfl
        · decide
        · exact hr _ (List.mem_append_right _ (List.mem_singleton.mpr rfl))
  · intro ha
    simp only [List.append_eq_nil_iff] at ha
    obtain ⟨⟨h1, h2⟩, h3⟩ := ha
    refine ⟨?_, ?_, ?_⟩
    · rcases not_empty_cases hd with ⟨k1, k2⟩ | ⟨d, k1, k2⟩
      · exact k1
      · rw [k2] at h1; simp [fishDirArgs] at h1
    · cases he : o.extensions with
      | nil => rfl
      | cons => rw [he] at h2; simp at h2
    · cases he : o.ignoreGlobs with
      | nil => rfl
      | cons => rw [he] at h3; simp at h3

theorem filedir_readable {s : Setting} {ctxt : FishCtxt} (R : FishReady s ctxt) : fishReadable (FishCompleter.helper s "filedir") = true := by
  rw [helper_name, R.pre]; exact realName_readable R.safe _ (by decide)

theorem good_file {s : Setting} {ctxt : FishCtxt} (R : FishReady s ctxt) {inner : Bool} {o : FileOpts}
    (hd : BashCompleter.NotEmpty o.directory) (hx : ExtensionsFit o) (hr : ∀ w ∈ ownWords.fileTexts o, fishReadable w = true)
    {obj : FishObj} (h : fishFile ctxt o = .ok obj) : FishGood s ctxt inner (.file o) obj := by
  obtain ⟨args, rfl, h1, h2, h3⟩ := file_object R hd hx hr h
  have hall : ∀ w ∈ FishCompleter.helper s "filedir" :: args, fishReadable w = true := by
    intro w hw
    rcases List.mem_cons.mp hw with rfl | hw
    · exact filedir_readable R
    · exact h2 w hw
  refine ⟨⟨_, (stmts_call (by simp) hall).read, ⟨args, h1, rfl⟩⟩, by simp, by simp, ?_, by simp⟩
  intro f hf
  simp only [FishObj.file.injEq] at hf
  obtain ⟨rfl, rfl⟩ := hf
  exact ⟨filedir_readable R, ⟨[], h1, rfl⟩, o, rfl, h3 rfl⟩

/-- The object for directories is a call. -/
theorem directory_object {s : Setting} {ctxt : FishCtxt} (R : FishReady s ctxt) {inner : Bool} {trace : List Str} {d : Option Str}
    (hi : inner = true → strippingPlaces.any (fun p => trace.contains p) = true ∨ d ≠ none)
    (hr : ∀ w ∈ d.toList, fishReadable w = true) {obj : FishObj} (h : fishDirectory ctxt trace d = .ok obj) :
    ∃ ws, obj = .command ws ∧ DirectoryCall s inner d ws ∧ ws ≠ [] ∧ ∀ w ∈ ws, fishReadable w = true := by
  unfold fishDirectory at h
  cases d with
  | some d =>
    simp only [fishHelper] at h
    obtain ⟨f, hf, h⟩ := ok_bind h
    cases h
    have e0 : f = FishCompleter.helper s "filedir" := by rw [used_fish hf, helper_name, R.pre]; rfl
    refine ⟨_, rfl, by simp only [DirectoryCall]; rw [e0]; rfl, by simp, ?_⟩
    intro w hw
    simp at hw
    rcases hw with rfl | rfl | rfl | rfl
    · rw [e0]; exact filedir_readable R
    · decide
    · decide
    · exact hr _ (by simp)
  | none =>
    simp only at h
    split at h
    · simp only [fishHelper] at h
      obtain ⟨f, hf, h⟩ := ok_bind h
      cases h
      have e0 : f = FishCompleter.helper s "filedir" := by rw [used_fish hf, helper_name, R.pre]; rfl
      refine ⟨_, rfl, by simp only [DirectoryCall]; rw [e0]; exact Or.inl rfl, by simp, ?_⟩
      intro w hw
      simp at hw
      rcases hw with rfl | rfl
      · rw [e0]; exact filedir_readable R
      · decide
    · rename_i hs
      cases h
      refine ⟨_, rfl, Or.inr ⟨?_, rfl⟩, by simp, by decide⟩
      cases inner with
      | false => rfl
      | true =>
        rcases hi rfl with h | h
        · exact absurd h hs
        · exact absurd rfl h

/-! ## Commands -/

theorem parts_splitOn (c : Char) (t : Str) : splitOn c t = FishCompleter.parts c t := by
  induction t with
  | nil => rfl
  | cons x xs ih =>
    simp only [splitOn, FishCompleter.parts, ih]
    split
    · rfl
    · cases FishCompleter.parts c xs <;> rfl

theorem parts_nonempty (c : Char) (t : Str) : FishCompleter.parts c t ≠ [] := by
  cases t with
  | nil => simp [FishCompleter.parts]
  | cons x xs =>
    simp only [FishCompleter.parts]
    split
    · simp
    · split <;> simp

theorem words_path (t : Str) (h : ∀ w ∈ FishCompleter.parts ':' t, fishReadable w = true) :
    Words (fishPathWords t) (call (FishCompleter.parts ':' t)) := by
  unfold fishPathWords
  rw [parts_splitOn]
  exact words_joined _ h

theorem ends_call (a : Stmt) (ws : List Str) (h : ws ≠ []) : endsInWord (a ++ call ws) = true := by
  rcases List.eq_nil_or_concat ws with rfl | ⟨r, c, rfl⟩
  · exact absurd rfl h
  · simp only [call, List.concat_eq_append, List.map_append, List.map_cons, List.map_nil]
    rw [← List.append_assoc]
    exact endsInWord_append _ _

theorem command_code {p a b : Option Str} (hp : BashCompleter.NotEmpty p) (ha : BashCompleter.NotEmpty a)
    (hb : BashCompleter.NotEmpty b) (hr : ∀ w ∈ (p.toList ++ a.toList ++ b.toList).flatMap (FishCompleter.parts ':'), fishReadable w = true) :
    Stmts (fishCommandCode p a b) (pathStmts p a b ++ [call ["__fish_complete_command".toList]]) := by
  have hlast : Stmts (S "__fish_complete_command") [call ["__fish_complete_command".toList]] :=
    stmts_of_words (words_safe (S "__fish_complete_command") (by decide) (by decide)) (by decide)
  have hset : Words (S "set -lx PATH") (call ["set".toList, "-lx".toList] ++ call ["PATH".toList]) :=
    words_joined ["set".toList, "-lx".toList, "PATH".toList] (by decide)
  have hseta : Words (S "set -lx -a PATH") (call ["set".toList, "-lx".toList] ++ call ["-a".toList] ++ call ["PATH".toList]) :=
    words_joined ["set".toList, "-lx".toList, "-a".toList, "PATH".toList] (by decide)
  have hold : Words (S "$PATH") [.word [.exp "PATH".toList]] := words_name (S "PATH") (by decide) (by decide)
  have hone : ∀ x, some x = p ∨ some x = a ∨ some x = b → ∀ w ∈ FishCompleter.parts ':' x, fishReadable w = true := by
    intro x hx w hw
    refine hr w (List.mem_flatMap.mpr ⟨x, ?_, hw⟩)
    rcases hx with rfl | rfl | rfl <;> simp
  unfold fishCommandCode
  rcases not_empty_cases hp with ⟨rfl, h2⟩ | ⟨x, rfl, h2⟩ <;> rw [h2]
  · rcases not_empty_cases ha with ⟨rfl, h3⟩ | ⟨y, rfl, h3⟩ <;> rw [h3]
    · rcases not_empty_cases hb with ⟨rfl, h4⟩ | ⟨z, rfl, h4⟩ <;> rw [h4]
      · simpa [pathStmts] using hlast
      · have hz := words_path z (hone z (by simp))
        have := stmts_line (stmts_of_words (words_space (words_space hset hz) hold) (endsInWord_append _ _)) hlast
        simpa [pathStmts, S] using this
    · have hy := words_path y (hone y (by simp))
      rcases not_empty_cases hb with ⟨rfl, h4⟩ | ⟨z, rfl, h4⟩ <;> rw [h4]
      · have := stmts_line (stmts_of_words (words_space hseta hy) (ends_call _ _ (parts_nonempty _ _))) hlast
        simpa [pathStmts, S] using this
      · have hz := words_path z (hone z (by simp))
        have := stmts_line (stmts_of_words (words_space (words_space (words_space hset hz) hold) hy)
          (ends_call _ _ (parts_nonempty _ _))) hlast
        simpa [pathStmts, S] using this
  · have hx := words_path x (hone x (by simp))
    have := stmts_line (stmts_of_words (words_space hset hx) (ends_call _ _ (parts_nonempty _ _))) hlast
    simpa [pathStmts, S] using this

theorem intStr_sub (i : Int) : ∀ c ∈ intStr i, isSafeChar c = true := by
  intro c hc
  rcases intStr_safe i c hc with h | rfl
  · simp [isSafeChar, isAsciiAlnum, Char.isAlphanum, h]
  · decide

theorem commandArg_code {s : Setting} {ctxt : FishCtxt} (R : FishReady s ctxt) :
    Stmts (fishCommandArgCode (realName ctxt.pre (S "positional_position")) ctxt.position) (commandArgStmts s) := by
  have hn := realName_safe R.safe (S "positional_position") (by decide)
  have h1 : Words (S "set -l pos") (call ["set".toList, "-l".toList, "pos".toList]) :=
    words_joined ["set".toList, "-l".toList, "pos".toList] (by decide)
  have h2 : Words (S "set -l cmdline") (call ["set".toList, "-l".toList, "cmdline".toList]) :=
    words_joined ["set".toList, "-l".toList, "cmdline".toList] (by decide)
  have h3 : Words (S "complete -C --") (call ["complete".toList, "-C".toList, "--".toList]) :=
    words_joined ["complete".toList, "-C".toList, "--".toList] (by decide)
  have h4 := words_sub (realName ctxt.pre (S "positional_position") ++ [' '] ++ intStr (ctxt.position - 1)) (by
    intro c hc
    simp only [List.mem_append, List.mem_singleton] at hc
    rcases hc with (hc | rfl) | hc
    · exact safe_sub (hn c hc)
    · decide
    · exact safe_sub (intStr_sub _ c hc))
  have h5 := words_sub (S "commandline -poc | string escape") (by decide)
  have h6 := words_sub (S "commandline -ct") (by decide)
  have h7 : Words (S "\"$cmdline[$pos..]\"") [.word [.exp "cmdline[$pos..]".toList]] :=
    words_of_word (fun l o => by simp [S, run, step, Fish.varChar])
  have l1 := stmts_of_words (words_space h1 h4) (endsInWord_append _ _)
  have l2 := stmts_of_words (words_space (words_space h2 h5) h6) (endsInWord_append _ _)
  have l3 := stmts_of_words (words_space h3 h7) (endsInWord_append _ _)
  have := stmts_line l1 (stmts_line l2 l3)
  unfold commandArgStmts fishCommandArgCode
  rw [helper_name, R.pre, R.position]
  simpa [S] using this

/-! ## Addresses, ranges, numbers -/

theorem good_ip (s : Setting) (ctxt : FishCtxt) (inner : Bool) (t : Str) : FishGood s ctxt inner (.ipAddress t) (fishIpAddress t) := by
  unfold fishIpAddress
  by_cases h1 : t = S "ipv4"
  · rw [if_pos h1]; subst h1
    exact good_raw (ss := [ipStmt "ipv4".toList]) (by decide +kernel) rfl
  · rw [if_neg h1]
    by_cases h2 : t = S "ipv6"
    · rw [if_pos h2]; subst h2
      exact good_raw (ss := [ipStmt "ipv6".toList]) (by decide +kernel) rfl
    · rw [if_neg h2]
      by_cases h3 : t = S "ipv4+"
      · rw [if_pos h3]; subst h3
        exact good_raw (ss := [ipStmt "ipv4+".toList]) (by decide +kernel) rfl
      · rw [if_neg h3]
        by_cases h4 : t = S "ipv6+"
        · rw [if_pos h4]; subst h4
          exact good_raw (ss := [ipStmt "ipv6+".toList]) (by decide +kernel) rfl
        · rw [if_neg h4]
          by_cases h5 : t = S "all+"
          · rw [if_pos h5]; subst h5
            exact good_call (by simp) (by decide +kernel) rfl
          · rw [if_neg h5]
            refine good_call (by simp) (by decide +kernel) ?_
            simp only [Does, ipStmt]
            rw [if_neg (by simpa [S] using ⟨h3, h4, h5⟩), if_neg (by simpa [S] using ⟨h1, h3⟩), if_neg (by simpa [S] using ⟨h2, h4⟩)]
            rfl

theorem good_range (s : Setting) (ctxt : FishCtxt) (inner : Bool) (a b st : Int) :
    FishGood s ctxt inner (.range a b st) (fishRange a b st) := by
  have hi := fun i => readable_safe (intStr_sub i)
  unfold fishRange
  split
  · rename_i h
    refine good_call (by simp) ?_ ?_
    · intro w hw
      simp at hw
      rcases hw with rfl | rfl | rfl
      · decide
      · exact hi _
      · exact hi _
    · simp only [Does, if_pos h]; rfl
  · rename_i h
    refine good_call (by simp) ?_ ?_
    · intro w hw
      simp at hw
      rcases hw with rfl | rfl | rfl | rfl
      · decide
      · exact hi _
      · exact hi _
      · exact hi _
    · simp only [Does, if_neg h]; rfl

theorem good_number {s : Setting} {ctxt : FishCtxt} (R : FishReady s ctxt) {inner : Bool} {c : Comp} {o : NumOpts}
    (hr : ∀ w ∈ o.suffixes.map (fun e => e.1 ++ [':'] ++ e.2), fishReadable w = true) {obj : FishObj}
    (h : fishNumber ctxt o = .ok obj) (hd : ∀ ss, (ss = (if o.suffixes = [] then [] else
      [call (FishCompleter.helper s "number" :: o.suffixes.map (fun e => e.1 ++ [':'] ++ e.2))]) ∨
      (o.suffixes = [] ∧ ss = [call ["true".toList]])) → Does s inner c ss) : FishGood s ctxt inner c obj := by
  unfold fishNumber at h
  cases hs : o.suffixes with
  | nil =>
    rw [if_pos (by simp [suffixArgs, hs])] at h
    cases h
    exact good_nothing (hd _ (Or.inl (by simp [hs]))) (hd _ (Or.inr ⟨hs, rfl⟩))
  | cons e r =>
    rw [if_neg (by simp [suffixArgs, hs])] at h
    refine good_helper_call R h (by decide) hr (hd _ (Or.inl ?_))
    rw [if_neg (by simp [hs])]
    rfl

/-! ## Keys -/

/-- The line of a key. -/
theorem stmts_push (isList : Bool) (cond : Option Str) (k : Str) (d : Option Str) (ex : List Str) (g : Str)
    (hp : isList = true ∨ cond = none) (hr : ∀ w ∈ keyTexts isList k d ex, fishReadable w = true) (hg : fishReadable g = true) :
    Stmts (fishPushLine isList cond k d ex g) [keyPush isList cond k d ex g] := by
  have hname : (if isList then (starred k).1 else k) = (if isList then BashCompleter.keyName k else k) := by
    rw [(starred_eq k).1]
  have hst : (if (starred k).2 = true then ([] : List Str) else [if isList then BashCompleter.keyName k else k]) =
      (if k.head? = some '*' then [] else [if isList then BashCompleter.keyName k else k]) := by
    by_cases h : k.head? = some '*'
    · rw [if_pos h, if_pos ((starred_eq k).2.2 h)]
    · rw [if_neg h, if_neg (fun h' => h ((starred_eq k).2.1 h'))]
  unfold fishPushLine keyPush
  simp only [hname, hst]
  simp only [keyTexts] at hr
  generalize hN : (if isList = true then BashCompleter.keyName k else k) = name at *
  have hargs : Words (S "set -a a " ++ joinQuoted ([name, d.getD [], g] ++
      (if isList then [joinWith [' '] ((if k.head? = some '*' then [] else [name]) ++ ex)] else [])))
      (call (["set".toList, "-a".toList, "a".toList, name, d.getD [], g] ++
      (if isList then [joinWith [' '] ((if k.head? = some '*' then [] else [name]) ++ ex)] else []))) := by
    have h1 := words_space (words_joined ["set".toList, "-a".toList, "a".toList] (by decide)) (words_joined ([name, d.getD [], g] ++
      (if isList then [joinWith [' '] ((if k.head? = some '*' then [] else [name]) ++ ex)] else [])) (by
        intro w hw
        simp only [List.mem_append, List.mem_cons, List.not_mem_nil, or_false] at hw
        rcases hw with (rfl | rfl | rfl) | hw
        · exact hr _ (by simp)
        · exact hr _ (by simp)
        · exact hg
        · exact hr _ (List.mem_append_right _ hw)))
    have e : joinQuoted ["set".toList, "-a".toList, "a".toList] = S "set -a a" := by decide
    rw [e] at h1
    simpa [S, call] using h1
  refine stmts_of_words ?_ (ends_call _ _ (by simp))
  cases cond with
  | none => simpa using hargs
  | some f =>
    have hl : isList = true := by rcases hp with h | h; exact h; cases h
    have hc : Words (S "$c") [.word [.exp "c".toList]] := words_name (S "c") (by decide) (by decide)
    have h2 := words_space hc (words_quote name (hr _ (by simp)))
    have hand : ∀ {t u : Str} {a b : List Tok} {w : List Char}, Words t (a ++ [lit w]) → Words u b →
        Words (t ++ S " && " ++ u) (a ++ [lit w] ++ [.and] ++ b) := by
      intro t u a b w ht hu l o
      obtain ⟨st, e1, e2, e3⟩ := ht l o
      obtain ⟨st', f1, f2, f3⟩ := hu (l ++ (a ++ [lit w]) ++ [.and]) o
      refine ⟨st', ?_, by rw [f2]; simp, by rw [f3]; simp⟩
      rw [List.append_assoc, run_append, e1, Option.bind_some]
      show (step st ' ').bind (fun st => (step st '&').bind (fun st => (step st '&').bind (fun st => (step st ' ').bind (fun st => run st u)))) = _
      rw [e3]
      have hends : endsInWord (l ++ (a ++ [lit w])) = true := by
        rw [← List.append_assoc]; exact endsInWord_append _ _
      simp only [Option.bind_some, step]
      simp only [show (('&' : Char) = ' ') = False by decide, show (('&' : Char) = '\t') = False by decide,
        show (('&' : Char) = '\n') = False by decide, show (('&' : Char) = ';') = False by decide,
        show (('&' : Char) = '\'') = False by decide, show (('&' : Char) = '"') = False by decide,
        show (('&' : Char) = '\\') = False by decide, show (('&' : Char) = '$') = False by decide,
        show (('&' : Char) = '(') = False by decide, show (('&' : Char) = '|') = False by decide,
        or_self, if_false, if_true, Option.bind_some]
      unfold operator
      rw [if_pos hends]
      simp only [Option.bind_some, true_or, if_true]
      exact f1
    have h3 := hand (a := [.word [.exp "c".toList]]) (w := name) h2 hargs
    simp only [hl, if_true] at h3 ⊢
    simpa [S] using h3

theorem stmts_keyCode (cond : Option Str) (hc : ∀ w ∈ cond.toList, fishReadable w = true) {lines : List Str} {sss : List (List Stmt)}
    (hl : All2 Stmts lines sss) {t : Str} {ws : List Str} (hw : Words t (call ws)) :
    Stmts (fishKeyValueCode cond lines t) (keyStart cond ++ sss.flatten ++ [call ws ++ [.word [.exp "a".toList]]]) := by
  have h1 : Stmts (S "set -l a") [call ["set".toList, "-l".toList, "a".toList]] :=
    stmts_call (ws := ["set".toList, "-l".toList, "a".toList]) (by simp) (by decide)
  have hlast := stmts_of_words (words_space hw (words_name (S "a") (by decide) (by decide))) (endsInWord_append _ _)
  have hbody := stmts_line (stmts_joined_lines hl) hlast
  unfold fishKeyValueCode keyStart
  cases cond with
  | none =>
    have := stmts_line h1 hbody
    simpa [S] using this
  | some f =>
    have h2 := words_space (words_joined ["set".toList, "-l".toList, "c".toList] (by decide)) (words_quote f (hc f (by simp)))
    have h3 := stmts_of_words h2 (endsInWord_append _ _)
    have e : joinQuoted ["set".toList, "-l".toList, "c".toList] = S "set -l c" := by decide
    rw [e] at h3
    have := stmts_line h1 (stmts_line h3 hbody)
    simpa [S, call] using this

end FishReads
end CC
