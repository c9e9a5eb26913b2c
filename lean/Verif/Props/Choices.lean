import Verif.Lemmas.Choices
import Verif.Props.Quoting
import Verif.Props.ZshUtils
import Verif.Lemmas.Glob
/-!
# C63: lists of choices

In every shell the words of a list or table of choices are offered as they are written, with their
descriptions where the shell shows them.
-/

namespace CC

/-- The descriptions of a table. -/
def Choices.descriptions : Choices → List Choice
  | .list _ => []
  | .table t => t.filterMap (·.2)

/-- What is to be offered: the words, each with its description if it has one that is not empty. -/
def Choices.offers : Choices → List (Str × Option Str)
  | .list l => l.map (fun c => (c.text, none))
  | .table t => t.map (fun e => (e.1.text, match e.2 with
    | some d => if d.text = [] then none else some d.text
    | none => none))

/-! ## Bash -/

theorem startsWith_isPrefix (w p : Str) : startsWith w p = p.isPrefixOf w := by
  rw [Bool.eq_iff_iff, startsWith_prefix, List.isPrefixOf_iff_prefix]

theorem behind_append (p s : Str) : BashWords.behind p (p ++ s) = some s := by
  simp [BashWords.behind]

theorem inFront_append (p s : Str) : BashWords.inFront p (s ++ p) = some s := by
  unfold BashWords.inFront
  rw [if_pos (by simp)]
  simp

theorem quote_of_plain {s : Str} (h : needsQuote s = false) : quote s = s := by
  simp [quote, h]

theorem fields_word (w t acc : Str) (h : ∀ c ∈ w, Posix.blank c = false) :
    BashWords.fields acc (w ++ t) = BashWords.fields (acc ++ w) t := by
  induction w generalizing acc with
  | nil => simp
  | cons c cs ih =>
    simp only [List.cons_append, BashWords.fields, h c (by simp), Bool.false_eq_true, if_false]
    rw [ih _ (fun x hx => h x (by simp [hx]))]
    simp

theorem fields_lines (ws : List Str) (h : ∀ w ∈ ws, w ≠ [] ∧ ∀ c ∈ w, isSafeChar c = true) :
    BashWords.fields [] (ws.flatMap (fun w => w ++ ['\n'])) = ws := by
  induction ws with
  | nil => simp [BashWords.fields]
  | cons w ws ih =>
    have hw := h w (by simp)
    simp only [List.flatMap_cons, List.append_assoc, List.cons_append, List.nil_append]
    rw [fields_word _ _ _ (fun c hc => (safe_not_special (hw.2 c hc)).1)]
    simp [BashWords.fields, Posix.blank, hw.1, ih (fun x hx => h x (by simp [hx]))]

theorem safe_no_glob {c : Char} (h : isSafeChar c = true) : BashWords.globbing.contains c = false := by
  rw [Bool.eq_false_iff]; intro hc
  simp only [BashWords.globbing, List.contains_iff_mem, List.mem_cons, List.not_mem_nil, or_false] at hc
  rcases hc with rfl | rfl | rfl | rfl <;> revert h <;> decide

theorem all2_self {α : Type} {R : α → α → Prop} {l : List α} (h : ∀ a ∈ l, R a a) : All2 R l l := by
  induction l with
  | nil => exact .nil
  | cons a l ih => exact .cons (h a (by simp)) (ih (fun b hb => h b (by simp [hb])))

theorem all2_mapped {α β : Type} {R : β → α → Prop} {f : α → β} {l : List α} (h : ∀ a, R (f a) a) :
    All2 R (l.map f) l := by
  induction l with
  | nil => exact .nil
  | cons a l ih => exact .cons (h a) ih

theorem words_of_compgen (a : Str) (ha : ∀ c ∈ a, isSafeChar c = true) (t : Str) :
    Posix.words (S "COMPREPLY" ++ a ++ (S "=($(compgen -W " ++ t)) = none := by
  have e : S "COMPREPLY" ++ a ++ (S "=($(compgen -W " ++ t) =
      (S "COMPREPLY" ++ a ++ ['=']) ++ '(' :: (S "$(compgen -W " ++ t) := by
    simp [S]
  rw [e]
  unfold Posix.words
  rw [read_gap_safe _ _ ?_ (by simp [S])]
  · simp [Posix.read, Posix.blank, Posix.special]
  · intro c hc
    simp only [List.mem_append, List.mem_cons, List.not_mem_nil, or_false] at hc
    rcases hc with (hc | hc) | rfl
    · revert c; decide
    · exact ha c hc
    · decide

/-- **C63**, Bash: the code for choices that are not empty adds to `COMPREPLY` (or replaces it by) one reply
for every choice that begins with the text of the word at the cursor, in their order, and the shell reads
each reply as that choice. `q` is what `printf '%q'` prints, that is a text that reads as its argument. -/
theorem C63_bash_partial (q : Str → Str) (hq : ∀ w, Posix.words (q w) = some [w]) (name : Str)
    (hname : name ≠ [] ∧ ∀ c ∈ name, isSafeChar c = true) (c : Choices) (h : ∀ w ∈ c.words, w.text ≠ [])
    (append : Bool) (cur : Str) (before : List Str) :
    ∃ replies, BashWords.run name (bashValues q cur) cur before (bashChoices name c append) =
        some ((if append then before else []) ++ replies) ∧
      All2 (fun r w => Posix.words r = some [w]) replies
        ((c.words.map Choice.text).filter (fun w => cur.isPrefixOf w)) := by
  have hne : ∀ v ∈ c.words.map Choice.text, v ≠ [] := by
    intro v hv
    obtain ⟨w, hw, rfl⟩ := List.mem_map.mp hv
    exact h w hw
  unfold bashChoices
  generalize c.words.map Choice.text = values at hne ⊢
  simp only
  split
  · -- the helper function
    have hw : Posix.words (name ++ S " " ++ (if append = true then S "-a " else []) ++ S "-- " ++ joinQuoted values) =
        some (name :: ((if append = true then [S "-a"] else []) ++ S "--" :: values)) := by
      unfold Posix.words
      simp only [List.append_assoc]
      rw [read_gap_safe _ _ hname.2 hname.1]
      have hj := read_join values
      cases append
      · simp only [Bool.false_eq_true, if_false, List.nil_append]
        have := read_line [] []
        simp only [S, String.reduceToList, List.cons_append, List.nil_append, Posix.read, Posix.blank]
        simp [hj, Posix.special]
      · simp only [if_true]
        simp only [S, String.reduceToList, List.cons_append, List.nil_append, Posix.read, Posix.blank]
        simp [hj, Posix.special]
    refine ⟨(values.filter (fun w => startsWith w cur)).map q, ?_, ?_⟩
    · unfold BashWords.run
      rw [hw]
      simp only [if_true]
      cases append
      · simp [bashValues, S]
      · simp [bashValues, S]
    · rw [show (fun w => startsWith w cur) = (fun w => cur.isPrefixOf w) from funext (fun w => startsWith_isPrefix w cur)]
      exact all2_mapped hq
  · -- compgen
    rename_i hn
    have hsafe : ∀ v ∈ values, needsQuote v = false := by
      intro v hv
      cases hq : needsQuote v with
      | false => rfl
      | true =>
        exact absurd (List.any_eq_true.mpr ⟨v, List.mem_filter.mpr ⟨hv, hq⟩, by simp [hne v hv]⟩) hn
    have hlist : joinWith [' '] values = joinQuoted values := by
      unfold joinQuoted
      have : values.map (fun a => quote a) = values.map id :=
        List.map_congr_left (fun v hv => quote_of_plain (hsafe v hv))
      rw [this, List.map_id]
    have hsc : ∀ v ∈ values, v ≠ [] ∧ ∀ c ∈ v, isSafeChar c = true := fun v hv => needsQuote_false (hsafe v hv)
    refine ⟨values.filter (fun w => cur.isPrefixOf w), ?_, ?_⟩
    · unfold BashWords.run
      have hno := words_of_compgen (if append = true then S "+" else []) (by
        cases append
        · simp
        · exact (by decide : ∀ c ∈ S "+", isSafeChar c = true)) (quote (joinWith [' '] values) ++ S " -- \"$cur\"))")
      simp only [List.append_assoc] at hno ⊢
      rw [hno]
      simp only
      unfold BashWords.compgen
      have e1 : BashWords.behind "COMPREPLY".toList (S "COMPREPLY" ++ ((if append = true then S "+" else []) ++
          (S "=($(compgen -W " ++ (quote (joinWith [' '] values) ++ S " -- \"$cur\"))")))) = some _ := behind_append _ _
      have e2 := behind_append (S "=($(compgen -W ") (quote (joinWith [' '] values) ++ S " -- \"$cur\"))")
      have e3 := inFront_append (S " -- \"$cur\"))") (quote (joinWith [' '] values))
      have e4 := C01_quote_roundtrip (joinWith [' '] values)
      have e5 : Posix.words (joinWith [' '] values) = some values := by
        rw [hlist]; exact read_join values
      have e6 : (values.filter (fun w => cur.isPrefixOf w)).any (fun w => w.any (fun c => BashWords.globbing.contains c)) = false := by
        rw [List.any_eq_false]
        intro w hw
        rw [List.mem_filter] at hw
        simp only [Bool.not_eq_true, List.any_eq_false]
        intro c hc
        rw [safe_no_glob ((hsc w hw.1).2 c hc)]
      have e7 := fields_lines (values.filter (fun w => cur.isPrefixOf w))
        (fun w hw => hsc w (List.mem_filter.mp hw).1)
      have hcomp : ∀ b : Bool, (do
          let r ← BashWords.behind "=($(compgen -W ".toList
            (S "=($(compgen -W " ++ (quote (joinWith [' '] values) ++ S " -- \"$cur\"))"))
          let w ← BashWords.inFront " -- \"$cur\"))".toList r
          match Posix.words w with
          | some [list] => do
            let ws ← Posix.words list
            if (ws.filter (fun w => cur.isPrefixOf w)).any (fun w => w.any (fun c => BashWords.globbing.contains c)) then none
            else some ((if b then before else []) ++
              BashWords.fields [] ((ws.filter (fun w => cur.isPrefixOf w)).flatMap (fun w => w ++ ['\n'])))
          | _ => none) = some ((if b then before else []) ++ values.filter (fun w => cur.isPrefixOf w)) := by
        intro b
        rw [show "=($(compgen -W ".toList = S "=($(compgen -W " from rfl, e2]
        rw [Option.bind_eq_bind, Option.bind_some, show " -- \"$cur\"))".toList = S " -- \"$cur\"))" from rfl, e3]
        rw [Option.bind_eq_bind, Option.bind_some, e4]
        simp only
        rw [e5, Option.bind_some, e6, e7]
        simp
      rw [e1, Option.bind_eq_bind, Option.bind_some]
      cases append
      · exact hcomp false
      · exact hcomp true
    · apply all2_self
      intro w hw
      have := C01_quote_roundtrip w
      rwa [quote_of_plain (hsafe w (List.mem_filter.mp hw).1)] at this

/-- **C63 is false in Bash for an empty choice**: it is not counted among those that need quotes, and the
word list has no trace of it. -/
theorem C63_bash_empty (q : Str → Str) :
    bashChoices (S "_values") (.list [.str [], .str (S "x")]) false = S "COMPREPLY=($(compgen -W ' x' -- \"$cur\"))" ∧
    BashWords.run (S "_values") (bashValues q []) [] [] (S "COMPREPLY=($(compgen -W ' x' -- \"$cur\"))") =
      some [S "x"] := by
  refine ⟨by decide, ?_⟩
  unfold BashWords.run
  rw [show Posix.words (S "COMPREPLY=($(compgen -W ' x' -- \"$cur\"))") = none by decide]
  show BashWords.compgen [] [] (S "COMPREPLY=($(compgen -W ' x' -- \"$cur\"))") = some [S "x"]
  decide +kernel

/-- Choices of both kinds. -/
theorem C63_bash_example :
    bashChoices (S "_values") (.list [.str (S "a b"), .int 5]) true = S "_values -a -- 'a b' 5" ∧
    bashChoices (S "_values") (.table [(.str (S "up"), none), (.int 5, some (.str (S "five")))]) false =
      S "COMPREPLY=($(compgen -W 'up 5' -- \"$cur\"))" := by
  refine ⟨by decide +kernel, by decide +kernel⟩

/-! ## Zsh -/

theorem unescape_plain {s : Str} (h : '\\' ∉ s) : ZshWords.unescape s = s := by
  induction s with
  | nil => rfl
  | cons c cs ih =>
    simp only [List.mem_cons, not_or] at h
    rw [ZshWords.unescape.eq_def]
    split <;> simp_all

theorem atColon_plain {s : Str} (h : '\\' ∉ s) (hc : ':' ∉ s) (t : Str) :
    ZshWords.atColon (s ++ ':' :: t) = (s, some t) ∧ ZshWords.atColon s = (s, none) := by
  induction s with
  | nil => simp [ZshWords.atColon]
  | cons c cs ih =>
    simp only [List.mem_cons, not_or] at h hc
    obtain ⟨h1, h2⟩ := ih h.2 hc.2
    constructor
    · rw [List.cons_append, ZshWords.atColon.eq_def]
      split <;> simp_all
    · rw [ZshWords.atColon.eq_def]
      split <;> simp_all

theorem atColon_escaped {s : Str} (h : '\\' ∉ s) (t : Str) :
    ZshWords.atColon (escapeColon s ++ ':' :: t) = (escapeColon s, some t) ∧
    ZshWords.atColon (escapeColon s) = (escapeColon s, none) ∧ ZshWords.unescape (escapeColon s) = s := by
  induction s with
  | nil => simp [ZshWords.atColon, escapeColon, replaceChar, ZshWords.unescape]
  | cons c cs ih =>
    simp only [List.mem_cons, not_or] at h
    obtain ⟨h1, h2, h3⟩ := ih h.2
    rw [escapeColon_cons]
    by_cases hc : c = ':'
    · subst hc
      simp [ZshWords.atColon, ZshWords.unescape, h1, h2, h3]
    · simp only [hc, if_false]
      refine ⟨?_, ?_, ?_⟩
      · simp only [List.cons_append, List.nil_append]
        rw [ZshWords.atColon.eq_def]; split <;> simp_all
      · simp only [List.cons_append, List.nil_append]
        rw [ZshWords.atColon.eq_def]; split <;> simp_all
      · simp only [List.cons_append, List.nil_append]
        rw [ZshWords.unescape.eq_def]; split <;> simp_all

theorem inFront_two (b : Str) : BashWords.inFront "))".toList (b ++ S "))") = some b := inFront_append _ _
theorem inFront_one (b : Str) : BashWords.inFront ")".toList (b ++ S ")") = some b := inFront_append _ _

theorem quote_not_paren (s t : Str) : ∃ c r, quote s ++ t = c :: r ∧ c ≠ '(' := by
  unfold quote
  simp only [Bool.not_true, Bool.and_false, Bool.false_eq_true, if_false]
  split
  · rename_i h
    have := needsQuote_false (by simpa using h)
    cases s with
    | nil => exact absurd rfl this.1
    | cons c cs => exact ⟨c, cs ++ t, rfl, by rintro rfl; exact absurd (this.2 '(' (by simp)) (by decide)⟩
  · split
    · exact ⟨_, _, rfl, by decide⟩
    · split
      · exact ⟨_, _, rfl, by decide⟩
      · exact ⟨_, _, rfl, by decide⟩

theorem offered_single (l : List Str) :
    ZshWords.offered (S "(" ++ joinQuoted l ++ S ")") = some (l.map (fun w => (w, none))) := by
  have hin := inFront_one (joinQuoted l)
  have hw : Posix.words (joinQuoted l) = some l := read_join l
  have : ∃ c r, joinQuoted l ++ S ")" = c :: r ∧ c ≠ '(' := by
    match l with
    | [] => exact ⟨')', [], by decide, by decide⟩
    | [x] => simpa [joinQuoted, joinWith] using quote_not_paren x (S ")")
    | x :: y :: r =>
      simp only [joinQuoted, List.map_cons, joinWith, List.append_assoc]
      exact quote_not_paren x _
  obtain ⟨c, r, he, hc⟩ := this
  have e : S "(" ++ joinQuoted l ++ S ")" = '(' :: c :: r := by
    rw [List.append_assoc, he]; rfl
  rw [e]
  rw [he] at hin
  unfold ZshWords.offered
  split
  · rename_i h; simp at h; exact absurd h.1 hc
  · rename_i h1 h
    simp only [List.cons.injEq, true_and] at h
    subst h
    rw [hin]
    simp [hw]
  · rename_i h1 h2; exact absurd rfl (h2 _)

/-- Reading items that stand side by side with blanks between them. -/
theorem read_items {α : Type} (text : α → Str) (word : α → Str)
    (h : ∀ a t, Posix.read .gap [] (text a ++ t) = Posix.read .word (word a) t) (l : List α) :
    Posix.words (joinWith [' '] (l.map text)) = some (l.map word) := by
  unfold Posix.words
  match l with
  | [] => simp [joinWith, Posix.read]
  | [x] =>
    have := h x []
    simp only [List.append_nil] at this
    simp [joinWith, this, Posix.read]
  | x :: y :: xs =>
    have ih := read_items text word h (y :: xs)
    unfold Posix.words at ih
    simp only [List.map_cons, joinWith, List.append_assoc, List.cons_append, List.nil_append] at ih ⊢
    rw [h]
    simp only [Posix.read, Posix.blank]
    simp [ih]

/-- The element of an array for an entry. -/
def zshElement (e : Choice × Option Choice) : Str :=
  e.1.text ++ (if (str0 e.2).isEmpty then [] else ':' :: str0 e.2)

theorem read_zshDictItem (e : Choice × Option Choice) (t : Str) :
    Posix.read .gap [] (zshDictItem e ++ t) = Posix.read .word (zshElement e) t := by
  unfold zshDictItem zshElement
  rw [List.append_assoc, read_quote_gap]
  split
  · simp
  · have : Posix.read .word e.1.text (S ":" ++ quote (str0 e.2) ++ t) =
        Posix.read .word (e.1.text ++ [':']) (quote (str0 e.2) ++ t) := by
      simp [S, Posix.read, Posix.blank, Posix.special]
    rw [this, read_quote_word]
    simp

theorem offered_double (t : List (Choice × Option Choice)) :
    ZshWords.offered (S "((" ++ joinWith [' '] (t.map zshDictItem) ++ S "))") =
      some ((t.map zshElement).map ZshWords.described) := by
  have e : S "((" ++ joinWith [' '] (t.map zshDictItem) ++ S "))" =
      '(' :: '(' :: (joinWith [' '] (t.map zshDictItem) ++ S "))") := rfl
  rw [e]
  unfold ZshWords.offered
  simp only
  rw [inFront_two, Option.bind_some, read_items zshDictItem zshElement read_zshDictItem]
  simp

/-- **C63**, Zsh, an action in place: the shell reads the action as one text, and as an action of
`_arguments` it offers the words, with the descriptions of a table. The words and descriptions of a table
must have no backslash; a list may have any words. -/
theorem C63_zsh_inline_partial (metavar : Str) (lineLength : Int) (c : Choices) (action : Str)
    (h : zshChoices metavar lineLength c = .ok (.inline action))
    (hb : ∀ t, c = .table t → ∀ x ∈ c.words ++ c.descriptions, '\\' ∉ x.text) :
    ∃ t, Posix.words action = some [t] ∧ ZshWords.offered t = some c.offers := by
  cases c with
  | list l =>
    simp only [zshChoices, zshListAction] at h
    split at h
    · simp only [Except.ok.injEq, Placed.inline.injEq] at h
      subst h
      refine ⟨_, C01_quote_roundtrip _, ?_⟩
      have := offered_single (l.map Choice.text)
      simp only [joinQuoted, List.map_map] at this
      simp only [Choices.offers]
      exact this
    · cases hf : zshListFunction metavar lineLength l <;> rw [hf] at h <;> cases h
  | table t =>
    simp only [zshChoices, Except.ok.injEq] at h
    simp only [zshDictAction] at h
    split at h
    · rename_i hcond
      simp only [Bool.and_eq_true, Bool.not_eq_true', decide_eq_true_eq] at hcond
      simp only [Placed.inline.injEq] at h
      subst h
      refine ⟨_, C01_quote_roundtrip _, ?_⟩
      rw [offered_double]
      simp only [Choices.offers, List.map_map]
      congr 1
      apply List.map_congr_left
      intro e he
      simp only [Function.comp_apply]
      have hcol := List.any_eq_false.mp hcond.1
      have h1 : ':' ∉ e.1.text := by
        have := hcol e.1.text (List.mem_append_left _ (List.mem_map.mpr ⟨e, he, rfl⟩))
        simpa using this
      have hb1 : '\\' ∉ e.1.text := hb t rfl e.1 (List.mem_append_left _ (List.mem_map.mpr ⟨e, he, rfl⟩))
      unfold ZshWords.described zshElement
      obtain ⟨w, d⟩ := e
      cases d with
      | none =>
        simp only [str0, List.isEmpty_nil, if_true, List.append_nil]
        rw [(atColon_plain hb1 h1 []).2]
        simp [unescape_plain hb1]
      | some d =>
        simp only [str0]
        by_cases hd : d.text = []
        · simp only [hd, List.isEmpty_nil, if_true, List.append_nil]
          rw [(atColon_plain hb1 h1 []).2]
          simp [unescape_plain hb1]
        · have he' : d.text.isEmpty = false := by simpa using hd
          simp only [he', hd, Bool.false_eq_true, if_false]
          rw [(atColon_plain hb1 h1 _).1]
          have hb2 : '\\' ∉ d.text := hb t rfl d (List.mem_append_right _ (List.mem_filterMap.mpr ⟨(w, some d), he, rfl⟩))
          simp [unescape_plain hb1, unescape_plain hb2]
    · cases h

/-- What the list function needs: strings. -/
theorem C63_zsh_strings (metavar : Str) (lineLength : Int) (l : List Choice) :
    (∃ body, zshListFunction metavar lineLength l = .ok body) ↔ ∀ c ∈ l, ∃ s, c = .str s := by
  have key : ∀ l : List Choice, (∃ r, mapE (fun c => do let e ← escapeColonChoice c; .ok (quote e)) l = .ok r) ↔
      ∀ c ∈ l, ∃ s, c = .str s := by
    intro l
    induction l with
    | nil => simp [mapE]
    | cons c cs ih =>
      cases c with
      | str s =>
        simp only [mapE, escapeColonChoice, List.mem_cons, forall_eq_or_imp]
        rw [← ih]
        constructor
        · rintro ⟨r, hr⟩
          refine ⟨⟨s, rfl⟩, ?_⟩
          cases hm : mapE (fun c => do let e ← escapeColonChoice c; Except.ok (quote e)) cs with
          | ok r' => exact ⟨r', rfl⟩
          | error e =>
            simp only [escapeColonChoice] at hm hr
            rw [hm] at hr; cases hr
        · rintro ⟨_, r, hr⟩
          simp only [escapeColonChoice] at hr
          exact ⟨quote (escapeColon s) :: r, by rw [hr]; rfl⟩
      | int i =>
        constructor
        · rintro ⟨r, hr⟩; cases hr
        · intro h; obtain ⟨s, hs⟩ := h (.int i) (by simp); cases hs
  unfold zshListFunction
  rw [← key]
  constructor
  · rintro ⟨b, hb⟩
    cases hm : mapE (fun c => do let e ← escapeColonChoice c; Except.ok (quote e)) l with
    | ok r => exact ⟨r, rfl⟩
    | error e => rw [hm] at hb; cases hb
  · rintro ⟨r, hr⟩
    rw [hr]
    exact ⟨_, rfl⟩

/-- **C63 is false in Zsh for a long list with an integer**: the generation fails. -/
theorem C63_zsh_integer (metavar : Str) (lineLength : Int) (l : List Choice) (i : Int) (hi : .int i ∈ l)
    (hlong : inlineThreshold < (quote (S "(" ++ joinWith [' '] (l.map (fun c => quote c.text)) ++ S ")")).length) :
    ∃ e, zshChoices metavar lineLength (.list l) = .error e := by
  simp only [zshChoices, zshListAction]
  rw [if_neg (by omega)]
  cases hf : zshListFunction metavar lineLength l with
  | ok b =>
    have := (C63_zsh_strings metavar lineLength l).mp ⟨b, hf⟩ _ hi
    obtain ⟨s, hs⟩ := this
    cases hs
  | error e => exact ⟨e, rfl⟩

theorem mapE_quoted (l : List Str) :
    mapE (fun c => do let e ← escapeColonChoice c; .ok (quote e)) (l.map Choice.str) =
      .ok ((l.map escapeColon).map (fun i => quote i)) := by
  induction l with
  | nil => rfl
  | cons s l ih =>
    simp only [List.map_cons, mapE, escapeColonChoice] at ih ⊢
    rw [ih]; rfl

theorem words_describe (metavar : Str) :
    Posix.words (S "_describe -- " ++ quote metavar ++ S " items") =
      some ["_describe".toList, "--".toList, metavar, "items".toList] := by
  have e : S "_describe -- " ++ quote metavar ++ S " items" = joinQuoted [S "_describe", S "--", metavar, S "items"] := by
    have h1 : quote (S "_describe") = S "_describe" := by decide
    have h2 : quote (S "--") = S "--" := by decide
    have h3 : quote (S "items") = S "items" := by decide
    simp only [joinQuoted, List.map_cons, List.map_nil, joinWith, h1, h2, h3]
    simp [S]
  rw [e]
  exact read_join _

/-- **C63**, Zsh, a function for a list: strings without backslashes and newlines are offered. -/
theorem C63_zsh_list_function_partial (metavar : Str) (lineLength : Int) (l : List Str)
    (h : ∀ s ∈ l, '\\' ∉ s ∧ '\n' ∉ s) :
    ∃ body, zshChoicesFunction metavar lineLength (.list (l.map .str)) = .ok body ∧
      ZshWords.functionOffers body metavar (Choices.list (l.map .str)).offers := by
  obtain ⟨lines, h1, h2, h3⟩ := wrapped_quoted [] (by simp) (lineLength - 2) (l.map escapeColon) (by
    intro i hi
    obtain ⟨s, hs, rfl⟩ := List.mem_map.mp hi
    intro hm
    unfold escapeColon at hm
    rcases mem_replaceChar hm with q | q
    · exact (h s hs).2 q
    · simp at q)
  refine ⟨S "local items=(\n" ++ (joinWith ['\n'] (lines.map (fun l => [' ', ' '] ++ joinQuoted l)) ++ ['\n']) ++ S ")\n\n" ++
    (S "_describe -- " ++ quote metavar ++ S " items"), ?_, ?_⟩
  · simp only [zshChoicesFunction, zshListFunction, mapE_quoted]
    simp only [List.nil_append] at h3
    rw [← h3]
    simp [S]
    rfl
  · refine ⟨_, _, l.map escapeColon, rfl, ?_, words_describe metavar, ?_⟩
    · have := read_lines lines []
      rw [h1] at this
      simpa [Posix.words, Posix.read] using this
    · simp only [Choices.offers, List.map_map]
      apply List.map_congr_left
      intro s hs
      have := atColon_escaped (h s hs).1 []
      simp [ZshWords.described, this.2.1, this.2.2, Choice.text]

/-- The element of an array of a function for an entry. -/
def zshFunctionElement (e : Choice × Option Choice) : Str :=
  escapeColon e.1.text ++ (match e.2 with
    | some d => if d.truthy then ':' :: d.text else []
    | none => [])

theorem read_zshDictLine (e : Choice × Option Choice) (t : Str) :
    Posix.read .gap [] (zshDictLine e ++ t) = (Posix.read .gap [] t).map (zshFunctionElement e :: ·) := by
  have hb : ∀ r, Posix.read .gap [] (S "  " ++ r) = Posix.read .gap [] r := by
    intro r; simp [S, Posix.read, Posix.blank]
  have hn : ∀ w r, Posix.read .word w (S "\n" ++ r) = (Posix.read .gap [] r).map (w :: ·) := by
    intro w r; simp [S, Posix.read, Posix.blank]
  obtain ⟨w, d⟩ := e
  unfold zshDictLine zshFunctionElement
  simp only [List.append_assoc]
  rw [hb, read_quote_gap]
  cases d with
  | none => simp only [List.nil_append, List.append_nil]; rw [hn]
  | some d =>
    simp only
    split
    · have : ∀ r, Posix.read .word (escapeColon w.text) (S ":" ++ r) =
          Posix.read .word (escapeColon w.text ++ [':']) r := by
        intro r; simp [S, Posix.read, Posix.blank, Posix.special]
      rw [List.append_assoc, this, read_quote_word, hn]
      simp
    · simp only [List.nil_append, List.append_nil]; rw [hn]

theorem read_zshDictLines (t : List (Choice × Option Choice)) :
    Posix.words (t.flatMap zshDictLine) = some (t.map zshFunctionElement) := by
  unfold Posix.words
  induction t with
  | nil => simp [Posix.read]
  | cons e t ih => simp [read_zshDictLine, ih]

/-- **C63**, Zsh, a function for a table: words and descriptions without backslashes are offered. A
description that is the number zero is left out. -/
theorem C63_zsh_table_function_partial (metavar : Str) (lineLength : Int) (t : List (Choice × Option Choice))
    (h : ∀ x ∈ (Choices.table t).words ++ (Choices.table t).descriptions, '\\' ∉ x.text)
    (h0 : ∀ e ∈ t, e.2 ≠ some (.int 0)) :
    ∃ body, zshChoicesFunction metavar lineLength (.table t) = .ok body ∧
      ZshWords.functionOffers body metavar (Choices.table t).offers := by
  refine ⟨_, rfl, t.flatMap zshDictLine, S "_describe -- " ++ quote metavar ++ S " items", t.map zshFunctionElement,
    ?_, read_zshDictLines t, words_describe metavar, ?_⟩
  · unfold zshDictFunction; simp [S]
  · simp only [Choices.offers, List.map_map]
    apply List.map_congr_left
    intro e he
    obtain ⟨w, d⟩ := e
    have hb1 : '\\' ∉ w.text := h w (List.mem_append_left _ (List.mem_map.mpr ⟨(w, d), he, rfl⟩))
    have ha := atColon_escaped hb1
    simp only [Function.comp_apply, ZshWords.described, zshFunctionElement]
    cases d with
    | none =>
      simp only [List.append_nil]
      rw [(ha []).2.1]; simp [(ha []).2.2]
    | some d =>
      have htr : d.truthy = !d.text.isEmpty := by
        cases d with
        | str s => rfl
        | int i =>
          have hi : i ≠ 0 := by
            rintro rfl; exact h0 _ he rfl
          have : intStr i ≠ [] := by
            unfold intStr; split
            · simp
            · exact natStr_ne_nil _
          have h2 : (intStr i).isEmpty = false := by simpa using this
          simp only [Choice.truthy, Choice.text, h2]
          simpa using hi
      simp only [htr]
      by_cases hd : d.text = []
      · simp only [hd, List.isEmpty_nil, Bool.not_true, Bool.false_eq_true, if_false, List.append_nil, if_true]
        rw [(ha []).2.1]; simp [(ha []).2.2]
      · rw [if_pos (by simpa using hd), if_neg hd, (ha d.text).1]
        have hb2 : '\\' ∉ d.text := h d (List.mem_append_right _ (List.mem_filterMap.mpr ⟨(w, some d), he, rfl⟩))
        simp [(ha []).2.2, unescape_plain hb2]

/-- **C63 is false in Zsh for backslashes in a function**: `_describe` removes them. -/
theorem C63_zsh_backslash :
    ∃ body, zshChoicesFunction [] 80 (.list [.str (S "a\\b"), .str (S "c")]) = .ok body ∧
      ZshWords.functionOffers body [] [(S "ab", none), (S "c", none)] := by
  refine ⟨S "local items=(\n  'a\\b' c\n)\n\n_describe -- '' items", by rfl, S "  'a\\b' c\n", S "_describe -- '' items",
    [S "a\\b", S "c"], by decide +kernel, by decide +kernel, by decide +kernel, by decide +kernel⟩

end CC
