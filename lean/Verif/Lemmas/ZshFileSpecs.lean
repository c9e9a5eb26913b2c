import Verif.Lemmas.ZshFileSim
import Verif.Props.ZshScript
/-!
# Lemmas: the specs of a function are words on one line (C93)
-/

namespace CC
namespace ZshLex
open ZshText

theorem tight_cons {c : Char} {r : Str} (hr : Tight r) (h : r = [] → Posix.blank c = false) : Tight (c :: r) := by
  intro d hd
  cases r with
  | nil => simp at hd; subst hd; exact h rfl
  | cons x xs => rw [List.getLast?_cons_cons] at hd; exact hr d hd

theorem tight_append {a r : Str} (ha : Tight a) (hr : Tight r) : Tight (a ++ r) := by
  induction a with
  | nil => exact hr
  | cons c a ih =>
    refine tight_cons (ih (tight_tail ha)) (fun h => ?_)
    have : a = [] := by
      cases a with
      | nil => rfl
      | cons => simp at h
    subst this
    exact ha c rfl

theorem escapeColonGo_ne : ∀ (s : Str) (m : QuoteMode) (r : Str), escapeColonGo m s = .ok r → r = [] → m = .plain ∧ s = [] := by
  intro s
  induction s with
  | nil => intro m r h hr; cases m <;> simp [escapeColonGo] at h ⊢
  | cons c cs ih =>
    intro m r h hr
    subst hr
    cases m with
    | plain =>
      rw [escapeColonGo] at h
      split at h
      · have := (ih _ _ h rfl).1; cases this
      · split at h
        · have := (ih _ _ h rfl).1; cases this
        · split at h
          · obtain ⟨x, -, h⟩ := bind_ok h; simp at h
          · obtain ⟨x, -, h⟩ := bind_ok h; simp at h
    | single sub =>
      rw [escapeColonGo] at h
      split at h
      · obtain ⟨x, -, h⟩ := bind_ok h; simp at h
      · have := (ih _ _ h rfl).1; cases this
    | double sub =>
      rw [escapeColonGo] at h
      split at h
      · have := (ih _ _ h rfl).1; cases this
      · split at h
        · obtain ⟨x, -, h⟩ := bind_ok h; simp at h
        · have := (ih _ _ h rfl).1; cases this
    | doubleEsc sub =>
      rw [escapeColonGo] at h
      have := (ih _ _ h rfl).1; cases this

/-- The quoted text that was read so far. -/
def modeText : QuoteMode → Str
  | .plain => []
  | .single s => s
  | .double s => s
  | .doubleEsc s => s

theorem escapeColonGo_line : ∀ (s : Str) (m : QuoteMode) (r : Str), escapeColonGo m s = .ok r → '\n' ∉ modeText m → '\n' ∉ s → Tight s →
    '\n' ∉ r ∧ Tight r := by
  intro s
  induction s with
  | nil =>
    intro m r h _ _ _
    cases m <;> simp [escapeColonGo] at h
    subst h
    exact ⟨by simp, fun c hc => by simp at hc⟩
  | cons c cs ih =>
    intro m r h hm hn ht
    have hn' : '\n' ≠ c ∧ '\n' ∉ cs := by simpa using hn
    have ht' := tight_tail ht
    have hlast : cs = [] → Posix.blank c = false := fun e => ht c (by rw [e]; rfl)
    have quoted : ∀ (q : Char) (y sub x : Str), q = '\'' ∨ q = '"' → '\n' ∉ y → '\n' ∉ sub → escapeColonGo .plain cs = .ok x →
        '\n' ∉ [q] ++ replaceChar ':' y sub ++ [q] ++ x ∧ Tight ([q] ++ replaceChar ':' y sub ++ [q] ++ x) := by
      intro q y sub x hq hy hs hx
      obtain ⟨i1, i2⟩ := ih .plain x hx (by simp [modeText]) hn'.2 ht'
      have hqn : '\n' ≠ q := by rcases hq with rfl | rfl <;> decide
      have hqb : Posix.blank q = false := by rcases hq with rfl | rfl <;> decide
      constructor
      · simp only [List.mem_append, List.mem_singleton, not_or]
        exact ⟨⟨⟨hqn, replaceChar_break _ _ _ hy hs⟩, hqn⟩, i1⟩
      · rw [List.append_assoc]
        intro d hd
        rw [List.getLast?_append] at hd
        have h2 : Tight ([q] ++ x) := tight_cons i2 (fun _ => hqb)
        cases hl : ([q] ++ x).getLast? with
        | none => simp at hl
        | some e => rw [hl] at hd; simp at hd; subst hd; exact h2 e hl
    cases m with
    | plain =>
      rw [escapeColonGo] at h
      split at h
      · exact ih _ _ h (by simp [modeText]) hn'.2 ht'
      · split at h
        · exact ih _ _ h (by simp [modeText]) hn'.2 ht'
        · split at h
          · obtain ⟨x, hx, h⟩ := bind_ok h
            cases h
            obtain ⟨i1, i2⟩ := ih .plain x hx (by simp [modeText]) hn'.2 ht'
            refine ⟨by simpa using i1, ?_⟩
            exact tight_append (a := ['\\', '\\', ':']) (by intro d hd; simp at hd; subst hd; decide) i2
          · obtain ⟨x, hx, h⟩ := bind_ok h
            cases h
            obtain ⟨i1, i2⟩ := ih .plain x hx (by simp [modeText]) hn'.2 ht'
            refine ⟨by simp only [List.mem_cons, not_or]; exact ⟨hn'.1, i1⟩, ?_⟩
            exact tight_cons i2 (fun e => hlast (escapeColonGo_ne _ _ _ hx e).2)
    | single sub =>
      rw [escapeColonGo] at h
      split at h
      · obtain ⟨x, hx, h⟩ := bind_ok h
        cases h
        exact quoted '\'' _ sub x (Or.inl rfl) (by decide) hm hx
      · refine ih _ _ h ?_ hn'.2 ht'
        simp only [modeText] at hm ⊢
        simp only [List.mem_append, List.mem_singleton, not_or]
        exact ⟨hm, hn'.1⟩
    | double sub =>
      rw [escapeColonGo] at h
      split at h
      · exact ih _ _ h hm hn'.2 ht'
      · split at h
        · obtain ⟨x, hx, h⟩ := bind_ok h
          cases h
          exact quoted '"' _ sub x (Or.inr rfl) (by decide) hm hx
        · refine ih _ _ h ?_ hn'.2 ht'
          simp only [modeText] at hm ⊢
          simp only [List.mem_append, List.mem_singleton, not_or]
          exact ⟨hm, hn'.1⟩
    | doubleEsc sub =>
      rw [escapeColonGo] at h
      refine ih _ _ h ?_ hn'.2 ht'
      simp only [modeText] at hm ⊢
      simp only [List.mem_append, List.mem_singleton, not_or]
      exact ⟨hm, hn'.1⟩

theorem escapeColonQuoted_line {s r : Str} (h : escapeColonQuoted s = .ok r) (hn : '\n' ∉ s) (ht : Tight s) : '\n' ∉ r ∧ Tight r := by
  unfold escapeColonQuoted at h
  split at h
  · exact escapeColonGo_line s .plain r h (by simp [modeText]) hn ht
  · cases h; exact ⟨hn, ht⟩

/-- An action that Zsh reads as one word, on one line and without a blank at its end. -/
structure LineAction (a : Str) : Prop where
  word : ReadableAction a
  line : '\n' ∉ a
  tight : Tight a

theorem adds_action {a r : Str} (h : LineAction a) (hr : escapeColonQuoted a = .ok r) : Adds r ∧ '\n' ∉ r := by
  obtain ⟨t, h1, h2, h3, -⟩ := h.word
  obtain ⟨act, e, hread⟩ := action_word h1 h3 h2
  rw [hr] at e
  cases e
  obtain ⟨l1, l2⟩ := escapeColonQuoted_line hr h.line h.tight
  exact ⟨adds_of_read l1 l2 (hread []), l1⟩

theorem escapeColon_break {s : Str} (h : '\n' ∉ s) : '\n' ∉ escapeColon s := replaceChar_break _ _ _ (by decide) h

theorem adds_colon : Adds [':'] := adds_safe [':'] (by decide)

/-! ## Options -/

theorem simple_break {s : Str} (h : SimpleOption s) : '\n' ∉ s := by
  intro hm
  have := (plain_char (h.2.2.2 _ hm)).1
  revert this; decide

theorem adds_bang : Adds (S "'!'") := by
  intro w o
  simp [S, run, step, wordStep]

theorem adds_star : Adds (S "'*'") := by
  intro w o
  simp [S, run, step, wordStep]

theorem uniq_sub {l : List Str} {x : Str} (h : x ∈ uniq l) : x ∈ l := (C40_uniq_mem l x).mp h

theorem front_line (o : ZshOption) (h : ∀ s ∈ o.optionStrings ++ o.conflicting, '\n' ∉ s) : Adds o.front ∧ '\n' ∉ o.front := by
  have hx : '\n' ∉ ['('] ++ joinWith [' '] (uniq o.notOptions) ++ [')'] := by
    simp only [List.mem_append, List.mem_singleton, not_or]
    refine ⟨⟨by decide, joinWith_break (by decide) _ (fun x hx => ?_)⟩, by decide⟩
    have hx := uniq_sub hx
    unfold ZshOption.notOptions at hx
    split at hx
    · simp at hx; subst hx; decide
    · rcases List.mem_append.mp hx with hx | hx
      · obtain ⟨y, hy, rfl⟩ := List.mem_map.mp hx
        exact escapeColon_break (h y (List.mem_append_right _ (mem_sortStrs.mp hy)))
      · split at hx
        · simp at hx
        · obtain ⟨y, hy, rfl⟩ := List.mem_map.mp hx
          exact escapeColon_break (h y (List.mem_append_left _ (mem_sortStrs.mp hy)))
  unfold ZshOption.front
  constructor
  · refine adds_append (adds_append ?_ ?_) ?_
    · split
      · exact adds_bang
      · exact adds_nil
    · split
      · exact adds_nil
      · exact adds_quote _ hx
    · split
      · exact adds_star
      · exact adds_nil
  · simp only [List.mem_append, not_or]
    refine ⟨⟨?_, ?_⟩, ?_⟩
    · split <;> decide
    · split
      · simp
      · exact quote_break _ hx
    · split <;> decide

/-- The texts of an option are on one line. -/
structure LineOption (act : ZshActions) (o : Opt) : Prop where
  help : ∀ d, o.help = some d → '\n' ∉ d
  metavar : ∀ m, o.metavar = some m → '\n' ∉ m
  action : truthyList o.complete = true → LineAction (act.option o)

theorem back_line (z : ZshOption) (hd : ∀ d, z.description = some d → '\n' ∉ d) (hm : ∀ m, z.metavar = some m → '\n' ∉ m)
    (ha : z.complete = true → LineAction z.action) {b : Str} (h : z.back = .ok b) : Adds b ∧ '\n' ∉ b := by
  have h1 : Adds (descriptionText z.description) ∧ '\n' ∉ descriptionText z.description := by
    cases hz : z.description with
    | none => exact ⟨adds_nil, by simp [descriptionText]⟩
    | some d =>
      have hn : '\n' ∉ ['['] ++ escapeColon (escapeSquareBrackets d) ++ [']'] := by
        have : '\n' ∉ escapeColon (escapeSquareBrackets d) := by
          refine escapeColon_break ?_
          unfold escapeSquareBrackets
          exact replaceChar_break _ _ _ (by decide) (replaceChar_break _ _ _ (by decide) (hd d hz))
        simpa using this
      exact ⟨adds_quote _ hn, quote_break _ hn⟩
  unfold ZshOption.back at h
  cases hc : z.complete with
  | false =>
    rw [hc] at h
    cases h
    exact h1
  | true =>
    rw [hc] at h
    simp only [if_true] at h
    obtain ⟨a, haq, h⟩ := bind_ok h
    cases h
    obtain ⟨a1, a2⟩ := adds_action (ha hc) haq
    have hmv : '\n' ∉ escapeColon (z.metavar.getD [' ']) := by
      refine escapeColon_break ?_
      cases hz : z.metavar with
      | none => simp
      | some m => exact hm m hz
    refine ⟨adds_append (adds_append (adds_append (adds_append h1.1 adds_colon) (adds_quote _ hmv)) adds_colon) a1, ?_⟩
    simp only [List.mem_append, not_or]
    exact ⟨⟨⟨⟨h1.2, by decide⟩, quote_break _ hmv⟩, by decide⟩, a2⟩

/-- Characters in the names of a spec. -/
def nameChar (c : Char) : Bool := isSafeChar c || c == '{' || c == '}'

theorem nameChar_plain {c : Char} (h : nameChar c = true) : c ∉ ['\'', '"', '\\', '(', '$', '<', '>', '`', ' ', '\t', '\n', '&', '|', ';', ')'] := by
  intro hm
  simp only [List.mem_cons, List.not_mem_nil, or_false] at hm
  rcases hm with rfl | rfl | rfl | rfl | rfl | rfl | rfl | rfl | rfl | rfl | rfl | rfl | rfl | rfl | rfl <;> revert h <;> decide

theorem names_line (names : Str) (hne : names ≠ []) (h : ∀ c ∈ names, nameChar c = true) :
    Adds names ∧ '\n' ∉ names ∧ ∃ c, names.head? = some c ∧ begins c = true := by
  refine ⟨adds_plain _ (fun c hc => nameChar_plain (h c hc)), fun hm => nameChar_plain (h _ hm) (by decide), ?_⟩
  cases names with
  | nil => exact absurd rfl hne
  | cons c r =>
    refine ⟨c, rfl, ?_⟩
    have hc := nameChar_plain (h c (by simp))
    have h2 := h c (by simp)
    unfold begins
    have h3 : c ≠ '#' := by rintro rfl; revert h2; decide
    simp only [List.mem_cons, List.not_mem_nil, or_false, not_or] at hc
    simp [hc, h3]

theorem front_begins (o : ZshOption) {c : Char} (h : o.front.head? = some c) : begins c = true := by
  unfold ZshOption.front at h
  cases hh : o.hidden with
  | true => rw [hh] at h; simp [S] at h; subst h; decide
  | false =>
    rw [hh] at h
    simp only [Bool.false_eq_true, if_false, List.nil_append] at h
    cases hn : o.notOptions.isEmpty with
    | true =>
      rw [hn] at h
      cases hr : o.repeatable with
      | true => rw [hr] at h; simp [S] at h; subst h; decide
      | false => rw [hr] at h; simp at h
    | false =>
      rw [hn] at h
      simp only [Bool.false_eq_true, if_false] at h
      obtain ⟨d, hd, hb⟩ := quote_begins (['('] ++ joinWith [' '] (uniq o.notOptions) ++ [')'])
      rw [List.head?_append, hd] at h
      simp at h
      subst h
      exact hb

theorem opts_names (z : ZshOption) (h : ∀ s ∈ z.optionStrings, SimpleOption s) {opts : List Str} (ho : z.opts = .ok opts) :
    opts.length = z.optionStrings.length ∧ ∀ s ∈ opts, s ≠ [] ∧ ∀ c ∈ s, isSafeChar c = true := by
  have hs : ∀ s ∈ z.optionStrings, ∀ t : Str, (∀ c ∈ t, isSafeChar c = true) → s ++ t ≠ [] ∧ ∀ c ∈ s ++ t, isSafeChar c = true := by
    intro s hs t ht
    have h' := h s hs
    refine ⟨fun e => ?_, fun c hc => ?_⟩
    · have := h'.2.1
      rw [(List.append_eq_nil_iff.mp e).1] at this
      simp at this
    · rcases List.mem_append.mp hc with hc | hc
      · exact (plain_char (h'.2.2.2 c hc)).1
      · exact ht c hc
  have key : ∀ (a b : Str), (∀ c ∈ a, isSafeChar c = true) → (∀ c ∈ b, isSafeChar c = true) →
      (z.optionStrings.map (fun s => if s.length = 2 then s ++ a else s ++ b)).length = z.optionStrings.length ∧
      ∀ s ∈ z.optionStrings.map (fun s => if s.length = 2 then s ++ a else s ++ b), s ≠ [] ∧ ∀ c ∈ s, isSafeChar c = true := by
    intro a b ha hb
    refine ⟨by simp, fun s hs' => ?_⟩
    obtain ⟨x, hx, rfl⟩ := List.mem_map.mp hs'
    split
    · exact hs x hx a ha
    · exact hs x hx b hb
  unfold ZshOption.opts at ho
  simp only at ho
  split at ho
  · cases ho; exact key _ _ (by decide) (by decide)
  · split at ho
    · split at ho
      · cases ho; exact key _ _ (by decide) (by decide)
      · cases ho; exact key _ _ (by decide) (by decide)
      · cases ho; exact key _ _ (by decide) (by decide)
      · cases ho
    · cases ho
      refine ⟨rfl, fun s hs' => ?_⟩
      have := hs s hs' [] (by simp)
      simpa using this

theorem join_names : ∀ (opts : List Str), (∀ s ∈ opts, ∀ c ∈ s, nameChar c = true) → ∀ c ∈ joinWith [','] opts, nameChar c = true
  | [], _, c, hc => by simp [joinWith] at hc
  | [x], h, c, hc => by simp [joinWith] at hc; exact h x (by simp) c hc
  | x :: y :: ys, h, c, hc => by
    rw [joinWith] at hc
    simp only [List.mem_append, List.mem_singleton] at hc
    rcases hc with (hc | rfl) | hc
    · exact h x (by simp) c hc
    · decide
    · exact join_names (y :: ys) (fun s hs => h s (by simp [hs])) c hc

theorem names_of (opts : List Str) :
    ∃ names : Str, (match opts with | [s] => s | _ => ['{'] ++ joinWith [','] opts ++ ['}']) = names ∧
      ((∀ s ∈ opts, s ≠ [] ∧ ∀ c ∈ s, isSafeChar c = true) → names ≠ [] ∧ ∀ c ∈ names, nameChar c = true) := by
  refine ⟨_, rfl, fun l2 => ?_⟩
  have safe : ∀ s ∈ opts, ∀ c ∈ s, nameChar c = true := fun s hs c hc => by simp [nameChar, (l2 s hs).2 c hc]
  have many : ['{'] ++ joinWith [','] opts ++ ['}'] ≠ [] ∧ ∀ c ∈ ['{'] ++ joinWith [','] opts ++ ['}'], nameChar c = true := by
    refine ⟨by simp, fun c hc => ?_⟩
    simp only [List.mem_append, List.mem_singleton] at hc
    rcases hc with (rfl | hc) | rfl
    · decide
    · exact join_names opts safe c hc
    · decide
  split
  · exact ⟨(l2 _ (by simp)).1, safe _ (by simp)⟩
  · exact many

theorem optionSpec_line (z : ZshOption) (hs : ∀ s ∈ z.optionStrings ++ z.conflicting, SimpleOption s)
    (hd : ∀ d, z.description = some d → '\n' ∉ d) (hm : ∀ m, z.metavar = some m → '\n' ∉ m)
    (ha : z.complete = true → LineAction z.action) {text : Str} (h : makeOptionSpec z = .ok text) : IsWord text ∧ '\n' ∉ text := by
  unfold makeOptionSpec at h
  obtain ⟨opts, ho, h⟩ := bind_ok h
  simp only at h
  obtain ⟨b, hb, h⟩ := bind_ok h
  cases h
  obtain ⟨f1, f2⟩ := front_line z (fun s h => simple_break (hs s h))
  obtain ⟨b1, b2⟩ := back_line z hd hm ha hb
  obtain ⟨l1, l2⟩ := opts_names z (fun s h => hs s (List.mem_append_left _ h)) ho
  obtain ⟨names, e, n⟩ := names_of opts
  obtain ⟨n1, n2⟩ := n l2
  have key : IsWord (z.front ++ names ++ b) ∧ '\n' ∉ z.front ++ names ++ b := by
    obtain ⟨k1, k2, c, k3, k4⟩ := names_line names n1 n2
    refine ⟨?_, by simp only [List.mem_append, not_or]; exact ⟨⟨f2, k2⟩, b2⟩⟩
    have hadd := adds_append (adds_append f1 k1) b1
    cases hf : z.front.head? with
    | some d =>
      refine isWord_of_adds hadd (c := d) ?_ (front_begins z hf)
      rw [List.append_assoc, List.head?_append, hf]; rfl
    | none =>
      refine isWord_of_adds hadd (c := c) ?_ k4
      rw [List.append_assoc, List.head?_append, hf, List.head?_append, k3]; rfl
  rw [← e] at key
  exact key

theorem optionArg_line {act : ZshActions} {x : Cmd} {o : Opt} (ho : o ∈ x.data.options) (hr : ∀ q ∈ x.data.options, ReadableOption act q)
    (hl : LineOption act o) {a : ZshArg} (h : zshOptionArg act (x, o) = .ok a) : IsWord a.spec ∧ '\n' ∉ a.spec := by
  have hro := hr o ho
  obtain ⟨z, hz, e1, e2, e3, e4, e5, e6, e7, e8, e9, e10, hconf⟩ :=
    zshOption_spec x.data.options o ho (if truthyList o.complete then some (act.option o) else none)
  unfold zshOptionArg at h
  obtain ⟨z', hz', h⟩ := bind_ok h
  simp only at hz'
  rw [hz] at hz'
  cases hz'
  obtain ⟨text, ht, h⟩ := bind_ok h
  cases h
  refine optionSpec_line z ?_ (by rw [e2]; exact hl.help) (by rw [e8]; exact hl.metavar) ?_ ht
  · intro s hs
    rcases List.mem_append.mp hs with q | q
    · rw [e1] at q; exact hro.simple s q
    · obtain ⟨other, h1, _, _, h2⟩ := (hconf s).mp q
      exact (hr other h1).simple s h2
  · intro hc
    rw [e3] at hc
    rw [e9, if_pos hc]
    exact hl.action hc

/-! ## Positionals and subcommands -/

theorem positionalSpec_line {k : Nat} {rep : Bool} {message action text : Str} (hm : '\n' ∉ message) (ha : LineAction action)
    (h : makePositionalSpec k rep message action = .ok text) : IsWord text ∧ '\n' ∉ text := by
  have hq : '\n' ∉ escapeColon message := escapeColon_break hm
  obtain ⟨num, hnum⟩ : ∃ num : Str, (if rep then S "'*'" else natStr k) = num := ⟨_, rfl⟩
  have n1 : Adds num ∧ '\n' ∉ num ∧ ∃ c, num.head? = some c ∧ begins c = true := by
    subst hnum
    cases rep with
    | true => exact ⟨adds_star, by simp [S], '\'', rfl, by decide⟩
    | false =>
      simp only [Bool.false_eq_true, if_false]
      have hsafe : ∀ c ∈ natStr k, isSafeChar c = true := by
        intro c hc
        have := natStr_isDigit hc
        simp [isSafeChar, isAsciiAlnum, Char.isAlphanum, this]
      refine ⟨adds_safe _ hsafe, natStr_break k, ?_⟩
      cases hk : natStr k with
      | nil => exact absurd hk (natStr_ne_nil k)
      | cons c r => exact ⟨c, rfl, begins_safe (hsafe c (by rw [hk]; simp))⟩
  obtain ⟨n1, n2, c, n3, n4⟩ := n1
  have fin : ∀ (sep r : Str), (∀ x ∈ sep, x = ':') → Adds r → '\n' ∉ r → IsWord (num ++ sep ++ quote (escapeColon message) ++ [':'] ++ r) ∧
      '\n' ∉ num ++ sep ++ quote (escapeColon message) ++ [':'] ++ r := by
    intro sep r hsep hr1 hr2
    have hs : Adds sep := adds_safe sep (fun x hx => by rw [hsep x hx]; decide)
    constructor
    · refine isWord_of_adds (adds_append (adds_append (adds_append (adds_append n1 hs) (adds_quote _ hq)) adds_colon) hr1) (c := c) ?_ n4
      simp only [List.append_assoc]
      rw [List.head?_append, n3]; rfl
    · simp only [List.mem_append, not_or]
      exact ⟨⟨⟨⟨n2, fun hx => absurd (hsep _ hx) (by decide)⟩, quote_break _ hq⟩, by decide⟩, hr2⟩
  unfold makePositionalSpec at h
  simp only [hnum] at h
  split at h
  · rename_i he
    cases h
    refine fin [':', ':'] action (by simp) ?_ ha.line
    rw [he]
    exact adds_safe _ (by decide +kernel)
  · obtain ⟨r, hr, h⟩ := bind_ok h
    cases h
    obtain ⟨r1, r2⟩ := adds_action ha hr
    exact fin [':'] r (by simp) r1 r2

theorem positionalArg_line {act : ZshActions} {qs : List Cmd} {x : Cmd} {p : Pos} (hm : '\n' ∉ positionalMessage p) (ha : LineAction (act.positional p))
    {a : ZshArg} (h : zshPositionalArg act qs x p = .ok a) : IsWord a.spec ∧ '\n' ∉ a.spec := by
  unfold zshPositionalArg at h
  obtain ⟨t, ht, h⟩ := bind_ok h
  cases h
  exact positionalSpec_line hm ha ht

theorem subArg_line {act : ZshActions} {k n : Nat} {qs : List Cmd} {x : Cmd} (ha : LineAction (act.choices (subNames x)))
    {a : ZshArg} (h : zshSubArg act k qs x n = .ok a) : IsWord a.spec ∧ '\n' ∉ a.spec := by
  unfold zshSubArg at h
  obtain ⟨t, ht, h⟩ := bind_ok h
  cases h
  refine positionalSpec_line ?_ ha ht
  simp only [List.mem_append, not_or]
  exact ⟨by decide, natStr_break k⟩

end ZshLex
end CC
