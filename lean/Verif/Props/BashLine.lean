import Verif.Props.BashWords
import Verif.Spec.LineWords
import Verif.Model.BashLine
/-!
# C83: the completer `commandline_string` in Bash
-/

namespace CC
open Typed

/-- The line without its quotes being special. -/
theorem parseLoop_spec : ∀ (n : Nat) (s : Str) (st : LineState), s.length ≤ n → '"' ∉ s → '\'' ∉ s →
    (st.active = true ↔ st.word ≠ []) → (st.active = false → st.word = []) →
    ((parseLoop n s st).active = true ∧
      (parseLoop n s st).out ++ [(parseLoop n s st).word] = st.out ++ lineWords .bare st.word s) ∨
    ((parseLoop n s st).active = false ∧ (s = [] ∧ st.active = false ∨ s.getLast? = some ' ') ∧
      (parseLoop n s st).out ++ [[]] = st.out ++ lineWords .bare st.word s) := by
  intro n
  induction n with
  | zero =>
    intro s st hl _ _ h1 h2
    have : s = [] := List.length_eq_zero_iff.mp (by omega)
    subst this
    cases ha : st.active
    · right; simp [parseLoop, lineWords, ha, h2 ha]
    · left; simp [parseLoop, lineWords, ha]
  | succ n ih =>
    intro s st hl hd hs h1 h2
    cases s with
    | nil =>
      cases ha : st.active
      · right; simp [parseLoop, lineWords, ha, h2 ha]
      · left; simp [parseLoop, lineWords, ha]
    | cons c cs =>
      have hcd : c ≠ '"' := fun e => hd (by simp [e])
      have hcs : c ≠ '\'' := fun e => hs (by simp [e])
      have hd' : '"' ∉ cs := fun h => hd (by simp [h])
      have hs' : '\'' ∉ cs := fun h => hs (by simp [h])
      simp only [List.length_cons] at hl
      rw [parseLoop.eq_def, lineWords.eq_def]
      simp only [if_neg hcd, if_neg hcs]
      have last : ∀ (cs : Str) (P : Prop), (cs = [] ∧ P ∨ cs.getLast? = some ' ') → cs ≠ [] → 
          (c :: cs).getLast? = some ' ' := by
        intro cs P h hne
        rcases h with ⟨h, -⟩ | h
        · exact absurd h hne
        · cases cs with
          | nil => exact absurd rfl hne
          | cons d ds => rw [List.getLast?_cons_cons]; exact h
      by_cases hb : c = ' '
      · simp only [if_pos hb]
        have := ih cs (if st.active then { out := st.out ++ [st.word], word := [], active := false } else st) (by omega)
          hd' hs' (by cases ha : st.active <;> simp [h2, ha]) (by cases ha : st.active <;> simp [h2, ha])
        have e : (if st.active then ({ out := st.out ++ [st.word], word := [], active := false } : LineState) else st).out ++
            lineWords .bare (if st.active then ({ out := st.out ++ [st.word], word := [], active := false } : LineState) else st).word cs =
            st.out ++ (if st.word = [] then lineWords .bare [] cs else st.word :: lineWords .bare [] cs) := by
          cases ha : st.active
          · simp [h2 ha]
          · have := h1.mp ha
            simp [this]
        rw [e] at this
        rcases this with ⟨a, b⟩ | ⟨a, b, d⟩
        · left; exact ⟨a, b⟩
        · right
          refine ⟨a, Or.inr ?_, d⟩
          by_cases hne : cs = []
          · subst hne; simp [hb]
          · exact last cs _ b hne
      · simp only [if_neg hb]
        by_cases hbs : c = '\\'
        · simp only [if_pos hbs]
          cases cs with
          | nil => left; simp
          | cons x xs =>
            simp only
            have := ih xs { st with word := st.word ++ [c, x], active := true } (by simp at hl; omega)
              (fun h => hd' (by simp [h])) (fun h => hs' (by simp [h])) (by simp) (by simp)
            rcases this with ⟨a, b⟩ | ⟨a, b, d⟩
            · left; exact ⟨a, b⟩
            · right
              refine ⟨a, Or.inr ?_, d⟩
              rcases b with ⟨-, b⟩ | b
              · simp at b
              · cases xs with
                | nil => simp at b
                | cons y ys => rw [List.getLast?_cons_cons, List.getLast?_cons_cons]; exact b
        · simp only [if_neg hbs]
          have := ih cs { st with word := st.word ++ [c], active := true } (by omega) hd' hs' (by simp) (by simp)
          rcases this with ⟨a, b⟩ | ⟨a, b, d⟩
          · left; exact ⟨a, b⟩
          · right
            refine ⟨a, Or.inr ?_, d⟩
            rcases b with ⟨-, b⟩ | b
            · simp at b
            · cases cs with
              | nil => simp at b
              | cons y ys => rw [List.getLast?_cons_cons]; exact b

/-- **C83.** A line is split into its words. It is partial: quotes in the line are taken for ordinary characters
(`C83_quotes`). -/
theorem C83_words_partial (line : Str) (hd : '"' ∉ line) (hs : '\'' ∉ line) : parseLine line = lineWords .bare [] line := by
  unfold parseLine
  cases line with
  | nil => rfl
  | cons c cs =>
    rw [if_neg (by simp)]
    have := parseLoop_spec (c :: cs).length (c :: cs) {} (Nat.le_refl _) hd hs (by simp) (by simp)
    unfold parseEnd
    rcases this with ⟨a, b⟩ | ⟨a, b, d⟩
    · rw [if_pos a, b]; rfl
    · rcases b with ⟨b, -⟩ | b
      · simp at b
      · rw [if_neg (by rw [a]; exact Bool.false_ne_true), if_pos b, d]; rfl

/-- A blank in quotes separates words: the file name `a b` becomes two words. -/
theorem C83_quotes : parseLine (S "cat \"a b") = [S "cat", S "\"a", S "b"] ∧
    lineWords .bare [] (S "cat \"a b") = [S "cat", S "\"a b"] ∧
    parseLine (S "cat 'a b' ") = [S "cat", S "'a", S "b'", []] := by decide +kernel

theorem overlapLoop_spec (s1 s2 : Str) : ∀ k, k ≤ s1.length → k ≤ s2.length →
    (∀ m, k < m → m ≤ s1.length → ¬ s1.drop (s1.length - m) <+: s2) →
    overlapLoop s1 s2 k ≤ s1.length ∧ s1.drop (overlapLoop s1 s2 k) <+: s2 ∧
      ∀ n, n < overlapLoop s1 s2 k → ¬ s1.drop n <+: s2 := by
  intro k
  have conv : ∀ m, m ≤ s1.length → (s1.drop (s1.length - m) <+: s2 ↔ s1.drop (s1.length - m) = s2.take m) := by
    intro m hm
    have hl : (s1.drop (s1.length - m)).length = m := by simp; omega
    rw [List.prefix_iff_eq_take, hl]
  induction k with
  | zero =>
    intro _ _ h
    simp only [overlapLoop]
    refine ⟨Nat.le_refl _, by simp, fun n hn hp => ?_⟩
    refine h (s1.length - n) (by omega) (by omega) ?_
    rw [show s1.length - (s1.length - n) = n by omega]
    exact hp
  | succ k ih =>
    intro h1 h2 h
    simp only [overlapLoop]
    split
    · rename_i he
      refine ⟨by omega, (conv _ h1).mpr he, fun n hn hp => ?_⟩
      refine h (s1.length - n) (by omega) (by omega) ?_
      rw [show s1.length - (s1.length - n) = n by omega]
      exact hp
    · rename_i he
      refine ih (by omega) (by omega) fun m hm hml => ?_
      by_cases e : m = k + 1
      · subst e
        exact fun hp => he ((conv _ h1).mp hp)
      · exact h m (by omega) hml

/-- **C83.** `get_prefix_suffix_len` gives the first place from which on the line is the start of the other text. -/
theorem C83_overlap (s1 s2 : Str) : prefixSuffixLen s1 s2 ≤ s1.length ∧ s1.drop (prefixSuffixLen s1 s2) <+: s2 ∧
    ∀ n, n < prefixSuffixLen s1 s2 → ¬ s1.drop n <+: s2 := by
  unfold prefixSuffixLen
  refine overlapLoop_spec s1 s2 _ (by omega) (by omega) fun m hm hml hp => ?_
  have := hp.length_le
  simp at this
  omega

/-- The place is that of the current word, if the offered text starts with it and has no blanks. -/
theorem overlap_word (front w r : Str) (hf : front = [] ∨ front.getLast? = some ' ') (hw : w <+: r) (hb : ' ' ∉ r) :
    (front ++ w).take (prefixSuffixLen (front ++ w) r) = front := by
  obtain ⟨h1, h2, h3⟩ := C83_overlap (front ++ w) r
  have hle : prefixSuffixLen (front ++ w) r ≤ front.length := by
    refine Nat.le_of_not_lt fun h => h3 front.length h ?_
    simpa using hw
  have heq : prefixSuffixLen (front ++ w) r = front.length := by
    refine Nat.le_antisymm hle (Nat.le_of_not_lt fun h => ?_)
    rcases hf with hf | hf
    · subst hf; simp at h
    · refine hb (h2.subset ?_)
      rw [List.drop_append_of_le_length hle]
      refine List.mem_append_left _ ?_
      obtain ⟨ys, rfl⟩ := List.getLast?_eq_some_iff.mp hf
      rw [List.drop_append_of_le_length (by simp only [List.length_append, List.length_cons, List.length_nil] at h; omega)]
      simp
  rw [heq]
  simp

/-- **C83.** If the line is `front` followed by the word at the cursor, and what the command offers for the words of
the line starts with that word, then choosing an offer gives `front` followed by it. It is partial: the first offer
has no blanks (`C83_blank`), no break character is unquoted in the word at the cursor, the line has no quotes, and the
hypotheses of C80. `printf %q` is assumed to quote a text so that it stands for itself. -/
theorem C83_line_partial (breaks : List Char) (offset : List Str → List Str) (printfQ : Str → Str)
    (hq : ∀ t, text (printfQ t) = t) (cur front w : Str) (hc : clean .bare cur = true) (ht : text cur = front ++ w)
    (hd : '"' ∉ text cur) (hs : '\'' ∉ text cur) (hf : front = [] ∨ front.getLast? = some ' ')
    (hb : ∀ n, lastBreak breaks (read .bare cur).1 = some n → n ≤ front.length)
    (ho : ∀ r ∈ offset (lineWords .bare [] (text cur)), w <+: r)
    (h1 : ∀ r ∈ (offset (lineWords .bare [] (text cur))).head?, ' ' ∉ r) :
    (commandlineString breaks offset printfQ cur).map
        (fun r => accept breaks cur (if quoting cur = .bare then text r else r)) =
      (offset (lineWords .bare [] (text cur))).map (front ++ ·) := by
  unfold commandlineString
  rw [C80_dequote_partial breaks cur hc]
  simp only
  rw [C83_words_partial _ hd hs]
  generalize hr : offset (lineWords .bare [] (text cur)) = replies at *
  cases replies with
  | nil => rfl
  | cons first rest =>
    have hfirst := ho first (by simp)
    have hblank := h1 first (by simp)
    simp only
    have hkept : (afterBreak (lastBreak breaks (read .bare cur).1) (text cur)).take
        (prefixSuffixLen (afterBreak (lastBreak breaks (read .bare cur).1) (text cur)) first) =
        front.drop ((lastBreak breaks (read .bare cur).1).getD 0) := by
      cases hl : lastBreak breaks (read .bare cur).1 with
      | none =>
        simp only [afterBreak, Option.getD_none, List.drop_zero, ht]
        exact overlap_word front w first hf hfirst hblank
      | some n =>
        have hle := hb n hl
        simp only [afterBreak, Option.getD_some, ht]
        rw [List.drop_append_of_le_length hle]
        refine overlap_word _ w first ?_ hfirst hblank
        by_cases hn : n = front.length
        · left; simp [hn]
        · rcases hf with hf | hf
          · left; simp [hf]
          · right
            obtain ⟨ys, rfl⟩ := List.getLast?_eq_some_iff.mp hf
            rw [List.drop_append_of_le_length (by simp at hle hn; omega)]
            simp
    rw [hkept, List.map_map]
    refine List.map_congr_left fun r _ => ?_
    have hacc : ∀ x, accept breaks cur (front.drop ((lastBreak breaks (read .bare cur).1).getD 0) ++ x) = front ++ x := by
      intro x
      unfold accept
      have hle : (lastBreak breaks (read .bare cur).1).getD 0 ≤ front.length := by
        cases hl : lastBreak breaks (read .bare cur).1 with
        | none => simp
        | some n => exact hb n hl
      rw [ht, List.take_append_of_le_length hle, ← List.append_assoc, List.take_append_drop]
    simp only [Function.comp]
    by_cases hqt : quoting cur = .bare
    · simp [hqt, hq, hacc]
    · simp [hqt, hacc]

/-- A command that offers two file names. -/
def twoFiles (_ : List Str) : List Str := [S "apple", S "apricot"]

/-- `'cat -n ap` in single quotes. -/
theorem C83_example : clean .bare (S "'cat -n ap") = true ∧ text (S "'cat -n ap") = S "cat -n " ++ S "ap" ∧
    lineWords .bare [] (S "cat -n ap") = [S "cat", S "-n", S "ap"] ∧
    commandlineString [':'] twoFiles quote (S "'cat -n ap") = [S "cat -n apple", S "cat -n apricot"] ∧
    commandlineString [':'] twoFiles quote (S "cat\\ ap") = [S "'cat apple'", S "'cat apricot'"] := by decide +kernel

/-- The assumption on `printf %q` can be met. -/
theorem C83_printf (t : Str) : text (quote t) = t := by
  have := seen_quote t
  simp only [seen, Prod.mk.injEq] at this
  exact this.2.1

/-- A file name with a blank that the line ends with: the words before it are lost. -/
theorem C83_blank : commandlineString [] (fun _ => [S "x x y"]) quote (S "'x x") = [S "x x y"] := by decide +kernel

end CC
