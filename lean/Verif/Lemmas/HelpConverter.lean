import Verif.Model.HelpConverter
import Verif.Props.Preprocessor
import Verif.Spec.HelpYamlSpec
import Verif.Props.StrUtils
import Verif.Props.YamlExport
/-!
# Lemmas about the converter from help texts to YAML
-/

namespace CC
open YamlText HelpYaml

/-! ## Descriptions -/

theorem splitOn_noSep (c : Char) (s : Str) : ∀ w ∈ splitOn c s, c ∉ w := by
  induction s with
  | nil => intro w hw; simp [splitOn] at hw; subst hw; simp
  | cons x xs ih =>
    intro w hw
    simp only [splitOn] at hw
    split at hw
    · rcases List.mem_cons.1 hw with rfl | hw
      · simp
      · exact ih w hw
    · rename_i hx
      split at hw
      · rename_i he
        rw [List.mem_singleton.1 hw]; simpa using Ne.symm hx
      · rename_i u us he
        rw [he] at ih
        rcases List.mem_cons.1 hw with rfl | hw
        · simp only [List.mem_cons, not_or]
          exact ⟨Ne.symm hx, ih u (by simp)⟩
        · exact ih w (by simp [hw])

theorem splitOn_nonempty (c : Char) (s : Str) : splitOn c s ≠ [] := by
  cases s with
  | nil => simp [splitOn]
  | cons x xs =>
    simp only [splitOn]
    split
    · simp
    · split <;> simp

/-- Splitting, one character at a time. -/
theorem fix_lines (s : Str) : replaceChar '\n' [' '] (joinHyphens s) = oneLine (splitOn '\n' s) := by
  match s with
  | [] => rfl
  | [c] =>
    by_cases h : c = '\n'
    · subst h; rfl
    · have : joinHyphens [c] = [c] := by rw [joinHyphens.eq_def]; split <;> simp_all [joinHyphens]
      rw [this]
      simp [replaceChar, splitOn, h, oneLine]
  | c :: x :: r =>
    have ih := fix_lines (x :: r)
    have ih2 := fix_lines r
    by_cases h1 : c = '-' ∧ x = '\n'
    · obtain ⟨rfl, rfl⟩ := h1
      obtain ⟨w, ws, he⟩ := List.exists_cons_of_ne_nil (splitOn_nonempty '\n' r)
      rw [he] at ih2
      simp only [joinHyphens, replaceChar, splitOn, he, ih2]
      simp [oneLine]
    · have e : joinHyphens (c :: x :: r) = c :: joinHyphens (x :: r) := by
        rw [joinHyphens.eq_def]
        split
        · simp_all
        · rename_i h; simp only [List.cons.injEq] at h; exact absurd ⟨h.1, h.2.1⟩ h1
        · rename_i h; simp only [List.cons.injEq] at h; obtain ⟨rfl, rfl⟩ := h; rfl
      rw [e]
      obtain ⟨w, ws, he⟩ := List.exists_cons_of_ne_nil (splitOn_nonempty '\n' (x :: r))
      rw [he] at ih
      by_cases hc : c = '\n'
      · subst hc
        rw [splitOn, if_pos rfl, he]
        simp only [replaceChar, if_true, ih]
        simp [oneLine]
      · simp only [replaceChar, if_neg hc, ih]
        rw [splitOn, if_neg hc, he]
        simp only
        cases ws with
        | nil => simp [oneLine]
        | cons v vs =>
          simp only [oneLine]
          have hl : (c :: w).getLast? = some '-' ↔ w.getLast? = some '-' := by
            cases w with
            | cons a b => simp [List.getLast?_cons]
            | nil =>
              simp only [List.getLast?_singleton, List.getLast?_nil, reduceCtorEq, iff_false, Option.some.injEq]
              rintro rfl
              -- the line is empty, so the next character is a newline
              apply h1
              refine ⟨rfl, ?_⟩
              simp only [splitOn] at he
              by_cases hx : x = '\n'
              · exact hx
              · rw [if_neg hx] at he
                split at he <;> simp at he
          by_cases hw : w.getLast? = some '-'
          · rw [if_pos hw, if_pos (hl.2 hw)]; rfl
          · rw [if_neg hw, if_neg (fun e => hw (hl.1 e))]; rfl

theorem lstrip_trimmed (s : Str) : ∃ a, s = a ++ lstrip s ∧ (∀ c ∈ a, pyIsSpace c = true) ∧
    ∀ c, (lstrip s).head? = some c → pyIsSpace c = false := by
  induction s with
  | nil => exact ⟨[], rfl, by simp, by simp [lstrip]⟩
  | cons x xs ih =>
    simp only [lstrip]
    cases h : pyIsSpace x with
    | true =>
      obtain ⟨a, h1, h2, h3⟩ := ih
      refine ⟨x :: a, by simpa using h1, ?_, h3⟩
      intro c hc
      rcases List.mem_cons.1 hc with rfl | hc
      · exact h
      · exact h2 c hc
    | false => exact ⟨[], rfl, by simp, by simp [h]⟩

theorem rstrip_trimmed (s : Str) : ∃ b, s = rstrip s ++ b ∧ (∀ c ∈ b, pyIsSpace c = true) ∧
    ∀ c, (rstrip s).getLast? = some c → pyIsSpace c = false := by
  obtain ⟨a, h1, h2, h3⟩ := lstrip_trimmed s.reverse
  refine ⟨a.reverse, ?_, by simpa using h2, ?_⟩
  · have := congrArg List.reverse h1
    simpa [rstrip] using this
  · intro c hc
    apply h3
    rw [rstrip, List.getLast?_reverse] at hc
    exact hc

theorem strip_trimmed (s : Str) : Trimmed s (strip s) := by
  obtain ⟨a, h1, h2, h3⟩ := lstrip_trimmed s
  obtain ⟨b, g1, g2, g3⟩ := rstrip_trimmed (lstrip s)
  refine ⟨⟨a, b, ?_, h2, g2⟩, ?_, g3⟩
  · unfold strip
    rw [List.append_assoc, ← g1, ← h1]
  · intro c hc
    apply h3
    rw [g1]
    unfold strip at hc
    cases hr : rstrip (lstrip s) with
    | nil => rw [hr] at hc; cases hc
    | cons y ys => rw [hr] at hc; simpa using hc

/-! ## Metavars -/

theorem dropPair_skip {a b : Char} {s : Str} (h : s.head? ≠ some a) : dropPair a b s = s := by
  unfold dropPair; rw [if_neg (fun e => h e.1)]

theorem dropPair_pair (a b : Char) (s : Str) : dropPair a b (a :: s ++ [b]) = s := by
  unfold dropPair
  rw [if_pos ⟨rfl, by simp [List.getLast?_cons]⟩]
  simp

theorem stripMetavar_bare {m n : Str} (h : Bare m n) : stripMetavar m = n := by
  unfold stripMetavar
  cases h with
  | plain _ h1 h2 h3 =>
    rw [dropPair_skip h1]
    unfold dropEquals
    rw [if_neg h2, dropPair_skip h3]
  | angle =>
    rw [dropPair_skip (a := '[') (by simp)]
    unfold dropEquals
    rw [if_neg (by simp)]
    exact dropPair_pair _ _ _
  | optional h =>
    rename_i h
    have : dropPair '[' ']' ('[' :: '=' :: n ++ [']']) = '=' :: n := dropPair_pair '[' ']' ('=' :: n)
    rw [this]
    unfold dropEquals
    rw [if_pos (by rfl)]
    exact dropPair_skip h
  | optionalAngle =>
    have : dropPair '[' ']' ('[' :: '=' :: '<' :: n ++ ['>', ']']) = '=' :: ('<' :: n ++ ['>']) := by
      have := dropPair_pair '[' ']' ('=' :: ('<' :: n ++ ['>']))
      simpa using this
    rw [this]
    unfold dropEquals
    rw [if_pos (by rfl)]
    exact dropPair_pair _ _ _

/-! ## The dictionary of an option -/

theorem fold_add (os : List HelpOption) (d : HelpDict) :
    (os.foldl HelpDict.add d).optional = (d.optional || os.any (·.optional)) ∧
    (os.foldl HelpDict.add d).metavar = (match lastMetavar os with | none => d.metavar | some m => some (stripMetavar m)) ∧
    (os.foldl HelpDict.add d).complete =
      (match lastMetavar os with | none => d.complete | some m => some (completeForMetavar (stripMetavar m))) := by
  induction os generalizing d with
  | nil => simp [lastMetavar]
  | cons o os ih =>
    obtain ⟨h1, h2, h3⟩ := ih (d.add o)
    simp only [List.foldl_cons]
    rw [h1, h2, h3]
    have ho : (d.add o).optional = (d.optional || o.optional) := by
      unfold HelpDict.add
      cases o.metavar with
      | none => cases h : o.optional <;> simp [h]
      | some m =>
        by_cases hm : m = []
        · cases h : o.optional <;> simp [h, hm]
        · cases h : o.optional <;> simp [h, hm]
    have hl : lastMetavar (o :: os) = (match lastMetavar os with
        | some m => some m
        | none => match o.metavar with | none => none | some m => if m = [] then none else some m) := by
      unfold lastMetavar
      cases hm : o.metavar with
      | none =>
        simp only [List.filterMap_cons, hm]
        cases ((os.filterMap (·.metavar)).filter (· ≠ [])).getLast? <;> rfl
      | some m =>
        simp only [List.filterMap_cons, hm, List.filter_cons]
        by_cases h : m = []
        · simp only [h, ne_eq, not_true_eq_false, decide_false, Bool.false_eq_true, if_false, if_true]
          cases ((os.filterMap (·.metavar)).filter (· ≠ [])).getLast? <;> rfl
        · simp only [h, ne_eq, not_false_eq_true, decide_true, if_true, if_false]
          rw [List.getLast?_cons]
          cases ((os.filterMap (·.metavar)).filter (· ≠ [])).getLast? <;> rfl
    refine ⟨?_, ?_, ?_⟩
    · rw [ho, List.any_cons, Bool.or_assoc]
    · rw [hl]
      cases lastMetavar os with
      | some m => rfl
      | none =>
        unfold HelpDict.add
        cases o.metavar with
        | none => cases h : o.optional <;> simp [h]
        | some m => by_cases hm : m = [] <;> cases h : o.optional <;> simp [h, hm]
    · rw [hl]
      cases lastMetavar os with
      | some m => rfl
      | none =>
        unfold HelpDict.add
        cases o.metavar with
        | none => cases h : o.optional <;> simp [h]
        | some m => by_cases hm : m = [] <;> cases h : o.optional <;> simp [h, hm]

/-- What is written of an option. -/
def helpEntries (os : List HelpOption) (desc : Option Str) : List (Str × Val) :=
  let m := (lastMetavar os).map stripMetavar
  (match m with | none => [] | some n => [(S "metavar", .str n)]) ++
  [(S "help", .str (fixDescription (desc.getD [])))] ++
  (if os.any (·.optional) then [(S "optional_arg", .bool true)] else []) ++
  (match m with | none => [] | some n => [(S "complete", .list (completeForMetavar n))])

theorem optionDict_eq (os : List HelpOption) (desc : Option Str) : optionDict os desc =
    [(.str (S "option_strings"), .list (os.map (fun o => .str o.option))),
     (.str (S "metavar"), match (lastMetavar os).map stripMetavar with | none => .none | some m => .str m),
     (.str (S "optional_arg"), .bool (os.any (·.optional))),
     (.str (S "help"), .str (fixDescription (desc.getD [])))] ++
    (match (lastMetavar os).map stripMetavar with
      | none => [] | some n => [(.str (S "complete"), .list (completeForMetavar n))]) := by
  obtain ⟨h1, h2, h3⟩ := fold_add os {}
  unfold optionDict
  simp only [h1, h2, h3, Bool.false_or]
  cases lastMetavar os <;> rfl

theorem help_written (os : List HelpOption) (desc : Option Str) :
    fieldEntries optionFields (optionDict os desc) = helpEntries os desc := by
  rw [optionDict_eq]
  unfold helpEntries
  cases (lastMetavar os).map stripMetavar with
  | none => cases os.any (·.optional) <;> rfl
  | some n => cases os.any (·.optional) <;> rfl

theorem option_dict_text (os : List HelpOption) (desc : Option Str) :
    optionToYaml (optionDict os desc) = .ok (joinWith ['\n']
      (('-' :: ' ' :: entryText (S "option_strings", .list (os.map (fun o => .str o.option)))) ::
        (helpEntries os desc).map (fun e => List.replicate 2 ' ' ++ entryText e))) := by
  have h : getKey (optionDict os desc) (S "option_strings") = some (.list (os.map (fun o => .str o.option))) := by
    rw [optionDict_eq]; rfl
  unfold optionToYaml
  rw [h]
  simp only [fieldLine_eq, help_written]
  rfl

/-! ## Characters -/

theorem mem_of_strip {s : Str} {c : Char} (h : c ∈ strip s) : c ∈ s := by
  obtain ⟨a, b, e, _, _⟩ := (strip_trimmed s).ends
  rw [e]
  simp [h]

theorem mem_rstrip {s : Str} {c : Char} (h : c ∈ rstrip s) : c ∈ s := by
  obtain ⟨b, e, _, _⟩ := rstrip_trimmed s
  rw [e]
  simp [h]

theorem mem_of_lstrip {s : Str} {c : Char} (h : c ∈ lstrip s) : c ∈ s := by
  obtain ⟨b, e, _, _⟩ := lstrip_trimmed s
  rw [e]
  simp [h]

theorem mem_joinHyphens {s : Str} {c : Char} (h : c ∈ joinHyphens s) : c ∈ s := by
  match s with
  | [] => simp [joinHyphens] at h
  | x :: xs =>
    rw [joinHyphens.eq_def] at h
    split at h
    · simp_all
    · rename_i r e
      rw [e]
      rcases List.mem_cons.1 h with rfl | h
      · simp
      · have := mem_joinHyphens h
        simp [this]
    · rename_i y ys _ e
      rw [e]
      rcases List.mem_cons.1 h with rfl | h
      · simp
      · have := mem_joinHyphens h
        simp [this]
  termination_by s.length
  decreasing_by all_goals (simp_all; try omega)

theorem mem_replaceBlank {s : Str} {c : Char} (h : c ∈ replaceChar '\n' [' '] s) : c ∈ s ∨ c = ' ' := by
  induction s with
  | nil => simp [replaceChar] at h
  | cons x xs ih =>
    simp only [replaceChar] at h
    split at h
    · rcases List.mem_append.1 h with h | h
      · exact .inr (List.mem_singleton.1 h)
      · rcases ih h with h | h
        · exact .inl (by simp [h])
        · exact .inr h
    · rcases List.mem_cons.1 h with rfl | h
      · exact .inl (by simp)
      · rcases ih h with h | h
        · exact .inl (by simp [h])
        · exact .inr h

theorem mem_fixDescription {s : Str} {c : Char} (h : c ∈ fixDescription s) : c ∈ s ∨ c = ' ' := by
  rcases mem_replaceBlank h with h | h
  · exact .inl (mem_of_strip (mem_joinHyphens h))
  · exact .inr h

theorem mem_dropPair {a b : Char} {s : Str} {c : Char} (h : c ∈ dropPair a b s) : c ∈ s := by
  unfold dropPair at h
  split at h
  · exact List.drop_subset _ _ (List.dropLast_subset _ h)
  · exact h

theorem mem_stripMetavar {s : Str} {c : Char} (h : c ∈ stripMetavar s) : c ∈ s := by
  have h1 := mem_dropPair h
  apply mem_dropPair (a := '[') (b := ']')
  unfold dropEquals at h1
  split at h1
  · exact List.drop_subset _ _ h1
  · exact h1

theorem mem_stripSet {cs : List Char} {s : Str} {c : Char} (h : c ∈ stripSet cs s) : c ∈ s := by
  unfold stripSet lstripSet at h
  have h1 := (List.dropWhile_sublist _).subset (List.mem_reverse.1 h)
  exact (List.dropWhile_sublist _).subset (List.mem_reverse.1 h1)

theorem mem_of_splitOn {sep : Char} {s w : Str} (hw : w ∈ splitOn sep s) : ∀ c ∈ w, c ∈ s := by
  induction s generalizing w with
  | nil => simp [splitOn] at hw; subst hw; simp
  | cons x xs ih =>
    intro c hc
    simp only [splitOn] at hw
    split at hw
    · rcases List.mem_cons.1 hw with rfl | hw
      · cases hc
      · exact List.mem_cons_of_mem _ (ih hw c hc)
    · split at hw
      · rw [List.mem_singleton.1 hw] at hc
        simp at hc; simp [hc]
      · rename_i u us he
        rw [he] at ih
        rcases List.mem_cons.1 hw with rfl | hw
        · rcases List.mem_cons.1 hc with rfl | hc
          · simp
          · exact List.mem_cons_of_mem _ (ih (w := u) (by simp) c hc)
        · exact List.mem_cons_of_mem _ (ih (w := w) (by simp [hw]) c hc)

theorem choicesOf_portable {sep : Char} {s : Str} (h : BasicText s) : PortableList (choicesOf sep s) := by
  refine ⟨?_, ?_, trivial⟩
  · show BasicText (S "choices")
    unfold BasicText; decide
  · have : (splitOn sep s).map (fun i => Val.str (strip i)) = ((splitOn sep s).map strip).map .str := by simp
    rw [this]
    refine portableList_strs ?_
    intro w hw c hc
    obtain ⟨i, hi, rfl⟩ := List.mem_map.1 hw
    exact h c (mem_of_splitOn hi c (mem_of_strip hc))

theorem completeForMetavar_portable {s : Str} (h : BasicText s) : PortableList (completeForMetavar s) := by
  have hnone : PortableList [.str (S "none")] := by
    refine ⟨?_, trivial⟩
    show BasicText (S "none")
    unfold BasicText; decide
  have htab : ∀ e ∈ metavarEquals ++ metavarEndswith, BasicText e.2 := by
    unfold BasicText; decide
  have hs : BasicText (stripSet ['<', '>'] s) := fun c hc => h c (mem_stripSet hc)
  unfold completeForMetavar
  simp only
  split
  · rename_i e he
    exact ⟨htab e (List.mem_append_left _ (List.mem_of_find?_eq_some he)), trivial⟩
  · split
    · rename_i e he
      exact ⟨htab e (List.mem_append_right _ (List.mem_of_find?_eq_some he)), trivial⟩
    · unfold completeForBraces
      split
      · have ht : BasicText (stripSet ['{', '}'] (stripSet ['<', '>'] s)) := fun c hc => hs c (mem_stripSet hc)
        simp only
        split
        · exact choicesOf_portable ht
        · split
          · exact choicesOf_portable ht
          · exact hnone
      · exact hnone

theorem completeForMetavar_ne_nil (s : Str) : completeForMetavar s ≠ [] := by
  unfold completeForMetavar completeForBraces choicesOf
  simp only
  split
  · simp
  · split
    · simp
    · split
      · split
        · simp
        · split <;> simp
      · simp

/-! ## The completer -/

theorem lstripSet_spec (cs : List Char) (s : Str) : ∃ a, s = a ++ lstripSet cs s ∧ (∀ c ∈ a, c ∈ cs) ∧
    ∀ c, (lstripSet cs s).head? = some c → c ∉ cs := by
  unfold lstripSet
  induction s with
  | nil => exact ⟨[], rfl, by simp, by simp⟩
  | cons x xs ih =>
    cases h : cs.contains x with
    | true =>
      obtain ⟨a, h1, h2, h3⟩ := ih
      refine ⟨x :: a, ?_, ?_, ?_⟩
      · simp only [List.dropWhile, h, List.cons_append, List.cons.injEq, true_and]
        exact h1
      · intro c hc
        rcases List.mem_cons.1 hc with rfl | hc
        · simpa using h
        · exact h2 c hc
      · simpa only [List.dropWhile, h] using h3
    | false =>
      refine ⟨[], by simp only [List.dropWhile, h, List.nil_append], by simp, ?_⟩
      intro c hc
      simp only [List.dropWhile, h, List.head?_cons, Option.some.injEq] at hc
      subst hc
      simpa using h

theorem stripSet_without (cs : List Char) (s : Str) : Without cs s (stripSet cs s) := by
  obtain ⟨a, h1, h2, h3⟩ := lstripSet_spec cs s
  obtain ⟨b, g1, g2, g3⟩ := lstripSet_spec cs (lstripSet cs s).reverse
  have g1' : lstripSet cs s = stripSet cs s ++ b.reverse := by
    have := congrArg List.reverse g1
    simpa [stripSet] using this
  refine ⟨⟨a, b.reverse, ?_, h2, by simpa using g2⟩, ?_, ?_⟩
  · rw [List.append_assoc, ← g1', ← h1]
  · intro c hc
    apply h3
    rw [g1']
    cases hr : stripSet cs s with
    | nil => rw [hr] at hc; cases hc
    | cons y ys => rw [hr] at hc; simpa using hc
  · intro c hc
    apply g3
    rw [stripSet, List.getLast?_reverse] at hc
    exact hc

theorem endsWith_iff (s p : Str) : endsWith s p = true ↔ ∃ a, s = a ++ p := by
  unfold endsWith
  constructor
  · intro h
    obtain ⟨r, hr⟩ := (startsWith_iff _ _).1 h
    refine ⟨r.reverse, ?_⟩
    have := congrArg List.reverse hr
    simpa using this
  · rintro ⟨a, rfl⟩
    rw [List.reverse_append]
    exact (startsWith_iff _ _).2 ⟨_, rfl⟩

theorem equals_named {n : Str} {e : Str × Str} (h : metavarEquals.find? (fun e => e.1 == lower n) = some e) :
    SaysKind n e.2 := by
  have h1 := List.find?_some h
  have h2 := List.mem_of_find?_eq_some h
  have key : ∀ e ∈ metavarEquals, ∃ ws, (e.2, ws) ∈ argumentNames ∧ e.1 ∈ ws := by
    have : ∀ e ∈ metavarEquals, ∃ p ∈ argumentNames, p.1 = e.2 ∧ e.1 ∈ p.2 := by decide +kernel
    intro e he
    obtain ⟨p, h1, h2, h3⟩ := this e he
    exact ⟨p.2, by rw [← h2]; exact h1, h3⟩
  obtain ⟨ws, g1, g2⟩ := key e h2
  have : e.1 = lower n := by simpa using h1
  exact ⟨ws, g1, by rw [← this]; exact g2⟩

theorem equals_none {n : Str} (h : metavarEquals.find? (fun e => e.1 == lower n) = none) (k : Str) : ¬ SaysKind n k := by
  rintro ⟨ws, h1, h2⟩
  have key : ∀ p ∈ argumentNames, ∀ w ∈ p.2, ∃ e ∈ metavarEquals, e.1 = w := by decide +kernel
  obtain ⟨e, g1, g2⟩ := key _ h1 _ h2
  have := List.find?_eq_none.1 h e g1
  simp [g2] at this

theorem endswith_ends {n : Str} {e : Str × Str} (h : metavarEndswith.find? (fun e => endsWith (lower n) e.1) = some e) :
    EndSaysKind n e.2 := by
  have h1 := List.find?_some h
  have h2 := List.mem_of_find?_eq_some h
  have key : ∀ e ∈ metavarEndswith, ∃ p ∈ argumentEnds, p.1 = e.2 ∧ e.1 ∈ p.2 := by decide +kernel
  obtain ⟨p, g1, g2, g3⟩ := key e h2
  obtain ⟨a, ha⟩ := (endsWith_iff _ _).1 h1
  exact ⟨p.2, e.1, a, by rw [← g2]; exact g1, g3, ha⟩

theorem endswith_none {n : Str} (h : metavarEndswith.find? (fun e => endsWith (lower n) e.1) = none) (k : Str) :
    ¬ EndSaysKind n k := by
  rintro ⟨ws, w, p, h1, h2, h3⟩
  have key : ∀ p ∈ argumentEnds, ∀ w ∈ p.2, ∃ e ∈ metavarEndswith, e.1 = w := by decide +kernel
  obtain ⟨e, g1, g2⟩ := key _ h1 _ h2
  have := List.find?_eq_none.1 h e g1
  rw [g2] at this
  exact this ((endsWith_iff _ _).2 ⟨p, h3⟩)

theorem trimmedAll_map (l : List Str) : TrimmedAll l (l.map strip) := by
  induction l with
  | nil => exact .nil
  | cons x xs ih => exact .cons (strip_trimmed x) ih

theorem splitOn_two {c : Char} {s : Str} (h : c ∈ s) : 2 ≤ (splitOn c s).length := by
  cases hs : splitOn c s with
  | nil => exact absurd hs (splitOn_nonempty c s)
  | cons w ws =>
    cases ws with
    | cons v vs => simp
    | nil =>
      exfalso
      have h1 := join_splitOn c s
      rw [hs, joinWith] at h1
      have h2 := splitOn_noSep c s w (by rw [hs]; simp)
      rw [h1] at h2
      exact h2 h

theorem choicesOf_suggests {n body : Str} {sep : Char} (h1 : ∀ k, ¬ SaysKind n k) (h2 : ∀ k, ¬ EndSaysKind n k)
    (hf : n.head? = some '{') (hl : n.getLast? = some '}') (hb : Without ['{', '}'] n body)
    (hs : sep = '|' ∨ sep = ',' ∧ '|' ∉ body) (hm : sep ∈ body) : Suggests n (choicesOf sep body) := by
  have := Suggests.choices h1 h2 hf hl hb hs (join_splitOn sep body).symm (splitOn_noSep sep body) (splitOn_two hm)
    (trimmedAll_map _)
  unfold choicesOf
  rw [List.map_map] at this
  exact this

theorem completeForMetavar_suggests (s : Str) :
    ∃ w, Without ['<', '>'] s w ∧ Suggests w (completeForMetavar s) := by
  refine ⟨stripSet ['<', '>'] s, stripSet_without _ _, ?_⟩
  unfold completeForMetavar
  simp only
  generalize stripSet ['<', '>'] s = n
  cases h1 : metavarEquals.find? (fun e => e.1 == lower n) with
  | some e => exact .name (equals_named h1)
  | none =>
    simp only
    have g1 := equals_none h1
    cases h2 : metavarEndswith.find? (fun e => endsWith (lower n) e.1) with
    | some e => exact .suffix g1 (endswith_ends h2)
    | none =>
      simp only
      have g2 := endswith_none h2
      unfold completeForBraces
      by_cases hb : n.head? = some '{' ∧ n.getLast? = some '}'
      · rw [if_pos hb]
        simp only
        by_cases hp : '|' ∈ stripSet ['{', '}'] n
        · rw [if_pos hp]
          exact choicesOf_suggests g1 g2 hb.1 hb.2 (stripSet_without _ _) (.inl rfl) hp
        · rw [if_neg hp]
          by_cases hc : ',' ∈ stripSet ['{', '}'] n
          · rw [if_pos hc]
            exact choicesOf_suggests g1 g2 hb.1 hb.2 (stripSet_without _ _) (.inr ⟨rfl, hp⟩) hc
          · rw [if_neg hc]
            exact .none g1 g2 (.inr (.inr ⟨_, stripSet_without _ _, hp, hc⟩))
      · rw [if_neg hb]
        refine .none g1 g2 ?_
        by_cases hf : n.head? = some '{'
        · exact .inr (.inl (fun hl => hb ⟨hf, hl⟩))
        · exact .inl hf

theorem dropPair_infix (a b : Char) (s : Str) : ∃ x y, s = x ++ dropPair a b s ++ y := by
  unfold dropPair
  split
  · rename_i h
    cases s with
    | nil => exact ⟨[], [], rfl⟩
    | cons c s =>
      by_cases hs : s = []
      · subst hs; exact ⟨[c], [], by simp⟩
      · exact ⟨[c], [s.getLast hs], by simp [List.dropLast_concat_getLast hs]⟩
  · exact ⟨[], [], by simp⟩

theorem stripMetavar_infix (s : Str) : ∃ x y, s = x ++ stripMetavar s ++ y := by
  unfold stripMetavar
  obtain ⟨x, y, h⟩ := dropPair_infix '[' ']' s
  have h2 : ∃ z, dropPair '[' ']' s = z ++ dropEquals (dropPair '[' ']' s) := by
    generalize dropPair '[' ']' s = t
    unfold dropEquals
    split
    · exact ⟨t.take 1, (List.take_append_drop 1 t).symm⟩
    · exact ⟨[], rfl⟩
  obtain ⟨z, h2⟩ := h2
  obtain ⟨u, v, h3⟩ := dropPair_infix '<' '>' (dropEquals (dropPair '[' ']' s))
  refine ⟨x ++ z ++ u, v ++ y, ?_⟩
  rw [h2, h3] at h
  simpa using h

theorem lastMetavar_mem {os : List HelpOption} {m : Str} (h : lastMetavar os = some m) :
    ∃ o ∈ os, o.metavar = some m := by
  have := List.mem_of_getLast? h
  exact List.mem_filterMap.1 (List.mem_filter.1 this).1

/-! ## Reading an item -/

theorem helpEntries_names (os : List HelpOption) (desc : Option Str) :
    ((helpEntries os desc).map Prod.fst).Sublist [S "metavar", S "help", S "optional_arg", S "complete"] := by
  unfold helpEntries
  cases (lastMetavar os).map stripMetavar with
  | none => cases os.any (·.optional) <;> simp <;> decide
  | some n => cases os.any (·.optional) <;> simp <;> decide

/-- The item of a list of options. -/
def helpItem (os : List HelpOption) (desc : Option Str) : (Str × Val) × List (Str × Val) :=
  ((S "option_strings", .list (os.map (fun o => .str o.option))), helpEntries os desc)

theorem helpItem_ok {os : List HelpOption} {desc : Option Str}
    (ho : ∀ o ∈ os, BasicText o.option ∧ BasicText? o.metavar) (hd : BasicText? desc) :
    Fields ((helpItem os desc).1 :: (helpItem os desc).2) ∧
      ((named ((helpItem os desc).1 :: (helpItem os desc).2)).map Prod.fst).Nodup := by
  have hnames := helpEntries_names os desc
  constructor
  · intro e he
    constructor
    · have : e.1 ∈ [S "option_strings", S "metavar", S "help", S "optional_arg", S "complete"] := by
        rcases List.mem_cons.1 he with rfl | he
        · simp [helpItem]
        · exact List.mem_cons_of_mem _ (hnames.subset (List.mem_map.2 ⟨e, he, rfl⟩))
      have hk : ∀ n ∈ [S "option_strings", S "metavar", S "help", S "optional_arg", S "complete"], KeyName n := by
        unfold KeyName; decide
      exact hk _ this
    · rcases List.mem_cons.1 he with rfl | he
      · show PortableList _
        have : os.map (fun o => Val.str o.option) = (os.map (·.option)).map .str := by simp
        rw [this]
        refine portableList_strs ?_
        intro s hs
        obtain ⟨o, h1, rfl⟩ := List.mem_map.1 hs
        exact (ho o h1).1
      · have hdesc : BasicText (fixDescription (desc.getD [])) := by
          intro c hc
          rcases mem_fixDescription hc with h | rfl
          · cases desc with
            | none => cases h
            | some t => exact hd t rfl c h
          · decide
        have hmeta : ∀ n, (lastMetavar os).map stripMetavar = some n → BasicText n := by
          intro n hn c hc
          cases hm : lastMetavar os with
          | none => rw [hm] at hn; cases hn
          | some m =>
            rw [hm] at hn; cases hn
            obtain ⟨o, h1, h2⟩ := lastMetavar_mem hm
            exact (ho o h1).2 m h2 c (mem_stripMetavar hc)
        simp only [helpItem, helpEntries] at he
        cases hn : (lastMetavar os).map stripMetavar with
        | none =>
          rw [hn] at he
          simp only [List.nil_append, List.append_nil, List.mem_append, List.mem_singleton] at he
          rcases he with rfl | he
          · exact hdesc
          · split at he
            · rw [List.mem_singleton.1 he]; trivial
            · cases he
        | some n =>
          rw [hn] at he
          simp only [List.mem_append, List.mem_singleton] at he
          rcases he with ((rfl | rfl) | he) | rfl
          · exact hmeta n hn
          · exact hdesc
          · split at he
            · rw [List.mem_singleton.1 he]; trivial
            · cases he
          · exact completeForMetavar_portable (hmeta n hn)
  · have e : (named ((helpItem os desc).1 :: (helpItem os desc).2)).map Prod.fst =
        (S "option_strings" :: (helpEntries os desc).map Prod.fst).map Key.str := by
      simp [named, helpItem]
    rw [e]
    refine strKeys_nodup ?_
    exact (hnames.cons_cons (S "option_strings")).nodup (by decide)

theorem getKey_says (os : List HelpOption) (desc : Option Str) :
    Says os desc (named ((helpItem os desc).1 :: (helpItem os desc).2)) := by
  have hnames := helpEntries_names os desc
  have hm : ∀ m, lastMetavar os = some m → (lastMetavar os).map stripMetavar = some (stripMetavar m) := by
    intro m h; rw [h]; rfl
  have gm : getKey (named ((helpItem os desc).1 :: (helpItem os desc).2)) (S "metavar") =
      ((lastMetavar os).map stripMetavar).map .str := by
    unfold helpItem helpEntries
    cases (lastMetavar os).map stripMetavar with
    | none => cases os.any (·.optional) <;> rfl
    | some n => cases os.any (·.optional) <;> rfl
  have gc : getKey (named ((helpItem os desc).1 :: (helpItem os desc).2)) (S "complete") =
      ((lastMetavar os).map stripMetavar).map (fun n => .list (completeForMetavar n)) := by
    unfold helpItem helpEntries
    cases (lastMetavar os).map stripMetavar with
    | none => cases os.any (·.optional) <;> rfl
    | some n => cases os.any (·.optional) <;> rfl
  have go : getKey (named ((helpItem os desc).1 :: (helpItem os desc).2)) (S "optional_arg") =
      if os.any (·.optional) then some (.bool true) else none := by
    unfold helpItem helpEntries
    cases (lastMetavar os).map stripMetavar with
    | none => cases os.any (·.optional) <;> rfl
    | some n => cases os.any (·.optional) <;> rfl
  have gh : getKey (named ((helpItem os desc).1 :: (helpItem os desc).2)) (S "help") =
      some (.str (fixDescription (desc.getD []))) := by
    unfold helpItem helpEntries
    cases (lastMetavar os).map stripMetavar with
    | none => rfl
    | some n => rfl
  constructor
  · have e : (named ((helpItem os desc).1 :: (helpItem os desc).2)).map Prod.fst =
        (S "option_strings" :: (helpEntries os desc).map Prod.fst).map Key.str := by
      simp [named, helpItem]
    rw [e]
    exact (hnames.cons_cons _).map _
  · rfl
  · refine ⟨splitOn '\n' (strip (desc.getD [])), _, ?_, splitOn_noSep _ _, splitOn_nonempty _ _, rfl, ?_⟩
    · rw [gh]
      unfold fixDescription
      rw [fix_lines]
    · rw [join_splitOn]
      exact strip_trimmed _
  · rintro ⟨o, h1, h2⟩
    rw [go, if_pos]
    exact List.any_eq_true.2 ⟨o, h1, h2⟩
  · intro h
    rw [go, if_neg]
    intro e
    obtain ⟨o, h1, h2⟩ := List.any_eq_true.1 e
    rw [h o h1] at h2
    cases h2
  · intro h
    rw [gm, gc, h]
    exact ⟨rfl, rfl⟩
  · intro m n h hb
    rw [gm, hm m h, stripMetavar_bare hb]
    rfl
  · intro m h
    rw [gm, gc, hm m h]
    exact ⟨_, _, rfl, stripMetavar_infix m, rfl, completeForMetavar_suggests _⟩

end CC
