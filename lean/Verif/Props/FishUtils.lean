import Verif.Model.FishUtils
import Verif.Props.FishQuoting
/-!
# C50, C51: `complete` commands and condition variables of Fish
-/

namespace CC

/-! ## Specification -/

/-- The items of an argument list for `parse_args`. -/
inductive FishArgItem where
  | f | F | a (s : Str)

/-- The words of an item. -/
def FishArgItem.words : FishArgItem → List Str
  | .f => [S "-f"]
  | .F => [S "-F"]
  | .a s => [S "-a", s]

/-- The argument list is made of the items. -/
def ParsesTo (args : List Str) (items : List FishArgItem) : Prop := args = items.flatMap FishArgItem.words

/-- The letters of the items. -/
def FishArgItem.letters : FishArgItem → List Char
  | .f => ['f']
  | .F => ['F']
  | .a _ => []

/-- What the calls ask for. `parsed` tells the items of every `parse_args` call. -/
def askedFlags (parsed : List Str → List FishArgItem) (calls : List FishCall) : List Char :=
  calls.flatMap (fun | .addFlag c => [c] | .parseArgs args => (parsed args).flatMap FishArgItem.letters | _ => [])

/-- The option names given with `-s`. -/
def askedShorts (calls : List FishCall) : List FStr :=
  calls.flatMap (fun | .addShort os raw => os.map (fun o => ⟨stripDashes o, raw⟩) | _ => [])
/-- The option names given with `-l`. -/
def askedLongs (calls : List FishCall) : List FStr :=
  calls.flatMap (fun | .addLong os raw => os.map (fun o => ⟨stripDashes o, raw⟩) | _ => [])
/-- The option names given with `-o`. -/
def askedOlds (calls : List FishCall) : List FStr :=
  calls.flatMap (fun | .addOld os raw => os.map (fun o => ⟨stripDashes o, raw⟩) | _ => [])

/-- The command: the last one set. -/
def askedCommand (calls : List FishCall) : Option FStr :=
  (calls.filterMap (fun | .setCommand s raw => some ⟨s, raw⟩ | _ => none)).getLast?
/-- The description: the last one set, which may be none. -/
def askedDescription (calls : List FishCall) : Option FStr :=
  (calls.filterMap (fun | .setDescription s raw => some (s.map (fun s => (⟨s, raw⟩ : FStr))) | _ => none)).getLast?.join
/-- The arguments: the last ones set, by `set_arguments` or by `parse_args`. -/
def askedArguments (parsed : List Str → List FishArgItem) (calls : List FishCall) : Option FStr :=
  (calls.flatMap (fun
    | .setArguments s raw => [s.map (fun s => (⟨s, raw⟩ : FStr))]
    | .parseArgs args => (parsed args).filterMap (fun | .a s => some (some ⟨s, false⟩) | _ => none)
    | _ => [])).getLast?.join

/-- The conditions: every one added or inserted, in the order of the list after the calls. -/
def askedConditions : List FStr → List FishCall → List FStr
  | cs, [] => cs
  | cs, .addCondition s raw :: xs => askedConditions (cs ++ [⟨s, raw⟩]) xs
  | cs, .insertCondition n s raw :: xs => askedConditions (cs.take n ++ ⟨s, raw⟩ :: cs.drop n) xs
  | cs, _ :: xs => askedConditions cs xs

/-- The letters that must be in the command, given those asked for: `-x` stands for `-r -f`. -/
def LetterGiven (asked : List Char) (c : Char) : Prop :=
  let x := 'x' ∈ asked ∨ ('r' ∈ asked ∧ 'f' ∈ asked)
  if c = 'x' then x else if c = 'r' ∨ c = 'f' then c ∈ asked ∧ ¬ x else c ∈ asked

/-- The words of the command. -/
def commandWords (parsed : List Str → List FishArgItem) (calls : List FishCall) (letters : List Char) : List (Str ⊕ FStr) :=
  let pre (f : Str) (l : List FStr) : List (Str ⊕ FStr) := l.flatMap (fun s => [.inl f, .inr s])
  [.inl (S "complete")] ++ pre (S "-c") (askedCommand calls).toList ++ pre (S "-n") (askedConditions [] calls) ++
  pre (S "-s") (askedShorts calls) ++ pre (S "-l") (askedLongs calls) ++ pre (S "-o") (askedOlds calls) ++
  pre (S "-d") (askedDescription calls).toList ++ (if letters = [] then [] else [.inl ('-' :: letters)]) ++
  pre (S "-a") (askedArguments parsed calls).toList

/-! ## Proofs -/

theorem mem_addChar (a c : Char) (l : List Char) : a ∈ addChar c l ↔ a ∈ l ∨ a = c := by
  unfold addChar
  split
  · rename_i h
    simp at h
    constructor
    · exact Or.inl
    · rintro (h1 | rfl)
      · exact h1
      · exact h
  · simp

theorem nodup_addChar (c : Char) (l : List Char) (h : l.Nodup) : (addChar c l).Nodup := by
  unfold addChar
  split
  · exact h
  · rename_i hc
    simp at hc
    rw [List.nodup_append]
    refine ⟨h, by simp, ?_⟩
    intro a ha b hb
    simp at hb; subst hb
    intro e; subst e; exact hc ha

theorem mem_insertChar (a x : Char) (l : List Char) : a ∈ insertChar x l ↔ a = x ∨ a ∈ l := by
  induction l with
  | nil => simp [insertChar]
  | cons b bs ih =>
    unfold insertChar
    split
    · simp
    · simp only [List.mem_cons, ih]
      constructor
      · rintro (h | h | h) <;> simp [h]
      · rintro (h | h | h) <;> simp [h]

theorem mem_sortChars (a : Char) (l : List Char) : a ∈ sortChars l ↔ a ∈ l := by
  induction l with
  | nil => simp [sortChars]
  | cons b bs ih =>
    have : sortChars (b :: bs) = insertChar b (sortChars bs) := rfl
    rw [this, mem_insertChar, ih]; simp

theorem insertChar_pairwise (x : Char) (l : List Char) (h : l.Pairwise (fun a b => a.toNat < b.toNat)) (hx : x ∉ l) :
    (insertChar x l).Pairwise (fun a b => a.toNat < b.toNat) := by
  induction l with
  | nil => simp [insertChar]
  | cons b bs ih =>
    rw [List.pairwise_cons] at h
    simp only [List.mem_cons, not_or] at hx
    have hne : x.toNat ≠ b.toNat := by
      intro e; exact hx.1 (Char.toNat_inj.mp e)
    unfold insertChar
    split
    · rename_i hle
      rw [List.pairwise_cons]
      refine ⟨?_, List.pairwise_cons.mpr h⟩
      intro a ha
      simp at ha
      rcases ha with rfl | ha
      · omega
      · have := h.1 a ha; omega
    · rename_i hle
      rw [List.pairwise_cons]
      refine ⟨?_, ih h.2 hx.2⟩
      intro a ha
      rw [mem_insertChar] at ha
      rcases ha with rfl | ha
      · omega
      · exact h.1 a ha

theorem sortChars_pairwise (l : List Char) (h : l.Nodup) : (sortChars l).Pairwise (fun a b => a.toNat < b.toNat) := by
  induction l with
  | nil => simp [sortChars]
  | cons b bs ih =>
    rw [List.nodup_cons] at h
    have : sortChars (b :: bs) = insertChar b (sortChars bs) := rfl
    rw [this]
    exact insertChar_pairwise _ _ (ih h.2) (by rw [mem_sortChars]; exact h.1)

theorem normalFlags_mem (l : List Char) (c : Char) : c ∈ normalFlags l ↔ LetterGiven l c := by
  have key : ∀ m : List Char, (∀ a, a ∈ m ↔ a ∈ l ∨ (a = 'x' ∧ 'r' ∈ l ∧ 'f' ∈ l)) →
      (c ∈ (if m.contains 'x' then m.filter (fun c => c != 'r' && c != 'f') else m) ↔ LetterGiven l c) := by
    intro m hm
    have hx := hm 'x'
    simp at hx
    unfold LetterGiven
    by_cases h1 : m.contains 'x' = true
    · rw [if_pos h1]
      simp at h1
      have hx' := hx.mp h1
      rw [List.mem_filter, hm]
      by_cases hc : c = 'x'
      · subst hc; simp
      · by_cases hr : c = 'r' ∨ c = 'f'
        · rw [if_neg hc, if_pos hr]
          constructor
          · rintro ⟨-, h⟩
            rcases hr with rfl | rfl <;> simp at h
          · rintro ⟨-, h⟩; exact absurd hx' h
        · rw [if_neg hc, if_neg hr]
          simp only [not_or] at hr
          simp [hc, hr]
    · rw [if_neg h1]
      simp at h1
      have hx' : ¬ ('x' ∈ l ∨ 'r' ∈ l ∧ 'f' ∈ l) := fun h => h1 (hx.mpr h)
      rw [hm]
      by_cases hc : c = 'x'
      · subst hc; simp
      · by_cases hr : c = 'r' ∨ c = 'f'
        · rw [if_neg hc, if_pos hr]; simp [hc]; intro _; simpa using hx'
        · rw [if_neg hc, if_neg hr]; simp [hc]
  unfold normalFlags
  by_cases h : (l.contains 'r' && l.contains 'f') = true
  · simp only [h, if_true]
    simp at h
    exact key (addChar 'x' l) (by intro a; rw [mem_addChar]; simp [h])
  · simp only [h, if_false, Bool.false_eq_true]
    simp at h
    exact key l (by
      intro a
      constructor
      · exact Or.inl
      · rintro (h' | ⟨-, h1, h2⟩)
        · exact h'
        · exact absurd h2 (h h1))

theorem normalFlags_nodup (l : List Char) (h : l.Nodup) : (normalFlags l).Nodup := by
  have key : ∀ m : List Char, m.Nodup → (if m.contains 'x' then m.filter (fun c => c != 'r' && c != 'f') else m).Nodup := by
    intro m hm
    split
    · exact List.Pairwise.filter _ hm
    · exact hm
  unfold normalFlags
  by_cases h1 : (l.contains 'r' && l.contains 'f') = true
  · simp only [h1, if_true]; exact key _ (nodup_addChar _ _ h)
  · simp only [h1, if_false, Bool.false_eq_true]; exact key _ h

/-- Effect of `parse_args`. -/
theorem parseArgs_spec (items : List FishArgItem) : ∀ (c : FishCmd) (args : List Str), ParsesTo args items →
    ∃ fl, c.parseArgs args = .ok { c with
        flags := fl
        arguments := ((items.filterMap (fun | .a s => some (some (⟨s, false⟩ : FStr)) | _ => none)).getLast?.getD c.arguments) } ∧
      (∀ a, a ∈ fl ↔ a ∈ c.flags ∨ a ∈ items.flatMap FishArgItem.letters) ∧ (c.flags.Nodup → fl.Nodup) := by
  induction items with
  | nil =>
    intro c args h
    simp only [ParsesTo, List.flatMap_nil] at h
    subst h
    exact ⟨c.flags, by simp [FishCmd.parseArgs], by simp, id⟩
  | cons it items ih =>
    intro c args h
    unfold ParsesTo at h
    rw [List.flatMap_cons] at h
    subst h
    have hrest := fun c => ih c (items.flatMap FishArgItem.words) rfl
    cases it with
    | f =>
      obtain ⟨fl, h1, h2, h3⟩ := hrest { c with flags := addChar 'f' c.flags }
      refine ⟨fl, ?_, ?_, fun h => h3 (nodup_addChar _ _ h)⟩
      · rw [List.filterMap_cons_none rfl]
        rw [← h1]
        cases items.flatMap FishArgItem.words with
        | nil => simp [FishArgItem.words, FishCmd.parseArgs]
        | cons b bs => simp [FishArgItem.words, FishCmd.parseArgs]
      · intro a
        rw [h2, mem_addChar]
        simp [FishArgItem.letters, or_assoc]
    | F =>
      obtain ⟨fl, h1, h2, h3⟩ := hrest { c with flags := addChar 'F' c.flags }
      refine ⟨fl, ?_, ?_, fun h => h3 (nodup_addChar _ _ h)⟩
      · rw [List.filterMap_cons_none rfl]
        rw [← h1]
        have hne : ¬ S "-F" = S "-f" := by decide
        cases items.flatMap FishArgItem.words with
        | nil => simp [FishArgItem.words, FishCmd.parseArgs, hne]
        | cons b bs => simp [FishArgItem.words, FishCmd.parseArgs, hne]
      · intro a
        rw [h2, mem_addChar]
        simp [FishArgItem.letters, or_assoc]
    | a s =>
      obtain ⟨fl, h1, h2, h3⟩ := hrest { c with arguments := some ⟨s, false⟩ }
      refine ⟨fl, ?_, ?_, h3⟩
      · have hne : ¬ S "-a" = S "-f" := by decide
        have hne' : ¬ S "-a" = S "-F" := by decide
        simp only [FishArgItem.words, List.cons_append, List.nil_append, FishCmd.parseArgs, hne, hne', if_false, if_true]
        rw [h1]
        congr 2
        simp only [List.filterMap_cons, List.getLast?_cons, Option.getD_some]
      · intro a; rw [h2]; simp [FishArgItem.letters]

/-- Accepted argument lists have items. -/
theorem parseArgs_ok (args : List Str) : ∀ c c', FishCmd.parseArgs c args = .ok c' → ∃ items, ParsesTo args items := by
  induction hn : args.length using Nat.strongRecOn generalizing args with
  | _ n ih =>
  intro c c' h
  match args with
  | [] => exact ⟨[], rfl⟩
  | [a] =>
    unfold FishCmd.parseArgs at h
    split at h
    · rename_i e; subst e; exact ⟨[.f], rfl⟩
    · split at h
      · rename_i e; subst e; exact ⟨[.F], rfl⟩
      · cases h
  | a :: b :: args =>
    unfold FishCmd.parseArgs at h
    simp only [List.length_cons] at hn
    split at h
    · rename_i e; subst e
      obtain ⟨items, hi⟩ := ih _ (by simp; omega) (b :: args) rfl _ _ h
      exact ⟨.f :: items, by rw [ParsesTo, hi]; rfl⟩
    · split at h
      · rename_i e; subst e
        obtain ⟨items, hi⟩ := ih _ (by simp; omega) (b :: args) rfl _ _ h
        exact ⟨.F :: items, by rw [ParsesTo, hi]; rfl⟩
      · split at h
        · rename_i e; subst e
          obtain ⟨items, hi⟩ := ih _ (by omega) args rfl _ _ h
          exact ⟨.a b :: items, by rw [ParsesTo, hi]; rfl⟩
        · cases h

/-- The last of a list of optional values, or the value from before. -/
theorem last_or {α} (l : List α) (a b : α) : (a :: l).getLast?.getD b = l.getLast?.getD a := by
  rw [List.getLast?_cons]; rfl

theorem last_append {α} (l m : List α) (a : α) : (l ++ m).getLast?.getD a = m.getLast?.getD (l.getLast?.getD a) := by
  rw [List.getLast?_append]
  cases m.getLast? <;> rfl

theorem join_last {α} (l : List (Option α)) : l.getLast?.join = l.getLast?.getD none := by
  cases l.getLast? <;> rfl

/-- The effect of a sequence of calls on every field. -/
theorem calls_spec (parsed : List Str → List FishArgItem) (calls : List FishCall) :
    ∀ c : FishCmd, (∀ args, .parseArgs args ∈ calls → ParsesTo args (parsed args)) → c.flags.Nodup →
    ∃ c', c.calls calls = .ok c' ∧
      c'.command = ((calls.filterMap (fun | FishCall.setCommand s raw => some (⟨s, raw⟩ : FStr) | _ => none)).map some).getLast?.getD c.command ∧
      c'.description = (calls.filterMap (fun | FishCall.setDescription s raw => some (s.map (fun s => (⟨s, raw⟩ : FStr))) | _ => none)).getLast?.getD c.description ∧
      c'.arguments = (calls.flatMap (fun
        | FishCall.setArguments s raw => [s.map (fun s => (⟨s, raw⟩ : FStr))]
        | FishCall.parseArgs args => (parsed args).filterMap (fun | .a s => some (some ⟨s, false⟩) | _ => none)
        | _ => [])).getLast?.getD c.arguments ∧
      c'.conditions = askedConditions c.conditions calls ∧
      c'.shorts = c.shorts ++ askedShorts calls ∧
      c'.longs = c.longs ++ askedLongs calls ∧
      c'.olds = c.olds ++ askedOlds calls ∧
      (∀ a, a ∈ c'.flags ↔ a ∈ c.flags ∨ a ∈ askedFlags parsed calls) ∧
      c'.flags.Nodup := by
  induction calls with
  | nil =>
    intro c _ hn
    exact ⟨c, rfl, rfl, rfl, rfl, rfl, by simp [askedShorts], by simp [askedLongs], by simp [askedOlds], by simp [askedFlags], hn⟩
  | cons x xs ih =>
    intro c hp hn
    have hp' : ∀ args, .parseArgs args ∈ xs → ParsesTo args (parsed args) := fun a h => hp a (List.mem_cons_of_mem _ h)
    -- one call
    have step : ∀ c1 : FishCmd, c.call x = .ok c1 → c1.flags.Nodup →
        ∃ c', c.calls (x :: xs) = .ok c' ∧ _ := fun c1 h1 h2 => by
      obtain ⟨c', h⟩ := ih c1 hp' h2
      refine ⟨c', ?_, h.2⟩
      rw [FishCmd.calls, h1]
      exact h.1
    cases x with
    | setCommand s raw =>
      obtain ⟨c', h0, h1, h2, h3, h4, h5, h6, h7, h8, h9⟩ := step _ rfl hn
      exact ⟨c', h0, by rw [h1]; simp [List.getLast?_cons], h2, h3, h4, h5, h6, h7, h8, h9⟩
    | setDescription s raw =>
      obtain ⟨c', h0, h1, h2, h3, h4, h5, h6, h7, h8, h9⟩ := step _ rfl hn
      exact ⟨c', h0, h1, by rw [h2]; simp [List.getLast?_cons], h3, h4, h5, h6, h7, h8, h9⟩
    | addShort os raw =>
      obtain ⟨c', h0, h1, h2, h3, h4, h5, h6, h7, h8, h9⟩ := step _ rfl hn
      exact ⟨c', h0, h1, h2, h3, h4, by rw [h5]; simp [askedShorts], h6, h7, h8, h9⟩
    | addLong os raw =>
      obtain ⟨c', h0, h1, h2, h3, h4, h5, h6, h7, h8, h9⟩ := step _ rfl hn
      exact ⟨c', h0, h1, h2, h3, h4, h5, by rw [h6]; simp [askedLongs], h7, h8, h9⟩
    | addOld os raw =>
      obtain ⟨c', h0, h1, h2, h3, h4, h5, h6, h7, h8, h9⟩ := step _ rfl hn
      exact ⟨c', h0, h1, h2, h3, h4, h5, h6, by rw [h7]; simp [askedOlds], h8, h9⟩
    | addCondition s raw =>
      obtain ⟨c', h0, h1, h2, h3, h4, h5, h6, h7, h8, h9⟩ := step _ rfl hn
      exact ⟨c', h0, h1, h2, h3, h4, h5, h6, h7, h8, h9⟩
    | insertCondition n s raw =>
      obtain ⟨c', h0, h1, h2, h3, h4, h5, h6, h7, h8, h9⟩ := step _ rfl hn
      exact ⟨c', h0, h1, h2, h3, h4, h5, h6, h7, h8, h9⟩
    | setArguments s raw =>
      obtain ⟨c', h0, h1, h2, h3, h4, h5, h6, h7, h8, h9⟩ := step _ rfl hn
      exact ⟨c', h0, h1, h2, by rw [h3]; simp [List.getLast?_cons], h4, h5, h6, h7, h8, h9⟩
    | addFlag f =>
      obtain ⟨c', h0, h1, h2, h3, h4, h5, h6, h7, h8, h9⟩ := step _ rfl (nodup_addChar _ _ hn)
      refine ⟨c', h0, h1, h2, h3, h4, h5, h6, h7, ?_, h9⟩
      intro a
      rw [h8]
      show a ∈ addChar f c.flags ∨ _ ↔ _
      rw [mem_addChar]; simp [askedFlags, or_assoc]
    | parseArgs args =>
      obtain ⟨fl, e, hm, hnd⟩ := parseArgs_spec (parsed args) c args (hp args List.mem_cons_self)
      obtain ⟨c', h0, h1, h2, h3, h4, h5, h6, h7, h8, h9⟩ := step _ e (hnd hn)
      refine ⟨c', h0, h1, h2, ?_, h4, h5, h6, h7, ?_, h9⟩
      · rw [h3, List.flatMap_cons, last_append]
      · intro a; rw [h8, hm]; simp [askedFlags, or_assoc]

theorem letters_ext (asked asked' : List Char) (h : ∀ a, a ∈ asked ↔ a ∈ asked') (c : Char) :
    LetterGiven asked c ↔ LetterGiven asked' c := by
  unfold LetterGiven
  simp only [h]

/-- How a word of the command is written. -/
def wordText : Str ⊕ FStr → Str
  | .inl w => w
  | .inr s => s.escape

theorem flagged_words (f : Str) (l : List FStr) :
    flagged f l = (l.flatMap (fun s => ([.inl f, .inr s] : List (Str ⊕ FStr)))).map wordText := by
  induction l with
  | nil => rfl
  | cons a l ih => simp only [flagged, List.flatMap_cons, List.map_append] at *; rw [ih]; rfl

/-- **C50.** For every sequence of builder calls: if the argument lists given to `parse_args` are
made of the known items then no call fails, and the text of the command has, in this order, the
command set last, every condition, every short, long and old option in the order they were added,
the description set last, the letters, and the arguments set last, each once. The letters are
written once each, in ascending order. A letter is there iff it was asked for, except that `r` and `f`
together are written as `x`, and `x` swallows `r` and `f`. -/
theorem C50_command (parsed : List Str → List FishArgItem) (calls : List FishCall)
    (hp : ∀ args, .parseArgs args ∈ calls → ParsesTo args (parsed args)) :
    ∃ c letters, ({} : FishCmd).calls calls = .ok c ∧
      letters.Pairwise (fun a b => a.toNat < b.toNat) ∧
      (∀ a, a ∈ letters ↔ LetterGiven (askedFlags parsed calls) a) ∧
      c.get.1 = joinWith [' '] ((commandWords parsed calls letters).map wordText) := by
  obtain ⟨c, h0, h1, h2, h3, h4, h5, h6, h7, h8, h9⟩ := calls_spec parsed calls {} hp List.nodup_nil
  refine ⟨c, sortChars (normalFlags c.flags), h0, sortChars_pairwise _ (normalFlags_nodup _ h9), ?_, ?_⟩
  · intro a
    rw [mem_sortChars, normalFlags_mem]
    exact letters_ext _ _ (by intro a; rw [h8]; simp) a
  · have hcmd : c.command = askedCommand calls := by
      rw [h1, askedCommand, List.getLast?_map]
      cases (calls.filterMap _).getLast? <;> rfl
    have hdesc : c.description = askedDescription calls := by rw [h2, askedDescription, join_last]
    have harg : c.arguments = askedArguments parsed calls := by rw [h3, askedArguments, join_last]
    have hl : (if (normalFlags c.flags).isEmpty = true then ([] : List Str) else ['-' :: sortChars (normalFlags c.flags)]) =
        (if sortChars (normalFlags c.flags) = [] then ([] : List (Str ⊕ FStr)) else [.inl ('-' :: sortChars (normalFlags c.flags))]).map wordText := by
      by_cases he : normalFlags c.flags = []
      · rw [he]; rfl
      · have h1 : sortChars (normalFlags c.flags) ≠ [] := by
          obtain ⟨a, as, e⟩ := List.exists_cons_of_ne_nil he
          intro hs
          have : a ∈ sortChars (normalFlags c.flags) := by rw [mem_sortChars, e]; simp
          rw [hs] at this; simp at this
        rw [if_neg h1, if_neg (by simpa using he)]; rfl
    unfold FishCmd.get commandWords
    dsimp only
    rw [hl, hcmd, hdesc, harg, h4, h5, h6, h7]
    simp only [flagged_words, List.map_append, List.nil_append]
    rfl

/-- **C50.** A sequence of calls fails only when the argument list of a `parse_args` call is not
made of the known items. -/
theorem C50_fails (calls : List FishCall) (e : Err) (h : ({} : FishCmd).calls calls = .error e) :
    ∃ args, .parseArgs args ∈ calls ∧ ¬ ∃ items, ParsesTo args items := by
  apply Classical.byContradiction
  intro hno
  have hall : ∀ args, .parseArgs args ∈ calls → ∃ items, ParsesTo args items := by
    intro args hm
    apply Classical.byContradiction
    intro hn
    exact hno ⟨args, hm, hn⟩
  have : ∃ parsed : List Str → List FishArgItem, ∀ args, .parseArgs args ∈ calls → ParsesTo args (parsed args) := by
    classical
    refine ⟨fun args => if hm : FishCall.parseArgs args ∈ calls then Classical.choose (hall args hm) else [], ?_⟩
    intro args hm
    simp only [hm, dif_pos]
    exact Classical.choose_spec (hall args hm)
  obtain ⟨parsed, hp⟩ := this
  obtain ⟨c, _, h0, _⟩ := C50_command parsed calls hp
  rw [h0] at h
  cases h

/-- **C50.** And it fails whenever there is such a call. -/
theorem C50_rejects (calls : List FishCall) (args : List Str) (hm : .parseArgs args ∈ calls)
    (hn : ¬ ∃ items, ParsesTo args items) : ∀ c0 c : FishCmd, c0.calls calls ≠ .ok c := by
  induction calls with
  | nil => simp at hm
  | cons x xs ih =>
    intro c0 c h
    rw [FishCmd.calls] at h
    cases h1 : c0.call x with
    | error e => rw [h1] at h; cases h
    | ok c1 =>
      rw [h1] at h
      rcases List.mem_cons.mp hm with e | hm
      · subst e
        exact hn (parseArgs_ok args c0 c1 h1)
      · exact ih hm c1 c h

/-- **C50.** The letters `r` and `f` never stand beside `x`, and `x` is there iff it was asked for or
both `r` and `f` were. -/
theorem C50_exclusive (asked : List Char) :
    (LetterGiven asked 'x' ↔ 'x' ∈ asked ∨ ('r' ∈ asked ∧ 'f' ∈ asked)) ∧
    ¬ (LetterGiven asked 'x' ∧ LetterGiven asked 'r') ∧ ¬ (LetterGiven asked 'x' ∧ LetterGiven asked 'f') := by
  refine ⟨by simp [LetterGiven], ?_, ?_⟩
  · rintro ⟨h1, h2⟩
    simp only [LetterGiven] at h1 h2
    simp at h1 h2
    rcases h1 with h | ⟨h, h'⟩
    · exact h2.2.1 h
    · exact h2.2.2 h h'
  · rintro ⟨h1, h2⟩
    simp only [LetterGiven] at h1 h2
    simp at h1 h2
    rcases h1 with h | ⟨h, h'⟩
    · exact h2.2.1 h
    · exact h2.2.2 h h'

theorem normalFlags_idem (l : List Char) : normalFlags (normalFlags l) = normalFlags l := by
  have hx := (normalFlags_mem l 'x').trans (C50_exclusive l).1
  have hr := normalFlags_mem l 'r'
  have hf := normalFlags_mem l 'f'
  have e := C50_exclusive l
  have hno : ¬ ('r' ∈ normalFlags l ∧ 'f' ∈ normalFlags l) := by
    rw [hr, hf]
    rintro ⟨h1, h2⟩
    simp only [LetterGiven] at h1 h2
    simp at h1 h2
    exact h1.2.2 h1.1 h2.1
  have hno2 : 'x' ∈ normalFlags l → 'r' ∉ normalFlags l ∧ 'f' ∉ normalFlags l := by
    intro h
    rw [normalFlags_mem] at h
    rw [hr, hf]
    exact ⟨fun h' => e.2.1 ⟨h, h'⟩, fun h' => e.2.2 ⟨h, h'⟩⟩
  generalize normalFlags l = m at *
  unfold normalFlags
  have : ¬ (m.contains 'r' && m.contains 'f') = true := by simpa using hno
  simp only [this, if_false, Bool.false_eq_true]
  split
  · rename_i h
    simp at h
    rw [List.filter_eq_self]
    intro a ha
    have := hno2 h
    simp
    constructor
    · intro e; subst e; exact this.1 ha
    · intro e; subst e; exact this.2 ha
  · rfl

/-- **C50.** Asking for the text twice gives the same text. -/
theorem C50_get_again (c : FishCmd) : c.get.2.get.1 = c.get.1 := by
  unfold FishCmd.get
  simp only [normalFlags_idem]

/-- The word that Fish sees. -/
def wordValue : Str ⊕ FStr → Str
  | .inl w => w
  | .inr s => s.string

theorem quote_safe (w : Str) (h1 : w ≠ []) (h2 : ∀ c ∈ w, isSafeChar c = true) : quote w = w := by
  have hne : w.isEmpty = false := by simpa using h1
  have hall : w.all isSafeChar = true := List.all_eq_true.mpr h2
  simp [quote, needsQuote, hne, hall]

theorem readable_safe (w : Str) (h2 : ∀ c ∈ w, isSafeChar c = true) : fishReadable w = true := by
  have hq : w.contains '\'' = false := by
    simp
    intro h
    have := h2 _ h
    revert this; decide
  simp only [fishReadable, hq, Bool.false_and, Bool.false_eq_true, if_false]
  have hb : '\\' ∉ w := by
    intro h
    have := h2 _ h
    revert this; decide
  clear hq h2
  induction w with
  | nil => rfl
  | cons c cs ih =>
    simp only [List.mem_cons, not_or] at hb
    unfold backslashHarmless
    split
    · rfl
    · rename_i e; simp at e; exact absurd e.1.symm hb.1
    · rename_i e; simp at e; exact absurd e.1.symm hb.1
    · rename_i e; simp at e; rw [← e.2]; exact ih hb.2

theorem fish_reads (ws : List (Str ⊕ FStr))
    (hw : ∀ w, .inl w ∈ ws → w ≠ [] ∧ ∀ c ∈ w, isSafeChar c = true)
    (hs : ∀ s, .inr s ∈ ws → s.raw = false ∧ fishReadable s.string = true) :
    Fish.words (joinWith [' '] (ws.map wordText)) = some (ws.map wordValue) := by
  have e : ws.map wordText = (ws.map wordValue).map (fun a => quote a) := by
    rw [List.map_map]
    apply List.map_congr_left
    intro w hm
    cases w with
    | inl w =>
      obtain ⟨h1, h2⟩ := hw w hm
      simp only [wordText, wordValue, Function.comp, quote_safe w h1 h2]
    | inr s =>
      simp only [wordText, wordValue, Function.comp, FStr.escape, (hs s hm).1]
      rfl
  rw [e]
  exact C03_fish_join_quoted_partial _ (by
    intro a ha
    obtain ⟨w, hm, rfl⟩ := List.mem_map.mp ha
    cases w with
    | inl w => exact readable_safe w (hw w hm).2
    | inr s => exact (hs s hm).2)

/-- **C50.** Fish reads the text of the command as the words it was built from, when every string is
quoted and readable and the letters are letters or digits. Missing: strings that are passed raw, and
those that C03 excludes. -/
theorem C50_read_partial (parsed : List Str → List FishArgItem) (calls : List FishCall)
    (hp : ∀ args, .parseArgs args ∈ calls → ParsesTo args (parsed args))
    (hl : ∀ a ∈ askedFlags parsed calls, isAsciiAlnum a = true)
    (hs : ∀ s letters, .inr s ∈ commandWords parsed calls letters → s.raw = false ∧ fishReadable s.string = true) :
    ∃ c letters, ({} : FishCmd).calls calls = .ok c ∧
      letters.Pairwise (fun a b => a.toNat < b.toNat) ∧
      (∀ a, a ∈ letters ↔ LetterGiven (askedFlags parsed calls) a) ∧
      Fish.words c.get.1 = some ((commandWords parsed calls letters).map wordValue) := by
  obtain ⟨c, letters, h1, h2, h3, h4⟩ := C50_command parsed calls hp
  refine ⟨c, letters, h1, h2, h3, ?_⟩
  rw [h4]
  apply fish_reads
  · intro w hm
    have hpre : ∀ (f : Str) (l : List FStr), .inl w ∈ l.flatMap (fun s => ([.inl f, .inr s] : List (Str ⊕ FStr))) → w = f := by
      intro f l h
      rw [List.mem_flatMap] at h
      obtain ⟨s, _, h⟩ := h
      simpa using h
    unfold commandWords at hm
    simp only [List.mem_append] at hm
    have hlit : ∀ f ∈ [S "complete", S "-c", S "-n", S "-s", S "-l", S "-o", S "-d", S "-a"],
        f ≠ [] ∧ ∀ c ∈ f, isSafeChar c = true := by decide
    rcases hm with (((((((hm | hm) | hm) | hm) | hm) | hm) | hm) | hm) | hm
    · simp at hm; subst hm; exact hlit _ (by simp)
    · have := hpre _ _ hm; subst this; exact hlit _ (by simp)
    · have := hpre _ _ hm; subst this; exact hlit _ (by simp)
    · have := hpre _ _ hm; subst this; exact hlit _ (by simp)
    · have := hpre _ _ hm; subst this; exact hlit _ (by simp)
    · have := hpre _ _ hm; subst this; exact hlit _ (by simp)
    · have := hpre _ _ hm; subst this; exact hlit _ (by simp)
    · split at hm
      · simp at hm
      · simp at hm
        subst hm
        refine ⟨by simp, ?_⟩
        intro a ha
        rcases List.mem_cons.mp ha with rfl | ha
        · decide
        · have hg := (h3 a).mp ha
          have hal : isAsciiAlnum a = true := by
            simp only [LetterGiven] at hg
            split at hg
            · rename_i e; subst e; decide
            · split at hg
              · exact hl a hg.1
              · exact hl a hg
          simp [isSafeChar, hal]
    · have := hpre _ _ hm; subst this; exact hlit _ (by simp)
  · intro s hm; exact hs s letters hm

/-- A sequence of calls: an option with a required argument, files disabled, completed by a list. -/
def exampleCalls : List FishCall :=
  [.setCommand (S "my prog") false, .addShort [S "-o"] false, .addLong [S "--output", S "--out"] false,
   .setDescription (some (S "It's the output")) false, .addFlag 'r', .addCondition (S "b") false,
   .insertCondition 0 (S "a b") false, .parseArgs [S "-f", S "-a", S "x y"]]

/-- Its text; no `r` or `f` beside the `x`. -/
theorem C50_example :
    ((({} : FishCmd).calls exampleCalls).toOption.map (fun c => c.get.1)) =
    some (S "complete -c 'my prog' -n 'a b' -n b -s o -l output -l out -d \"It's the output\" -x -a 'x y'") := by
  decide +kernel

/-- It meets the hypotheses of `C50_read_partial`. -/
theorem C50_example_hypotheses :
    ∃ parsed : List Str → List FishArgItem,
      (∀ args, .parseArgs args ∈ exampleCalls → ParsesTo args (parsed args)) ∧
      (∀ a ∈ askedFlags parsed exampleCalls, isAsciiAlnum a = true) ∧
      (∀ s letters, .inr s ∈ commandWords parsed exampleCalls letters → s.raw = false ∧ fishReadable s.string = true) := by
  refine ⟨fun _ => [.f, .a (S "x y")], ?_, ?_, ?_⟩
  · intro args h
    simp [exampleCalls] at h
    subst h; rfl
  · decide
  · intro s letters h
    by_cases hl : letters = [] <;>
    · simp [commandWords, hl, exampleCalls, askedCommand, askedDescription, askedArguments, askedConditions,
        askedShorts, askedLongs, askedOlds, stripDashes] at h
      rcases h with h | h | h | h | h | h | h | h <;> subst h <;> decide

/-! ## C51 -/

theorem ofDigits_zeros (k : Nat) (s : Str) : Nat.ofDigitChars 10 (List.replicate k '0' ++ s) 0 = Nat.ofDigitChars 10 s 0 := by
  induction k with
  | zero => rfl
  | succ k ih =>
    rw [List.replicate_succ, List.cons_append, Nat.ofDigitChars_cons]
    simpa using ih

theorem pad3_inj {a b : Nat} (h : pad3 a = pad3 b) : a = b := by
  have := congrArg (fun s => Nat.ofDigitChars 10 s 0) h
  simp only [pad3, ofDigits_zeros] at this
  simpa [natStr] using this

/-- The variables for the distinct values `ds` with prefix `name`. -/
def numbered (name : Str) (ds : List Str) : List (Str × Str) :=
  ds.zipIdx.map (fun e : Str × Nat => (e.1, name ++ pad3 e.2))

theorem numbered_snoc (name : Str) (ds : List Str) (v : Str) :
    numbered name (ds ++ [v]) = numbered name ds ++ [(v, name ++ pad3 ds.length)] := by
  simp [numbered, List.zipIdx_append]

theorem find_numbered (name : Str) (ds : List Str) (v : Str) : ∀ k,
    ((ds.zipIdx k).map (fun e : Str × Nat => (e.1, name ++ pad3 e.2))).find? (fun e => decide (e.1 = v)) =
      if v ∈ ds then some (v, name ++ pad3 (k + ds.idxOf v)) else none := by
  induction ds with
  | nil => intro k; simp
  | cons d ds ih =>
    intro k
    simp only [List.zipIdx_cons, List.map_cons, List.find?_cons]
    by_cases h : d = v
    · subst h; simp
    · have h' : ¬ v = d := fun e => h e.symm
      simp only [h, decide_false, List.mem_cons, h', false_or]
      rw [ih]
      by_cases hm : v ∈ ds
      · simp only [hm, if_true]
        rw [List.idxOf_cons]
        have hb : (d == v) = false := by simpa using h
        have : k + 1 + ds.idxOf v = k + (ds.idxOf v + 1) := by omega
        rw [this, hb]
        rfl
      · simp [hm]

theorem adds_spec (name : Str) (values : List Str) : ∀ ds : List Str, ds.Nodup →
    ∃ es, (ds ++ es).Nodup ∧ (∀ v, v ∈ ds ++ es ↔ v ∈ ds ∨ v ∈ values) ∧
      (VarManager.adds ⟨name, numbered name ds, ds.length⟩ values).1 =
        values.map (fun v => '$' :: (name ++ pad3 ((ds ++ es).idxOf v))) ∧
      (VarManager.adds ⟨name, numbered name ds, ds.length⟩ values).2.vars = numbered name (ds ++ es) := by
  induction values with
  | nil => intro ds h; exact ⟨[], by simpa using h, by simp, rfl, by simp [VarManager.adds]⟩
  | cons v vs ih =>
    intro ds h
    have hf := find_numbered name ds v 0
    by_cases hm : v ∈ ds
    · rw [if_pos hm] at hf
      have hadd : (VarManager.mk name (numbered name ds) ds.length).add v =
          ('$' :: (name ++ pad3 (ds.idxOf v)), ⟨name, numbered name ds, ds.length⟩) := by
        simp only [VarManager.add, VarManager.find, numbered, hf]
        simp
      obtain ⟨es, h1, h2, h3, h4⟩ := ih ds h
      refine ⟨es, h1, ?_, ?_, ?_⟩
      · intro x; rw [h2]; simp only [List.mem_cons]
        constructor
        · rintro (h | h) <;> simp [h]
        · rintro (h | h | h)
          · exact Or.inl h
          · subst h; exact Or.inl hm
          · exact Or.inr h
      · simp only [VarManager.adds, hadd, h3, List.map_cons]
        rw [List.idxOf_append, if_pos hm]
      · simp only [VarManager.adds, hadd, h4]
    · rw [if_neg hm] at hf
      have hadd : (VarManager.mk name (numbered name ds) ds.length).add v =
          ('$' :: (name ++ pad3 ds.length), ⟨name, numbered name (ds ++ [v]), (ds ++ [v]).length⟩) := by
        have hf' : (VarManager.mk name (numbered name ds) ds.length).find v = none := by
          simp only [VarManager.find, numbered, hf]; rfl
        simp only [VarManager.add, hf', numbered_snoc]
        simp
      have hnd : (ds ++ [v]).Nodup := by
        rw [List.nodup_append]
        refine ⟨h, by simp, ?_⟩
        intro a ha b hb
        simp at hb; subst hb
        intro e; subst e; exact hm ha
      obtain ⟨es, h1, h2, h3, h4⟩ := ih (ds ++ [v]) hnd
      have e : ds ++ [v] ++ es = ds ++ v :: es := by simp
      rw [e] at h1 h2 h3 h4
      refine ⟨v :: es, h1, ?_, ?_, ?_⟩
      · intro x; rw [h2]; simp [or_assoc]
      · simp only [VarManager.adds, hadd, h3, List.map_cons]
        rw [List.idxOf_append, if_neg hm]
        simp
      · simp only [VarManager.adds, hadd, h4]

/-- **C51.** After any sequence of additions to a new manager there is a list of the distinct values,
`get_lines` defines for each of them, once, one variable with exactly this value, and each addition
returned the variable of its value. -/
theorem C51_variables (name : Str) (values : List Str) :
    ∃ ds : List Str, ds.Nodup ∧ (∀ v, v ∈ ds ↔ v ∈ values) ∧
      (VarManager.adds ⟨name, [], 0⟩ values).1 = values.map (fun v => '$' :: (name ++ pad3 (ds.idxOf v))) ∧
      (VarManager.adds ⟨name, [], 0⟩ values).2.lines =
        ds.zipIdx.map (fun e => S "set -l " ++ (name ++ pad3 e.2) ++ [' '] ++ e.1) := by
  obtain ⟨es, h1, h2, h3, h4⟩ := adds_spec name values [] List.nodup_nil
  refine ⟨es, by simpa using h1, by simpa using h2, by simpa [numbered] using h3, ?_⟩
  have h4' : (VarManager.adds ⟨name, [], 0⟩ values).2.vars = numbered name es := by simpa [numbered] using h4
  simp only [VarManager.lines, h4', numbered, List.map_map]
  rfl

/-- **C51.** Equal values have equal variables, different values different variables. -/
theorem C51_equal (name : Str) (values : List Str) (i j : Nat) (hi : i < values.length) (hj : j < values.length) :
    (VarManager.adds ⟨name, [], 0⟩ values).1[i]? = (VarManager.adds ⟨name, [], 0⟩ values).1[j]? ↔ values[i] = values[j] := by
  obtain ⟨ds, h1, h2, h3, -⟩ := C51_variables name values
  rw [h3]
  simp only [List.getElem?_map, List.getElem?_eq_getElem hi, List.getElem?_eq_getElem hj, Option.map_some, Option.some.injEq,
    List.cons.injEq, true_and]
  constructor
  · intro h
    have := pad3_inj (List.append_cancel_left h)
    have mi : values[i] ∈ ds := (h2 _).mpr (List.getElem_mem hi)
    have mj : values[j] ∈ ds := (h2 _).mpr (List.getElem_mem hj)
    have e1 := List.getElem_idxOf (List.idxOf_lt_length_of_mem mi)
    have e2 := List.getElem_idxOf (List.idxOf_lt_length_of_mem mj)
    rw [← e1, ← e2]
    simp only [this]
  · intro h; rw [h]

/-- **C51.** Additions never change a variable: what a prefix of the additions returned is what the
whole sequence returned for them. -/
theorem C51_stable (m : VarManager) (vs ws : List Str) :
    (m.adds (vs ++ ws)).1.take vs.length = (m.adds vs).1 := by
  induction vs generalizing m with
  | nil => rfl
  | cons v vs ih => simp only [List.cons_append, VarManager.adds, List.length_cons, List.take_succ_cons, ih]

/-- A run with a value added twice. -/
theorem C51_example :
    (VarManager.adds ⟨S "C", [], 0⟩ [S "a", S "b", S "a"]).1 = [S "$C000", S "$C001", S "$C000"] ∧
    (VarManager.adds ⟨S "C", [], 0⟩ [S "a", S "b", S "a"]).2.lines = [S "set -l C000 a", S "set -l C001 b"] := by
  decide +kernel

end CC
