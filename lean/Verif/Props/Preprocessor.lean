import Verif.Model.Preprocessor
/-!
# C36: the preprocessor keeps exactly the active lines
-/

namespace CC

/-! ## Specification -/

/-- The line consists of blanks followed by `kw` (and anything after it). -/
def LineStarts (kw : Str) (line : Str) : Prop :=
  ∃ blanks rest, line = blanks ++ kw ++ rest ∧ ∀ c ∈ blanks, pyIsSpace c = true

/-- The line is `#ifdef NAME`: `NAME` is the first word after the word that begins with `#ifdef`. -/
def IsIfdef (name line : Str) : Prop :=
  ∃ blanks word gap after, line = blanks ++ S "#ifdef" ++ word ++ gap ++ name ++ after ∧
    (∀ c ∈ blanks, pyIsSpace c = true) ∧ (∀ c ∈ word, pyIsSpace c = false) ∧
    gap ≠ [] ∧ (∀ c ∈ gap, pyIsSpace c = true) ∧
    name ≠ [] ∧ (∀ c ∈ name, pyIsSpace c = false) ∧ (∀ c, after.head? = some c → pyIsSpace c = true)

/-- The line is not a directive. -/
def IsText (line : Str) : Prop :=
  ¬ LineStarts (S "#ifdef") line ∧ ¬ LineStarts (S "#else") line ∧ ¬ LineStarts (S "#endif") line

/-- `Reads D none active lines out`: `lines` is a well-nested text, and `out` are the lines kept
from it if the surroundings are active (`active`). `Reads D (some cur) active lines out`: `lines`
is the inside of an `#ifdef … #endif` block, made of well-nested texts separated by `#else`; the
first is selected iff `cur`, and every `#else` flips the selection. -/
inductive Reads (D : List Str) : Option Bool → Bool → List Str → List Str → Prop
  | nil (a) : Reads D none a [] []
  | text {a line rest out} : IsText line → Reads D none a rest out →
      Reads D none a (line :: rest) ((if a then [line] else []) ++ out)
  | block {a ifdef name body endif rest o1 o2} : IsIfdef name ifdef →
      Reads D (some (decide (name ∈ D))) a body o1 → LineStarts (S "#endif") endif →
      Reads D none a rest o2 → Reads D none a (ifdef :: body ++ endif :: rest) (o1 ++ o2)
  | last {a cur body out} : Reads D none (a && cur) body out → Reads D (some cur) a body out
  | els {a cur b1 els b2 o1 o2} : Reads D none (a && cur) b1 o1 → LineStarts (S "#else") els →
      Reads D (some (!cur)) a b2 o2 → Reads D (some cur) a (b1 ++ els :: b2) (o1 ++ o2)

/-! ## Lines -/

theorem lstrip_append (p s : Str) (hp : ∀ c ∈ p, pyIsSpace c = true) : lstrip (p ++ s) = lstrip s := by
  induction p with
  | nil => rfl
  | cons c cs ih =>
    simp only [List.cons_append, lstrip, hp c (by simp), if_true]
    exact ih (fun d hd => hp d (by simp [hd]))

theorem lstrip_spec (s : Str) : ∃ p, s = p ++ lstrip s ∧ (∀ c ∈ p, pyIsSpace c = true) ∧
    ∀ c, (lstrip s).head? = some c → pyIsSpace c = false := by
  induction s with
  | nil => exact ⟨[], rfl, by simp, by simp [lstrip]⟩
  | cons x xs ih =>
    simp only [lstrip]
    split
    · rename_i h
      obtain ⟨p, hp, hs, hh⟩ := ih
      refine ⟨x :: p, by simp [← hp], ?_, hh⟩
      intro c hc; simp at hc; rcases hc with rfl | hc; exact h; exact hs c hc
    · rename_i h
      exact ⟨[], rfl, by simp, by simpa using h⟩

theorem startsWith_iff (s p : Str) : startsWith s p = true ↔ ∃ r, s = p ++ r := by
  induction p generalizing s with
  | nil => cases s <;> simp [startsWith]
  | cons c cs ih =>
    cases s with
    | nil => simp [startsWith]
    | cons x xs =>
      simp only [startsWith, Bool.and_eq_true, beq_iff_eq, ih, List.cons_append, List.cons.injEq,
        exists_and_left]

/-- For a keyword beginning with a non-blank. -/
theorem lineStarts_iff (k : Char) (kw line : Str) (hk : pyIsSpace k = false) :
    startsWith (lstrip line) (k :: kw) = true ↔ LineStarts (k :: kw) line := by
  rw [startsWith_iff]
  constructor
  · rintro ⟨r, hr⟩
    obtain ⟨p, hp, hs, _⟩ := lstrip_spec line
    exact ⟨p, r, by rw [List.append_assoc, ← hr]; exact hp, hs⟩
  · rintro ⟨b, r, rfl, hb⟩
    refine ⟨r, ?_⟩
    rw [List.append_assoc, lstrip_append _ _ hb]
    simp [lstrip, hk]

theorem takeWord_spec (s : Str) : s = (takeWord s).1 ++ (takeWord s).2 ∧
    (∀ c ∈ (takeWord s).1, pyIsSpace c = false) ∧
    ∀ c, (takeWord s).2.head? = some c → pyIsSpace c = true := by
  induction s with
  | nil => simp [takeWord]
  | cons x xs ih =>
    simp only [takeWord]
    split
    · rename_i h; simp [h]
    · rename_i h
      refine ⟨by simp [← ih.1], ?_, ih.2.2⟩
      intro c hc; simp at hc
      rcases hc with rfl | hc
      · simpa using h
      · exact ih.2.1 c hc

theorem takeWord_append (w s : Str) (hw : ∀ c ∈ w, pyIsSpace c = false)
    (hs : ∀ c, s.head? = some c → pyIsSpace c = true) : takeWord (w ++ s) = (w, s) := by
  induction w with
  | nil =>
    cases s with
    | nil => rfl
    | cons c cs => simp [takeWord, hs c rfl]
  | cons c cs ih =>
    simp only [List.cons_append, takeWord, hw c (by simp), Bool.false_eq_true, if_false,
      ih (fun d hd => hw d (by simp [hd]))]

theorem ifdef_nospace : ∀ c ∈ S "#ifdef", pyIsSpace c = false := by decide

/-- The code's reading of an `#ifdef` line. -/
theorem ifdef_iff (name line : Str) :
    (startsWith (lstrip line) (S "#ifdef") = true ∧ secondWord (lstrip line) = some name) ↔
      IsIfdef name line := by
  constructor
  · rintro ⟨h1, h2⟩
    rw [startsWith_iff] at h1
    obtain ⟨r, hr⟩ := h1
    obtain ⟨p, hp, hs, _⟩ := lstrip_spec line
    rw [hr] at h2
    obtain ⟨t1, t2, t3⟩ := takeWord_spec r
    have ht : takeWord (S "#ifdef" ++ r) = (S "#ifdef" ++ (takeWord r).1, (takeWord r).2) := by
      conv => lhs; rw [t1, ← List.append_assoc]
      apply takeWord_append
      · intro c hc
        rw [List.mem_append] at hc
        rcases hc with hc | hc
        · exact ifdef_nospace c hc
        · exact t2 c hc
      · exact t3
    rw [secondWord, ht] at h2
    simp only at h2
    obtain ⟨g, hg1, hg2, hg3⟩ := lstrip_spec (takeWord r).2
    obtain ⟨u1, u2, u3⟩ := takeWord_spec (lstrip (takeWord r).2)
    split at h2
    · cases h2
    · rename_i w hne
      simp at h2
      rw [h2] at u1 u2 hne
      refine ⟨p, (takeWord r).1, g, (takeWord (lstrip (takeWord r).2)).2, ?_, hs, t2, ?_, hg2, ?_, u2, u3⟩
      · conv => lhs; rw [hp, hr, t1, hg1, u1]
        simp
      · rintro rfl
        simp only [List.nil_append] at hg1
        cases hx : name with
        | nil => exact hne hx
        | cons c cs =>
          have : (takeWord r).2.head? = some c := by rw [hg1, u1, hx]; rfl
          have h1 := t3 c this
          have h2 := u2 c (by rw [hx]; simp)
          rw [h1] at h2; cases h2
      · rintro rfl; exact hne rfl
  · rintro ⟨b, w, g, a, rfl, hb, hw, hgne, hg, hnne, hn, ha⟩
    have hl : lstrip (b ++ S "#ifdef" ++ w ++ g ++ name ++ a) = (S "#ifdef" ++ w) ++ (g ++ (name ++ a)) := by
      simp only [List.append_assoc]
      rw [lstrip_append _ _ hb]
      rfl
    rw [hl]
    refine ⟨?_, ?_⟩
    · rw [startsWith_iff]; exact ⟨w ++ (g ++ (name ++ a)), by simp⟩
    · rw [secondWord, takeWord_append]
      · simp only
        rw [lstrip_append _ _ hg]
        cases name with
        | nil => exact absurd rfl hnne
        | cons c cs =>
          have e : lstrip (c :: cs ++ a) = c :: cs ++ a := by simp [lstrip, hn c (by simp)]
          rw [e, takeWord_append _ _ hn ha]
      · intro c hc
        rw [List.mem_append] at hc
        rcases hc with hc | hc
        · exact ifdef_nospace c hc
        · exact hw c hc
      · intro c hc
        cases g with
        | nil => exact absurd rfl hgne
        | cons d ds => simp at hc; subst hc; exact hg d (by simp)

theorem starts_ifdef (line : Str) : startsWith (lstrip line) (S "#ifdef") = true ↔
    LineStarts (S "#ifdef") line := lineStarts_iff '#' _ line (by decide)
theorem starts_else (line : Str) : startsWith (lstrip line) (S "#else") = true ↔
    LineStarts (S "#else") line := lineStarts_iff '#' _ line (by decide)
theorem starts_endif (line : Str) : startsWith (lstrip line) (S "#endif") = true ↔
    LineStarts (S "#endif") line := lineStarts_iff '#' _ line (by decide)

theorem else_not_ifdef (line : Str) (h : startsWith (lstrip line) (S "#else") = true) :
    startsWith (lstrip line) (S "#ifdef") = false := by
  rw [startsWith_iff] at h
  obtain ⟨r, hr⟩ := h
  rw [hr]; simp [S, startsWith]
theorem endif_not_else (line : Str) (h : startsWith (lstrip line) (S "#endif") = true) :
    startsWith (lstrip line) (S "#ifdef") = false ∧ startsWith (lstrip line) (S "#else") = false := by
  rw [startsWith_iff] at h
  obtain ⟨r, hr⟩ := h
  rw [hr]; simp [S, startsWith]

/-! ## One step of the loop -/

theorem go_text (D : List Str) (st : List Bool) (line : Str) (rest : List Str) (h : IsText line) :
    preprocessGo D st (line :: rest) =
      (preprocessGo D st rest).map (fun out => (if st.all id then [line] else []) ++ out) := by
  obtain ⟨h1, h2, h3⟩ := h
  rw [← starts_ifdef] at h1
  rw [← starts_else] at h2
  rw [← starts_endif] at h3
  rw [preprocessGo.eq_def]
  simp only [h1, h2, h3, Bool.false_eq_true, if_false]
  have : (st.isEmpty || st.all id) = st.all id := by cases st <;> simp
  congr 1
  funext out
  rw [this]
  by_cases hh : st.all id = true
  · rw [if_pos hh, if_pos hh]; rfl
  · rw [if_neg hh, if_neg hh]; rfl

theorem go_ifdef (D : List Str) (st : List Bool) (name line : Str) (rest : List Str)
    (h : IsIfdef name line) :
    preprocessGo D st (line :: rest) = preprocessGo D (decide (name ∈ D) :: st) rest := by
  rw [← ifdef_iff] at h
  rw [preprocessGo.eq_def]
  simp only [h.1, if_true, h.2]
  congr 2
  rw [Bool.eq_iff_iff]; simp

theorem go_else (D : List Str) (b : Bool) (st : List Bool) (line : Str) (rest : List Str)
    (h : LineStarts (S "#else") line) :
    preprocessGo D (b :: st) (line :: rest) = preprocessGo D ((!b) :: st) rest := by
  rw [← starts_else] at h
  rw [preprocessGo.eq_def]
  simp only [h, else_not_ifdef line h, if_true, Bool.false_eq_true, if_false]

theorem go_endif (D : List Str) (b : Bool) (st : List Bool) (line : Str) (rest : List Str)
    (h : LineStarts (S "#endif") line) :
    preprocessGo D (b :: st) (line :: rest) = preprocessGo D st rest := by
  rw [← starts_endif] at h
  obtain ⟨h1, h2⟩ := endif_not_else line h
  rw [preprocessGo.eq_def]
  simp only [h, h1, h2, if_true, Bool.false_eq_true, if_false]

/-! ## Reading implies running -/

theorem map_map_ok {α : Type} (x : Except Err α) (f g : α → α) :
    (x.map f).map g = x.map (fun a => g (f a)) := by cases x <;> rfl

theorem reads_run {D : List Str} {k : Option Bool} {a : Bool} {lines out : List Str}
    (h : Reads D k a lines out) : ∀ (st : List Bool), st.all id = a →
    (k = none → ∀ rest, preprocessGo D st (lines ++ rest) =
      (preprocessGo D st rest).map (fun o => out ++ o)) ∧
    (∀ cur, k = some cur → ∃ cur', ∀ rest, preprocessGo D (cur :: st) (lines ++ rest) =
      (preprocessGo D (cur' :: st) rest).map (fun o => out ++ o)) := by
  have idmap : ∀ (x : Except Err (List Str)), x.map (fun o => [] ++ o) = x := by
    intro x; cases x <;> simp [Except.map]
  induction h with
  | nil a => intro st _; exact ⟨fun _ rest => by rw [idmap]; rfl, by simp⟩
  | text ht hr ih =>
    intro st hst
    refine ⟨fun _ rest => ?_, by simp⟩
    rw [List.cons_append, go_text D st _ _ ht, (ih st hst).1 rfl rest, map_map_ok, hst]
    simp
  | block hi hb he hr ih1 ih2 =>
    intro st hst
    refine ⟨fun _ rest => ?_, by simp⟩
    obtain ⟨c, hc⟩ := (ih1 st hst).2 _ rfl
    rw [List.append_assoc, List.cons_append, go_ifdef D st _ _ _ hi, List.cons_append,
      hc, go_endif D c st _ _ he, (ih2 st hst).1 rfl rest, map_map_ok]
    simp
  | last hb ih =>
    rename_i a0 cur0 body0 out0
    intro st hst
    refine ⟨by simp, ?_⟩
    intro cur hcur
    cases hcur
    exact ⟨cur0, fun rest => (ih (cur0 :: st) (by simp [hst, Bool.and_comm])).1 rfl rest⟩
  | els h1 he h2 ih1 ih2 =>
    rename_i a0 cur0 b1 e b2 o1 o2
    intro st hst
    refine ⟨by simp, ?_⟩
    intro cur hcur
    cases hcur
    obtain ⟨c, hc⟩ := (ih2 st hst).2 _ rfl
    refine ⟨c, fun rest => ?_⟩
    rw [List.append_assoc, (ih1 (cur0 :: st) (by simp [hst, Bool.and_comm])).1 rfl, List.cons_append,
      go_else D cur0 st _ _ he, hc, map_map_ok]
    simp

/-! ## Running implies reading -/

/-- The rest of a text inside the open blocks `st`. -/
def Rest (D : List Str) : List Bool → List Str → List Str → Prop
  | [], lines, out => Reads D none true lines out
  | c :: st, lines, out => ∃ body endif rest o1 o2, lines = body ++ endif :: rest ∧
      out = o1 ++ o2 ∧ Reads D (some c) (st.all id) body o1 ∧ LineStarts (S "#endif") endif ∧
      Rest D st rest o2

theorem reads_text_some {D : List Str} {c a : Bool} {line : Str} {body out : List Str}
    (ht : IsText line) (h : Reads D (some c) a body out) :
    Reads D (some c) a (line :: body) ((if a && c then [line] else []) ++ out) := by
  cases h with
  | last h => exact .last (.text ht h)
  | els h1 he h2 =>
    rw [← List.append_assoc, ← List.cons_append]
    exact .els (.text ht h1) he h2

theorem reads_block_some {D : List Str} {c a : Bool} {ifdef name endif : Str} {b body o1 out : List Str}
    (hi : IsIfdef name ifdef) (hb : Reads D (some (decide (name ∈ D))) (a && c) b o1)
    (he : LineStarts (S "#endif") endif) (h : Reads D (some c) a body out) :
    Reads D (some c) a (ifdef :: b ++ endif :: body) (o1 ++ out) := by
  cases h with
  | last h => exact .last (.block hi hb he h)
  | els h1 he' h2 =>
    have := Reads.els (.block hi hb he h1) he' h2
    simpa using this

theorem run_reads (D : List Str) (lines : List Str) : ∀ (st : List Bool) (out : List Str),
    preprocessGo D st lines = .ok out → Rest D st lines out := by
  induction lines with
  | nil =>
    intro st out h
    rw [preprocessGo.eq_def] at h
    cases st with
    | nil => simp at h; subst h; exact .nil true
    | cons b st => simp at h
  | cons line rest ih =>
    intro st out h
    by_cases h1 : startsWith (lstrip line) (S "#ifdef") = true
    · cases h2 : secondWord (lstrip line) with
      | none =>
        rw [preprocessGo.eq_def] at h
        simp only [h1, h2, if_true] at h
        cases h
      | some name =>
        have hi : IsIfdef name line := (ifdef_iff name line).1 ⟨h1, h2⟩
        rw [go_ifdef D st name line rest hi] at h
        obtain ⟨b, e, r, o1, o2, rfl, rfl, hb, he, hr⟩ := ih _ _ h
        cases st with
        | nil => exact Reads.block hi hb he hr
        | cons c st =>
          obtain ⟨b', e', r', o1', o2', rfl, rfl, hb', he', hr'⟩ := hr
          have hb2 : Reads D (some (decide (name ∈ D))) (st.all id && c) b o1 := by
            have : (c :: st).all id = (st.all id && c) := by simp [Bool.and_comm]
            rw [← this]; exact hb
          exact ⟨line :: b ++ e :: b', e', r', o1 ++ o1', o2', by simp, by simp,
            reads_block_some hi hb2 he hb', he', hr'⟩
    · by_cases h2 : startsWith (lstrip line) (S "#else") = true
      · cases st with
        | nil =>
          rw [preprocessGo.eq_def] at h
          simp only [h1, h2, if_true, if_false] at h
          cases h
        | cons c st =>
          rw [go_else D c st line rest ((starts_else line).1 h2)] at h
          obtain ⟨b, e, r, o1, o2, rfl, rfl, hb, he, hr⟩ := ih _ _ h
          exact ⟨line :: b, e, r, o1, o2, by simp, rfl,
            Reads.els (b1 := []) (o1 := []) (.nil _) ((starts_else line).1 h2) hb, he, hr⟩
      · by_cases h3 : startsWith (lstrip line) (S "#endif") = true
        · cases st with
          | nil =>
            rw [preprocessGo.eq_def] at h
            simp only [h1, h2, h3, if_true, if_false] at h
            cases h
          | cons c st =>
            rw [go_endif D c st line rest ((starts_endif line).1 h3)] at h
            exact ⟨[], line, rest, [], out, rfl, rfl, .last (.nil _), (starts_endif line).1 h3, ih _ _ h⟩
        · have ht : IsText line :=
            ⟨by rwa [← starts_ifdef], by rwa [← starts_else], by rwa [← starts_endif]⟩
          rw [go_text D st line rest ht] at h
          cases hg : preprocessGo D st rest with
          | error e => rw [hg] at h; cases h
          | ok o =>
            rw [hg] at h
            simp only [Except.map, Except.ok.injEq] at h
            subst h
            have hr := ih _ _ hg
            cases st with
            | nil => exact Reads.text (a := true) ht hr
            | cons c st =>
              obtain ⟨b, e, r, o1, o2, rfl, rfl, hb, he, hr⟩ := hr
              refine ⟨line :: b, e, r, _, o2, by simp, ?_, reads_text_some ht hb, he, hr⟩
              have : (c :: st).all id = (st.all id && c) := by simp [Bool.and_comm]
              rw [this]; simp

/-! ## The property -/

/-- **C36**: the preprocessor succeeds exactly on well-nested texts, and its output is exactly the
kept lines, unchanged and in order. -/
theorem C36_preprocess (s : Str) (D : List Str) (out : Str) :
    preprocess s D = .ok out ↔
      ∃ lines, Reads D none true (splitLines s) lines ∧ out = lines.flatten := by
  have key : ∀ ls o, preprocessGo D [] ls = .ok o ↔ Reads D none true ls o := by
    intro ls o
    constructor
    · exact run_reads D ls [] o
    · intro h
      have := (reads_run h [] rfl).1 rfl []
      simp only [List.append_nil] at this
      rw [this]
      simp [preprocessGo, Except.map]
  unfold preprocess
  constructor
  · intro h
    cases hg : preprocessGo D [] (splitLines s) with
    | error e => rw [hg] at h; cases h
    | ok o =>
      rw [hg] at h
      simp only [Except.map, Except.ok.injEq] at h
      exact ⟨o, (key _ _).1 hg, h.symm⟩
  · rintro ⟨ls, hr, rfl⟩
    rw [(key _ _).2 hr]; rfl

/-- Lines are the text cut after line breaks: nothing is lost. -/
theorem splitLines_flatten (s : Str) : (splitLines s).flatten = s := by
  have hc : ∀ c ls, (consLine c ls).flatten = c :: ls.flatten := by
    intro c ls; cases ls <;> simp [consLine]
  have key : ∀ n (s : Str), s.length ≤ n → (splitLines s).flatten = s := by
    intro n
    induction n with
    | zero => intro s h; cases s <;> simp_all [splitLines]
    | succ n ih =>
      intro s h
      match s with
      | [] => rfl
      | [c] => rfl
      | c :: d :: r =>
        simp only [List.length_cons] at h
        simp only [splitLines]
        split
        · simp [ih r (by omega)]
        · split
          · rw [List.flatten_cons, ih (d :: r) (by simp; omega)]; rfl
          · rw [hc, ih (d :: r) (by simp; omega)]
  exact key _ s (Nat.le_refl _)

/-- The kept lines are among the non-directive lines, in the same order. -/
theorem reads_sublist {D : List Str} {k : Option Bool} {a : Bool} {ls out : List Str}
    (h : Reads D k a ls out) : out.Sublist ls ∧ ∀ l ∈ out, IsText l := by
  induction h with
  | nil => simp
  | text ht _ ih =>
    rename_i a _ _ _ _
    cases a
    · exact ⟨(List.nil_append _).symm ▸ ih.1.cons _, by simpa using ih.2⟩
    · refine ⟨by simpa using ih.1, ?_⟩
      intro l hl; simp at hl
      rcases hl with rfl | hl
      · exact ht
      · exact ih.2 l hl
  | block _ _ _ _ ih1 ih2 =>
    refine ⟨?_, ?_⟩
    · rw [List.cons_append]
      exact (List.Sublist.append ih1.1 (ih2.1.cons _)).cons _
    · intro l hl; rw [List.mem_append] at hl
      rcases hl with hl | hl
      · exact ih1.2 l hl
      · exact ih2.2 l hl
  | last _ ih => exact ih
  | els _ _ _ ih1 ih2 =>
    refine ⟨List.Sublist.append ih1.1 (ih2.1.cons _), ?_⟩
    intro l hl; rw [List.mem_append] at hl
    rcases hl with hl | hl
    · exact ih1.2 l hl
    · exact ih2.2 l hl

/-- **C36**: a text without directives comes out unchanged, whatever is defined. -/
theorem C36_no_directives (s : Str) (D : List Str) (h : ∀ l ∈ splitLines s, IsText l) :
    preprocess s D = .ok s := by
  rw [C36_preprocess]
  refine ⟨splitLines s, ?_, (splitLines_flatten s).symm⟩
  generalize splitLines s = ls at h
  induction ls with
  | nil => exact .nil _
  | cons l ls ih => exact Reads.text (a := true) (h l (by simp)) (ih (fun x hx => h x (by simp [hx])))

/-- **C36**: nothing but lines of the input, in order and never a directive, is output; so
preprocessing the output again (with any names) would not see a directive. -/
theorem C36_output_lines (s : Str) (D : List Str) (out : Str) (h : preprocess s D = .ok out) :
    ∃ lines : List Str, lines.Sublist (splitLines s) ∧ (∀ l ∈ lines, IsText l) ∧ out = lines.flatten := by
  obtain ⟨ls, hr, rfl⟩ := (C36_preprocess s D out).1 h
  exact ⟨ls, (reads_sublist hr).1, (reads_sublist hr).2, rfl⟩

/-- **C36**: an IndexError is raised only if some `#ifdef` has no name. -/
theorem C36_crash (s : Str) (D : List Str) (h : preprocess s D = .error .crash) :
    ∃ l ∈ splitLines s, LineStarts (S "#ifdef") l ∧ ∀ name, ¬ IsIfdef name l := by
  have key : ∀ (ls : List Str) (st : List Bool), preprocessGo D st ls = .error .crash →
      ∃ l ∈ ls, LineStarts (S "#ifdef") l ∧ ∀ name, ¬ IsIfdef name l := by
    intro ls
    induction ls with
    | nil => intro st h; rw [preprocessGo.eq_def] at h; cases st <;> simp at h
    | cons line rest ih =>
      intro st h
      have lift : (∃ l ∈ rest, LineStarts (S "#ifdef") l ∧ ∀ name, ¬ IsIfdef name l) →
          ∃ l ∈ line :: rest, LineStarts (S "#ifdef") l ∧ ∀ name, ¬ IsIfdef name l := by
        rintro ⟨l, hl, h⟩; exact ⟨l, by simp [hl], h⟩
      rw [preprocessGo.eq_def] at h
      simp only at h
      split at h
      · rename_i h1
        split at h
        · rename_i h2
          refine ⟨line, by simp, (starts_ifdef line).1 h1, ?_⟩
          intro name hn
          rw [← ifdef_iff, h2] at hn
          cases hn.2
        · exact lift (ih _ h)
      · split at h
        · split at h
          · cases h
          · exact lift (ih _ h)
        · split at h
          · split at h
            · cases h
            · exact lift (ih _ h)
          · cases hg : preprocessGo D st rest with
            | error e => rw [hg] at h; simp [Except.map] at h; subst h; exact lift (ih _ hg)
            | ok o => rw [hg] at h; cases h
  unfold preprocess at h
  cases hg : preprocessGo D [] (splitLines s) with
  | error e => rw [hg] at h; simp [Except.map] at h; subst h; exact key _ _ hg
  | ok o => rw [hg] at h; cases h

/-- A concrete text with nested blocks. -/
example : preprocess (S "a\n#ifdef X\nb\n  #ifdef Y\nc\n  #else\nd\n  #endif\n#else\ne\n#endif\nf") [S "X"] =
    .ok (S "a\nb\nd\nf") := rfl

example : preprocess (S "#ifdef X\na") [] = .error .syntaxError := rfl
example : preprocess (S "#ifdef\n") [] = .error .crash := rfl

end CC
