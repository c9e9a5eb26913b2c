import Verif.Model.ZshStyles
import Verif.Spec.ZshStyles
import Verif.Lemmas.Walk
import Verif.Lemmas.ZshWrapper
import Verif.Props.StrUtils
import Verif.Lemmas.BashWrapping
/-!
# Reading the `zstyle` commands of a script
-/

namespace ZshStyles

open CC

theorem read_sq (p : Str) (h : '\'' ∉ p) : ∀ (acc r : Str), Posix.read .sq acc (p ++ '\'' :: r) = Posix.read .word (acc ++ p) r := by
  induction p with
  | nil => intro acc r; rw [List.nil_append, List.append_nil, Posix.read, if_pos rfl]
  | cons c p ih =>
    intro acc r
    simp only [List.mem_cons, not_or] at h
    rw [List.cons_append, Posix.read, if_neg (fun e => h.1 e.symm), ih h.2, List.append_assoc]
    rfl

theorem words_zstyle (p : Str) (h : '\'' ∉ p) :
    Posix.words (S "zstyle '" ++ p ++ S "' sort false") = some [S "zstyle", p, S "sort", S "false"] := by
  rw [List.append_assoc]
  show (Posix.read .sq [] (p ++ '\'' :: S " sort false")).map (S "zstyle" :: ·) = _
  rw [read_sq p h]
  show some _ = _
  rfl

theorem setting_zstyle (p : Str) (h : '\'' ∉ p) : settingOf (S "zstyle '" ++ p ++ S "' sort false") = some ⟨p, S "sort", [S "false"]⟩ := by
  unfold settingOf
  rw [words_zstyle p h]
  rfl

/-- The pattern for an option string. -/
def optionPattern (prog s : Str) : Str := S ":completion:*:*:" ++ prog ++ S ":option" ++ s ++ S "-*"

/-- The pattern for a positional. -/
def positionalPattern (prog : Str) (n : Nat) : Str := S ":completion:*:*:" ++ prog ++ S ":argument-" ++ natStr n ++ S ":*"

theorem option_line (prog s : Str) : zstyleOption prog s = S "zstyle '" ++ optionPattern prog s ++ S "' sort false" := by
  unfold zstyleOption optionPattern
  have e1 : S "zstyle ':completion:*:*:" = S "zstyle '" ++ S ":completion:*:*:" := by decide +kernel
  have e2 : S "-*' sort false" = S "-*" ++ S "' sort false" := by decide +kernel
  rw [e1, e2]
  simp only [List.append_assoc]

theorem positional_line (prog : Str) (n : Nat) : zstylePositional prog n = S "zstyle '" ++ positionalPattern prog n ++ S "' sort false" := by
  unfold zstylePositional positionalPattern
  have e1 : S "zstyle ':completion:*:*:" = S "zstyle '" ++ S ":completion:*:*:" := by decide +kernel
  have e2 : S ":*' sort false" = S ":*" ++ S "' sort false" := by decide +kernel
  rw [e1, e2]
  simp only [List.append_assoc]

/-! ## Patterns -/

theorem subset_of {a b : Str} (h : a.all (b.contains ·) = true) {c : Char} (hc : c ∈ a) : c ∈ b := by
  have := List.all_eq_true.mp h c hc
  simpa using this

theorem lit_plain {c : Char} (h : c ∉ special) : LitChar zshGlob c := by
  refine ⟨fun hm => h (subset_of (b := special) (by decide +kernel) hm), ?_⟩
  cases hs : zshGlob.special c with
  | false => rfl
  | true =>
    have hs : c ∈ S "#^~<>$`&; \t\n" := List.contains_iff_mem.mp hs
    exact absurd (subset_of (b := special) (by decide +kernel) hs) h

theorem lits_of {t : Str} (h : t.all (fun c => !(S "\\'\"[()|?*").contains c && !zshGlob.special c) = true) : ∀ x ∈ t, LitChar zshGlob x := by
  intro x hx
  have := List.all_eq_true.mp h x hx
  simp only [Bool.and_eq_true, Bool.not_eq_true', List.contains_eq_mem, decide_eq_false_iff_not] at this
  exact this

theorem digit_plain {c : Char} (h : c.isDigit = true) : c ∉ special := by
  intro hm
  have := List.all_eq_true.mp (show special.all (fun c => !c.isDigit) = true by decide +kernel) c hm
  simp [h] at this

theorem colon_lit : LitChar zshGlob ':' := ⟨by decide, by decide⟩

theorem star_readable : Readable zshGlob ['*'] := ⟨_, reads_wild '*' (Or.inl rfl)⟩

theorem star_any (w : Str) : Matches zshGlob ['*'] w := (matches_of_reads (reads_wild '*' (Or.inl rfl)) w).mpr ⟨w, [], by simp, trivial, rfl⟩

/-- Reading a pattern of plain texts with stars between them. -/
theorem pattern_means {a b c : Str} (ha : ∀ x ∈ a, LitChar zshGlob x) (hb : ∀ x ∈ b, LitChar zshGlob x) (hc : ∀ x ∈ c, LitChar zshGlob x)
    (w : Str) :
    Readable zshGlob (a ++ ('*' :: (b ++ ('*' :: (c ++ ['*']))))) ∧
    (Matches zshGlob (a ++ ('*' :: (b ++ ('*' :: (c ++ ['*']))))) w ↔ ∃ x y z, w = a ++ (x ++ (b ++ (y ++ (c ++ z))))) := by
  have r1 : Readable zshGlob (c ++ ['*']) := readable_append (readable_lits hc) star_readable
  have r2 : Readable zshGlob ('*' :: (c ++ ['*'])) := readable_append (t := ['*']) star_readable r1
  have r3 : Readable zshGlob (b ++ ('*' :: (c ++ ['*']))) := readable_append (readable_lits hb) r2
  have r4 : Readable zshGlob ('*' :: (b ++ ('*' :: (c ++ ['*'])))) := readable_append (t := ['*']) star_readable r3
  refine ⟨readable_append (readable_lits ha) r4, ?_⟩
  rw [matches_append (readable_lits ha) r4]
  constructor
  · rintro ⟨w1, w2, rfl, h1, h2⟩
    rw [matches_lits ha] at h1
    obtain ⟨x, w3, rfl, -, h3⟩ := (matches_append (t := ['*']) star_readable r3 w2).mp h2
    obtain ⟨w4, w5, rfl, h4, h5⟩ := (matches_append (readable_lits hb) r2 w3).mp h3
    rw [matches_lits hb] at h4
    obtain ⟨y, w6, rfl, -, h6⟩ := (matches_append (t := ['*']) star_readable r1 w5).mp h5
    obtain ⟨w7, z, rfl, h7, -⟩ := (matches_append (readable_lits hc) star_readable w6).mp h6
    rw [matches_lits hc] at h7
    exact ⟨x, y, z, by rw [h1, h4, h7]⟩
  · rintro ⟨x, y, z, rfl⟩
    refine ⟨_, _, rfl, (matches_lits ha _).mpr rfl, (matches_append (t := ['*']) star_readable r3 _).mpr ⟨x, _, rfl, star_any x, ?_⟩⟩
    refine (matches_append (readable_lits hb) r2 _).mpr ⟨_, _, rfl, (matches_lits hb _).mpr rfl, ?_⟩
    refine (matches_append (t := ['*']) star_readable r1 _).mpr ⟨y, _, rfl, star_any y, ?_⟩
    exact (matches_append (readable_lits hc) star_readable _).mpr ⟨_, z, rfl, (matches_lits hc _).mpr rfl, star_any z⟩

theorem applies {p : Str} (h : Readable zshGlob p) (hne : p ≠ []) (w : Str) :
    (∃ alts, readGlob zshGlob p = some alts ∧ Glob.AltLang alts w) ↔ Matches zshGlob p w := ZshWrap.holds_glob h hne w

/-! ## Contexts -/

theorem split_colon (x y : Str) : splitOn ':' (x ++ ':' :: y) = splitOn ':' x ++ splitOn ':' y := by
  induction x with
  | nil => simp [splitOn]
  | cons c x ih =>
    by_cases hc : c = ':'
    · subst hc; simp only [List.cons_append, splitOn, if_pos, ih]
    · simp only [List.cons_append, splitOn, if_neg hc]
      rw [ih]
      cases hx : splitOn ':' x with
      | nil => exact absurd hx (splitOn_ne_nil _ _)
      | cons w ws => rfl

theorem context_split {c : Context} (h : c.Proper) :
    splitOn ':' (c.function ++ ':' :: (c.completer ++ ':' :: (c.command ++ ':' :: (c.place.text ++ ':' :: c.tag)))) =
      [c.function, c.completer, c.command, c.place.text, c.tag] := by
  rw [split_colon, split_colon, split_colon, split_colon, splitOn_single _ _ h.function, splitOn_single _ _ h.completer,
    splitOn_single _ _ h.command, splitOn_single _ _ h.place, splitOn_single _ _ h.tag]
  rfl

theorem context_text (c : Context) : c.text = S ":completion:" ++
    (c.function ++ ':' :: (c.completer ++ ':' :: (c.command ++ ':' :: (c.place.text ++ ':' :: c.tag)))) := by
  unfold Context.text S
  simp only [List.append_assoc, List.cons_append]

theorem ne_nil_len {α : Type} {l : List α} (h : l ≠ []) : 0 < l.length := List.length_pos_iff.mpr h

/-- Where the pattern of an option matches. -/
theorem option_match {prog s : Str} (hp : ∀ x ∈ prog, x ∉ special) (hs : ∀ x ∈ s, x ∉ special) {c : Context} (hc : c.Proper)
    (hn : c.place.text ≠ prog) :
    (Setting.mk (optionPattern prog s) (S "sort") [S "false"]).Concerns c ↔
      c.command = prog ∧ (S "option" ++ s ++ ['-']) <+: c.place.text := by
  have hcol : ∀ x : Str, (∀ y ∈ x, y ∉ special) → ':' ∉ x := fun x h hx => h ':' hx (by decide)
  have ha : ∀ x ∈ S ":completion:", LitChar zshGlob x := lits_of (by decide +kernel)
  have hb : ∀ x ∈ [':'], LitChar zshGlob x := by intro x hx; simp at hx; subst hx; exact colon_lit
  have hd : ∀ x ∈ ':' :: (prog ++ (S ":option" ++ (s ++ ['-']))), LitChar zshGlob x := by
    intro x hx
    simp only [List.mem_cons, List.mem_append] at hx
    rcases hx with h | h | h | h | h
    · subst h; exact colon_lit
    · exact lit_plain (hp _ h)
    · exact lits_of (t := S ":option") (by decide +kernel) x h
    · exact lit_plain (hs _ h)
    · simp at h; subst h; exact ⟨by decide, by decide⟩
  have hpat : optionPattern prog s = S ":completion:" ++ ('*' :: ([':'] ++ ('*' :: ((':' :: (prog ++ (S ":option" ++ (s ++ ['-'])))) ++ ['*'])))) := by
    unfold optionPattern
    have e1 : S ":completion:*:*:" = S ":completion:" ++ S "*:*:" := by decide +kernel
    rw [e1]
    simp [S]
  obtain ⟨h1, h2⟩ := pattern_means ha hb hd c.text
  rw [← hpat] at h1 h2
  unfold Setting.Concerns
  simp only [S, true_and]
  rw [applies h1 (by rw [hpat]; simp [S]), h2, context_text]
  constructor
  · rintro ⟨x, y, z, he⟩
    have he := List.append_cancel_left he
    have hsp := context_split hc
    rw [he] at hsp
    have e3 : x ++ ([':'] ++ (y ++ ((':' :: (prog ++ (S ":option" ++ (s ++ ['-'])))) ++ z))) =
        x ++ ':' :: (y ++ ':' :: (prog ++ ':' :: (S "option" ++ s ++ ['-'] ++ z))) := by simp [S]
    rw [e3, split_colon, split_colon, split_colon, splitOn_single _ _ (hcol prog hp)] at hsp
    have hx := ne_nil_len (splitOn_ne_nil ':' x)
    have hy := ne_nil_len (splitOn_ne_nil ':' y)
    have hz := ne_nil_len (splitOn_ne_nil ':' (S "option" ++ s ++ ['-'] ++ z))
    have hj := join_splitOn ':' (S "option" ++ s ++ ['-'] ++ z)
    generalize splitOn ':' x = X at hsp hx
    generalize splitOn ':' y = Y at hsp hy
    generalize splitOn ':' (S "option" ++ s ++ ['-'] ++ z) = Z at hsp hz hj
    have hl := congrArg List.length hsp
    simp at hl
    match X, Y, Z, hx, hy, hz with
    | [a], [b], Z, _, _, _ =>
      simp only [List.cons_append, List.nil_append, List.cons.injEq] at hsp
      obtain ⟨-, -, h5, h6⟩ := hsp
      refine ⟨h5.symm, ?_⟩
      rw [h6] at hj
      have hj : c.place.text ++ ':' :: c.tag = S "option" ++ s ++ ['-'] ++ z := by rw [← hj]; simp [joinWith]
      have hno : ':' ∉ S "option" ++ s ++ ['-'] := by
        simp only [List.mem_append, not_or]
        exact ⟨⟨by decide, hcol s hs⟩, by decide⟩
      rcases List.append_eq_append_iff.mp hj with ⟨u, hu, hv⟩ | ⟨u, hu, hv⟩
      · cases u with
        | nil => exact ⟨[], by rw [List.append_nil] at hu ⊢; exact hu⟩
        | cons d u => simp at hv; exact absurd (by rw [hu, hv.1]; simp) hno
      · exact ⟨u, hu.symm⟩
    | a :: a' :: X, [b], [d], _, _, _ =>
      simp at hl; subst hl
      simp only [List.cons_append, List.nil_append, List.cons.injEq] at hsp
      exact absurd hsp.2.2.2.1.symm hn
    | [a], b :: b' :: Y, [d], _, _, _ =>
      have hl : Y.length = 0 := by simp at hl; omega
      rw [List.length_eq_zero_iff] at hl; subst hl
      simp only [List.cons_append, List.nil_append, List.cons.injEq] at hsp
      exact absurd hsp.2.2.2.1.symm hn
    | a :: a' :: X, b :: b' :: Y, d :: Z, _, _, _ => simp at hl; omega
    | a :: a' :: X, b :: Y, d :: d' :: Z, _, _, _ => simp at hl; omega
    | a :: X, b :: b' :: Y, d :: d' :: Z, _, _, _ => simp at hl; omega
  · rintro ⟨h3, u, hu⟩
    refine ⟨c.function, c.completer, u ++ ':' :: c.tag, ?_⟩
    rw [← h3, ← hu]
    simp [S]

/-- Where the pattern of a positional matches. -/
theorem positional_match {prog : Str} (hp : ∀ x ∈ prog, x ∉ special) (n : Nat) {c : Context} (hc : c.Proper) :
    (Setting.mk (positionalPattern prog n) (S "sort") [S "false"]).Concerns c ↔
      c.command = prog ∧ c.place.text = S "argument-" ++ natStr n := by
  have hcol : ':' ∉ prog := fun h => hp _ h (by decide)
  have hdig : ∀ x ∈ natStr n, x.isDigit = true := fun x hx => Nat.isDigit_of_mem_toDigits (by decide) (by decide) hx
  have hnd : ':' ∉ natStr n := fun h => absurd (hdig _ h) (by decide)
  have ha : ∀ x ∈ S ":completion:", LitChar zshGlob x := lits_of (by decide +kernel)
  have hb : ∀ x ∈ [':'], LitChar zshGlob x := by intro x hx; simp at hx; subst hx; exact colon_lit
  have hd : ∀ x ∈ ':' :: (prog ++ (S ":argument-" ++ (natStr n ++ [':']))), LitChar zshGlob x := by
    intro x hx
    simp only [List.mem_cons, List.mem_append] at hx
    rcases hx with h | h | h | h | h
    · subst h; exact colon_lit
    · exact lit_plain (hp _ h)
    · exact lits_of (t := S ":argument-") (by decide +kernel) x h
    · exact lit_plain (digit_plain (hdig _ h))
    · simp at h; subst h; exact colon_lit
  have hpat : positionalPattern prog n = S ":completion:" ++ ('*' :: ([':'] ++ ('*' :: ((':' :: (prog ++ (S ":argument-" ++ (natStr n ++ [':'])))) ++ ['*'])))) := by
    unfold positionalPattern
    have e1 : S ":completion:*:*:" = S ":completion:" ++ S "*:*:" := by decide +kernel
    rw [e1]
    simp [S]
  obtain ⟨h1, h2⟩ := pattern_means ha hb hd c.text
  rw [← hpat] at h1 h2
  unfold Setting.Concerns
  simp only [S, true_and]
  rw [applies h1 (by rw [hpat]; simp [S]), h2, context_text]
  constructor
  · rintro ⟨x, y, z, he⟩
    have he := List.append_cancel_left he
    have hsp := context_split hc
    rw [he] at hsp
    have e3 : x ++ ([':'] ++ (y ++ ((':' :: (prog ++ (S ":argument-" ++ (natStr n ++ [':'])))) ++ z))) =
        x ++ ':' :: (y ++ ':' :: (prog ++ ':' :: (S "argument-" ++ natStr n ++ ':' :: z))) := by simp [S]
    have hno : ':' ∉ S "argument-" ++ natStr n := by
      simp only [List.mem_append, not_or]
      exact ⟨by decide, hnd⟩
    rw [e3, split_colon, split_colon, split_colon, split_colon, splitOn_single _ _ hcol, splitOn_single _ _ hno] at hsp
    have hx := ne_nil_len (splitOn_ne_nil ':' x)
    have hy := ne_nil_len (splitOn_ne_nil ':' y)
    have hz := ne_nil_len (splitOn_ne_nil ':' z)
    generalize splitOn ':' x = X at hsp hx
    generalize splitOn ':' y = Y at hsp hy
    generalize splitOn ':' z = Z at hsp hz
    have hl := congrArg List.length hsp
    simp at hl
    match X, Y, Z, hx, hy, hz with
    | [a], [b], Z, _, _, _ =>
      simp only [List.cons_append, List.nil_append, List.cons.injEq] at hsp
      exact ⟨hsp.2.2.1.symm, hsp.2.2.2.1.symm⟩
    | a :: a' :: X, b :: Y, d :: Z, _, _, _ => simp at hl; omega
    | a :: X, b :: b' :: Y, d :: Z, _, _, _ => simp at hl; omega
  · rintro ⟨h3, h4⟩
    refine ⟨c.function, c.completer, c.tag, ?_⟩
    rw [← h3, h4]
    simp [S]

/-! ## The settings of a script -/

theorem mapM_all {α β : Type} (f : α → Option β) : ∀ (l : List α), (∀ a ∈ l, ∃ b, f a = some b) →
    ∃ bs, l.mapM f = some bs ∧ ∀ b, b ∈ bs ↔ ∃ a ∈ l, f a = some b
  | [], _ => ⟨[], rfl, by simp⟩
  | a :: l, h => by
    obtain ⟨b, hb⟩ := h a (by simp)
    obtain ⟨bs, h1, h2⟩ := mapM_all f l (fun a ha => h a (by simp [ha]))
    refine ⟨b :: bs, by rw [List.mapM_cons, hb, h1]; rfl, ?_⟩
    intro x
    simp only [List.mem_cons, h2]
    constructor
    · rintro (rfl | ⟨a', ha', he⟩)
      · exact ⟨a, Or.inl rfl, hb⟩
      · exact ⟨a', Or.inr ha', he⟩
    · rintro ⟨a', rfl | ha', he⟩
      · exact Or.inl (by rw [hb] at he; exact (Option.some.inj he).symm)
      · exact Or.inr ⟨a', ha', he⟩

theorem rootProg_walk {root : Cmd} {e : List Cmd × Cmd} (h : e ∈ root.walk []) : rootProg e.1 e.2 = root.data.prog := by
  obtain ⟨rest, hr⟩ := walk_below root [] e h
  unfold rootProg
  rw [hr]
  rfl

/-- The lines of a script. -/
theorem mem_lines (root : Cmd) (l : Str) : l ∈ zstyleLines root ↔
    (∃ o, HasOption root o ∧ o.nosort = true ∧ ∃ s ∈ o.strings, l = zstyleOption root.data.prog s) ∨
    (∃ p, HasPositional root p ∧ p.nosort = true ∧ l = zstylePositional root.data.prog p.number) := by
  unfold zstyleLines getZstyles HasOption HasPositional
  simp only [List.mem_flatMap, List.mem_append, List.mem_map, List.mem_filter]
  constructor
  · rintro ⟨e, he, ⟨o, ⟨ho, hn⟩, s, hs, rfl⟩ | ⟨p, ⟨hp, hn⟩, rfl⟩⟩
    · exact Or.inl ⟨o, ⟨e.1, e.2, (mem_walk_iff root e.1 e.2).mp he, ho⟩, hn, s, hs, by rw [rootProg_walk he]⟩
    · exact Or.inr ⟨p, ⟨e.1, e.2, (mem_walk_iff root e.1 e.2).mp he, hp⟩, hn, by rw [rootProg_walk he]⟩
  · rintro (⟨o, ⟨ps, c, hat, ho⟩, hn, s, hs, rfl⟩ | ⟨p, ⟨ps, c, hat, hp⟩, hn, rfl⟩)
    · exact ⟨(ps, c), (mem_walk_iff root ps c).mpr hat, Or.inl ⟨o, ⟨ho, hn⟩, s, hs, by rw [rootProg_walk ((mem_walk_iff root ps c).mpr hat)]⟩⟩
    · exact ⟨(ps, c), (mem_walk_iff root ps c).mpr hat, Or.inr ⟨p, ⟨hp, hn⟩, by rw [rootProg_walk ((mem_walk_iff root ps c).mpr hat)]⟩⟩

theorem plain_no {t : Str} (h : ∀ c ∈ t, c ∉ special) : '\'' ∉ t ∧ '\n' ∉ t :=
  ⟨fun hm => h _ hm (by decide), fun hm => h _ hm (by decide)⟩

theorem option_chars {prog s : Str} (hp : ∀ c ∈ prog, c ∉ special) (hs : ∀ c ∈ s, c ∉ special) :
    '\'' ∉ optionPattern prog s ∧ '\n' ∉ optionPattern prog s := by
  unfold optionPattern
  have h1 := plain_no hp
  have h2 := plain_no hs
  constructor
  · simp only [List.mem_append, not_or]
    exact ⟨⟨⟨⟨by decide +kernel, h1.1⟩, by decide +kernel⟩, h2.1⟩, by decide +kernel⟩
  · simp only [List.mem_append, not_or]
    exact ⟨⟨⟨⟨by decide +kernel, h1.2⟩, by decide +kernel⟩, h2.2⟩, by decide +kernel⟩

theorem positional_chars {prog : Str} (hp : ∀ c ∈ prog, c ∉ special) (n : Nat) :
    '\'' ∉ positionalPattern prog n ∧ '\n' ∉ positionalPattern prog n := by
  unfold positionalPattern
  have h1 := plain_no hp
  have h2 := plain_no (t := natStr n) (fun c hc => digit_plain (Nat.isDigit_of_mem_toDigits (by decide) (by decide) hc))
  constructor
  · simp only [List.mem_append, not_or]
    exact ⟨⟨⟨⟨by decide +kernel, h1.1⟩, by decide +kernel⟩, h2.1⟩, by decide +kernel⟩
  · simp only [List.mem_append, not_or]
    exact ⟨⟨⟨⟨by decide +kernel, h1.2⟩, by decide +kernel⟩, h2.2⟩, by decide +kernel⟩

theorem line_break {p : Str} (h : '\n' ∉ p) : '\n' ∉ S "zstyle '" ++ p ++ S "' sort false" := by
  simp only [List.mem_append, not_or]
  exact ⟨⟨by decide +kernel, h⟩, by decide +kernel⟩

theorem settings_text {root : Cmd} (hw : Writable root) : ∃ ss, settings (zstyleText root) = some ss ∧ ∀ x, x ∈ ss ↔
    (∃ o, HasOption root o ∧ o.nosort = true ∧ ∃ s ∈ o.strings, x = ⟨optionPattern root.data.prog s, S "sort", [S "false"]⟩) ∨
    (∃ p, HasPositional root p ∧ p.nosort = true ∧ x = ⟨positionalPattern root.data.prog p.number, S "sort", [S "false"]⟩) := by
  have hopt : ∀ o, HasOption root o → o.nosort = true → ∀ s ∈ o.strings, ∀ ch ∈ s, ch ∉ special :=
    fun o ⟨ps, c, hat, ho⟩ hn s hs => hw.options ps c hat o ho hn s hs
  have hset : ∀ l ∈ zstyleLines root, '\n' ∉ l ∧ l ≠ [] ∧ ∃ b, settingOf l = some b := by
    intro l hl
    rcases (mem_lines root l).mp hl with ⟨o, ho, hn, s, hs, rfl⟩ | ⟨p, hp, hn, rfl⟩
    · have hc := option_chars hw.prog (hopt o ho hn s hs)
      rw [option_line]
      exact ⟨line_break hc.2, by simp [S], _, setting_zstyle _ hc.1⟩
    · have hc := positional_chars hw.prog p.number
      rw [positional_line]
      exact ⟨line_break hc.2, by simp [S], _, setting_zstyle _ hc.1⟩
  have hss : ∃ ss, settings (zstyleText root) = some ss ∧ ∀ b, b ∈ ss ↔ ∃ a ∈ zstyleLines root, settingOf a = some b := by
    unfold zstyleText
    generalize zstyleLines root = ls at hset
    cases ls with
    | nil => exact ⟨[], rfl, by simp⟩
    | cons l ls =>
      have hne : joinWith ['\n'] (l :: ls) ≠ [] := by
        have := (hset l (by simp)).2.1
        cases l with
        | nil => exact absurd rfl this
        | cons c l => cases ls <;> simp [joinWith]
      unfold settings
      rw [if_neg hne, BashWrap.split_joined l ls (fun x hx => (hset x hx).1)]
      exact mapM_all _ _ (fun a ha => (hset a ha).2.2)
  obtain ⟨ss, h1, h2⟩ := hss
  refine ⟨ss, h1, fun x => ?_⟩
  rw [h2]
  constructor
  · rintro ⟨l, hl, he⟩
    rcases (mem_lines root l).mp hl with ⟨o, ho, hn, s, hs, rfl⟩ | ⟨p, hp, hn, rfl⟩
    · rw [option_line, setting_zstyle _ (option_chars hw.prog (hopt o ho hn s hs)).1] at he
      exact Or.inl ⟨o, ho, hn, s, hs, (Option.some.inj he).symm⟩
    · rw [positional_line, setting_zstyle _ (positional_chars hw.prog p.number).1] at he
      exact Or.inr ⟨p, hp, hn, (Option.some.inj he).symm⟩
  · rintro (⟨o, ho, hn, s, hs, rfl⟩ | ⟨p, hp, hn, rfl⟩)
    · exact ⟨_, (mem_lines root _).mpr (Or.inl ⟨o, ho, hn, s, hs, rfl⟩), by
        rw [option_line, setting_zstyle _ (option_chars hw.prog (hopt o ho hn s hs)).1]⟩
    · exact ⟨_, (mem_lines root _).mpr (Or.inr ⟨p, hp, hn, rfl⟩), by
        rw [positional_line, setting_zstyle _ (positional_chars hw.prog p.number).1]⟩

theorem place_not_prog {root : Cmd} (hw : Writable root) (q : Place) : q.text ≠ root.data.prog := by
  intro h
  cases q with
  | option name n => exact hw.name.1 ⟨name ++ '-' :: Nat.toDigits 10 n, by rw [← h]; exact (List.append_assoc _ _ _).symm⟩
  | operand n => exact hw.name.2 ⟨Nat.toDigits 10 n, by rw [← h]; rfl⟩
  | rest => exact hw.name.2 ⟨S "rest", by rw [← h]; decide +kernel⟩

/-- What the settings of a script say. -/
theorem unsorted_iff {root : Cmd} (hw : Writable root) {ss : List Setting} (hs : settings (zstyleText root) = some ss) {c : Context}
    (hc : c.Proper) : Unsorted ss c ↔ c.command = root.data.prog ∧
      ((∃ o, HasOption root o ∧ o.nosort = true ∧ ∃ s ∈ o.strings, (S "option" ++ s ++ ['-']) <+: c.place.text) ∨
       (∃ p, HasPositional root p ∧ p.nosort = true ∧ c.place.text = S "argument-" ++ natStr p.number)) := by
  obtain ⟨ss', h1, h2⟩ := settings_text hw
  rw [hs] at h1
  obtain rfl := Option.some.inj h1
  have hv : ∀ x ∈ ss, x.values = [S "false"] := by
    intro x hx
    rcases (h2 x).mp hx with ⟨_, _, _, _, _, rfl⟩ | ⟨_, _, _, rfl⟩ <;> rfl
  unfold Unsorted
  have hopt : ∀ o, HasOption root o → o.nosort = true → ∀ s ∈ o.strings, ∀ ch ∈ s, ch ∉ special :=
    fun o ⟨ps, c, hat, ho⟩ hn s hs => hw.options ps c hat o ho hn s hs
  constructor
  · rintro ⟨⟨x, hx, hcx⟩, -⟩
    rcases (h2 x).mp hx with ⟨o, ho, hn, s, hs', rfl⟩ | ⟨p, hp, hn, rfl⟩
    · obtain ⟨h3, h4⟩ := (option_match hw.prog (hopt o ho hn s hs') hc (place_not_prog hw _)).mp hcx
      exact ⟨h3, Or.inl ⟨o, ho, hn, s, hs', h4⟩⟩
    · obtain ⟨h3, h4⟩ := (positional_match hw.prog p.number hc).mp hcx
      exact ⟨h3, Or.inr ⟨p, hp, hn, h4⟩⟩
  · rintro ⟨h3, ⟨o, ho, hn, s, hs', h4⟩ | ⟨p, hp, hn, h4⟩⟩
    · exact ⟨⟨_, (h2 _).mpr (Or.inl ⟨o, ho, hn, s, hs', rfl⟩),
        (option_match hw.prog (hopt o ho hn s hs') hc (place_not_prog hw _)).mpr ⟨h3, h4⟩⟩, fun x hx _ => hv x hx⟩
    · exact ⟨⟨_, (h2 _).mpr (Or.inr ⟨p, hp, hn, rfl⟩), (positional_match hw.prog p.number hc).mpr ⟨h3, h4⟩⟩, fun x hx _ => hv x hx⟩

/-- A string with a dash at its end, in front of another one with a dash and a number. -/
theorem dash_prefix (s name : Str) (n : Nat) : (s ++ ['-']) <+: (name ++ '-' :: Nat.toDigits 10 n) ↔ s = name ∨ (s ++ ['-']) <+: name := by
  have hd : '-' ∉ Nat.toDigits 10 n := fun h => absurd (Nat.isDigit_of_mem_toDigits (by decide) (by decide) h) (by decide)
  constructor
  · rintro ⟨u, hu⟩
    rcases List.append_eq_append_iff.mp hu with ⟨v, hv, hw⟩ | ⟨v, hv, hw⟩
    · exact Or.inr ⟨v, hv.symm⟩
    · cases v with
      | nil => exact Or.inr ⟨[], by simpa using hv⟩
      | cons d v =>
        simp only [List.cons_append, List.cons.injEq] at hw
        rcases List.eq_nil_or_concat v with rfl | ⟨v', b, rfl⟩
        · obtain ⟨rfl, -⟩ := hw
          exact Or.inl (List.append_inj_left' hv rfl)
        · exfalso
          apply hd
          rw [hw.2]
          have hv2 : s ++ ['-'] = (name ++ d :: v') ++ [b] := by rw [hv]; simp
          have := (List.append_inj' hv2 rfl).2
          simp only [List.cons.injEq, and_true] at this
          rw [← this]
          simp
  · rintro (rfl | h)
    · exact ⟨Nat.toDigits 10 n, by simp⟩
    · exact h.trans ⟨_, rfl⟩

end ZshStyles
