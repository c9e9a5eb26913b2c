import Verif.Spec.ZshWrapperSpec
import Verif.Lemmas.Glob
import Verif.Lemmas.BashFunction
/-!
# Lemmas about the wrapper function of Zsh
-/

namespace CC
namespace ZshWrap

/-! ## Patterns -/

/-- A group in plain parentheses. -/
theorem reads_paren {x : GlobCtx} (hx : x.ext = false) (hp : x.paren = true) (ts : List Str)
    (gss : List (List Glob)) (h : All2 (GReads x) ts gss) (hne : ts ≠ []) :
    GReads x (['('] ++ joinWith ['|'] ts ++ [')']) [.ext '@' gss] := by
  refine ⟨by simp [hx], ?_⟩
  intro st hs
  have h2 : gstep x st '(' =
      some ⟨⟨'@', st.flush.alts, st.flush.cur⟩ :: st.flush.frames, [], [], .plain⟩ := by
    rw [gstep_flush hs (Or.inr hx)]
    simp [gplain, hp]
  obtain ⟨s1, r1, o1, f1, c1⟩ := read_bars ts gss h hne
    ⟨⟨'@', st.flush.alts, st.flush.cur⟩ :: st.flush.frames, [], [], .plain⟩ (Or.inl rfl)
  have h3 : gstep x s1 ')' = some ⟨st.flush.frames, st.flush.alts, st.flush.cur ++ [.ext '@' gss], .plain⟩ := by
    rw [gstep_flush o1 (Or.inl (by decide))]
    have hc : s1.flush.alts ++ [s1.flush.cur] = gss := by
      rw [c1]
      cases h with
      | nil => exact absurd rfl hne
      | cons _ _ => rfl
    have hf : s1.flush.frames = ⟨'@', st.flush.alts, st.flush.cur⟩ :: st.flush.frames := by
      rw [flush_frames, f1]
    simp [gplain, hf, hc]
  refine ⟨⟨st.flush.frames, st.flush.alts, st.flush.cur ++ [.ext '@' gss], .plain⟩, ?_, Or.inl rfl, ?_⟩
  · simp only [List.cons_append, List.nil_append]
    rw [gread_cons, h2, Option.bind_some, gread_append, r1, Option.bind_some, gread_cons, h3]
    rfl
  · rw [flush_of_plain rfl]
    have := flush_open hs
    cases hst : st.flush with
    | mk f a cu m =>
      rw [hst] at this
      simp only at this
      subst this
      rfl

theorem matches_paren {ts : List Str} (hne : ts ≠ []) (h : ∀ t ∈ ts, Readable zshGlob t) :
    Readable zshGlob (['('] ++ joinWith ['|'] ts ++ [')']) ∧
    ∀ w, Matches zshGlob (['('] ++ joinWith ['|'] ts ++ [')']) w ↔ ∃ t ∈ ts, Matches zshGlob t w := by
  obtain ⟨gss, hg⟩ := readable_all h
  have hr := reads_paren (x := zshGlob) rfl rfl ts gss hg hne
  refine ⟨⟨_, hr⟩, ?_⟩
  intro w
  rw [matches_of_reads hr, seqLang_single]
  simp only [Glob.Lang, if_true]
  exact alt_matches hg w

theorem lit_of {c : Char} (h : c ∉ special) : LitChar zshGlob c := by
  simp only [special, S, String.reduceToList, List.mem_cons, List.not_mem_nil, or_false, not_or] at h
  refine ⟨?_, ?_⟩
  · simp [S, h]
  · simp [zshGlob, S, h]

theorem dash_lit : LitChar zshGlob '-' := ⟨by decide, by decide⟩
theorem equals_lit : LitChar zshGlob '=' := ⟨by decide, by decide⟩

theorem joinBar_snoc : ∀ (xs : List Str) (y : Str), xs ≠ [] → joinWith ['|'] (xs ++ [y]) = joinWith ['|'] xs ++ ['|'] ++ y
  | [], _, h => absurd rfl h
  | [x], y, _ => by simp [joinWith]
  | x :: x' :: xs, y, _ => by
    have := joinBar_snoc (x' :: xs) y (by simp)
    simp only [List.cons_append] at this ⊢
    simp only [joinWith, this, List.append_assoc, List.cons_append, List.nil_append]

/-- An old-style or long option string that can be written. -/
def Fine (s : Str) : Prop :=
  (∃ n, s = '-' :: n ∧ 1 < n.length ∧ n.head? ≠ some '-' ∧ ∀ c ∈ n, c ∉ special) ∨
  (∃ n, s = '-' :: '-' :: n ∧ n ≠ [] ∧ n.head? ≠ some '-' ∧ ∀ c ∈ n, c ∉ special)

theorem strip_name {n : Str} (h : n.head? ≠ some '-') : wrapStrip n = n := by
  cases n with
  | nil => rfl
  | cons c r =>
    have : c ≠ '-' := by simpa using h
    simp [wrapStrip, List.dropWhile, this]

theorem fine_old {s : Str} (h : Fine s) (hl : isLongOptionString s = false) :
    s = '-' :: wrapStrip s ∧ ∀ c ∈ wrapStrip s, c ∉ special := by
  rcases h with ⟨n, rfl, -, hn, hc⟩ | ⟨n, rfl, -, -, -⟩
  · have : wrapStrip ('-' :: n) = n := by
      have := strip_name hn
      simpa [wrapStrip, List.dropWhile] using this
    rw [this]; exact ⟨rfl, hc⟩
  · simp [isLongOptionString, startsWith] at hl

theorem fine_long {s : Str} (h : Fine s) (hl : isLongOptionString s = true) :
    s = '-' :: '-' :: wrapStrip s ∧ ∀ c ∈ wrapStrip s, c ∉ special := by
  rcases h with ⟨n, rfl, hlen, hn, -⟩ | ⟨n, rfl, -, hn, hc⟩
  · cases n with
    | nil => simp at hlen
    | cons c r =>
      have : c ≠ '-' := by simpa using hn
      have h2 : '-' ≠ c := fun e => this e.symm
      simp [isLongOptionString, startsWith, this, h2] at hl
  · have : wrapStrip ('-' :: '-' :: n) = n := by
      have := strip_name hn
      simpa [wrapStrip, List.dropWhile] using this
    rw [this]; exact ⟨rfl, hc⟩

/-- The pattern without what stands for the argument. -/
def bare (opts : List Str) : Str := makeLongOptsPattern opts .none

theorem bare_matches {opts : List Str} (hne : opts ≠ []) (h : ∀ s ∈ opts, Fine s) :
    Readable zshGlob (bare opts) ∧ ∀ w, Matches zshGlob (bare opts) w ↔ w ∈ opts := by
  have hold : ∀ t ∈ (opts.filter (fun s => !isLongOptionString s)).map wrapStrip, ∀ c ∈ t, LitChar zshGlob c := by
    intro t ht c hc
    obtain ⟨s, hs, rfl⟩ := List.mem_map.mp ht
    rw [List.mem_filter] at hs
    exact lit_of ((fine_old (h s hs.1) (by simpa using hs.2)).2 c hc)
  have hlong : ∀ t ∈ (opts.filter isLongOptionString).map wrapStrip, ∀ c ∈ t, LitChar zshGlob c := by
    intro t ht c hc
    obtain ⟨s, hs, rfl⟩ := List.mem_map.mp ht
    rw [List.mem_filter] at hs
    exact lit_of ((fine_long (h s hs.1) hs.2).2 c hc)
  have wold : ∀ w, (∃ t ∈ (opts.filter (fun s => !isLongOptionString s)).map wrapStrip, w = '-' :: t) ↔
      w ∈ opts ∧ isLongOptionString w = false := by
    intro w
    constructor
    · rintro ⟨t, ht, rfl⟩
      obtain ⟨s, hs, rfl⟩ := List.mem_map.mp ht
      rw [List.mem_filter] at hs
      rw [← (fine_old (h s hs.1) (by simpa using hs.2)).1]
      exact ⟨hs.1, by simpa using hs.2⟩
    · rintro ⟨hw, hl⟩
      exact ⟨_, List.mem_map.mpr ⟨w, by simp [hw, hl], rfl⟩, (fine_old (h w hw) hl).1⟩
  have wlong : ∀ w, (∃ t ∈ (opts.filter isLongOptionString).map wrapStrip, w = '-' :: '-' :: t) ↔
      w ∈ opts ∧ isLongOptionString w = true := by
    intro w
    constructor
    · rintro ⟨t, ht, rfl⟩
      obtain ⟨s, hs, rfl⟩ := List.mem_map.mp ht
      rw [List.mem_filter] at hs
      rw [← (fine_long (h s hs.1) hs.2).1]
      exact ⟨hs.1, hs.2⟩
    · rintro ⟨hw, hl⟩
      exact ⟨_, List.mem_map.mpr ⟨w, by simp [hw, hl], rfl⟩, (fine_long (h w hw) hl).1⟩
  have hnone : opts.filter isLongOptionString ≠ [] ∨ opts.filter (fun s => !isLongOptionString s) ≠ [] := by
    cases opts with
    | nil => exact absurd rfl hne
    | cons s r =>
      cases hs : isLongOptionString s with
      | true => exact Or.inl (by simp [hs])
      | false => exact Or.inr (by simp [hs])
  unfold bare makeLongOptsPattern
  rw [if_neg hne]
  simp only [partitionBy_eq]
  generalize hL : (opts.filter isLongOptionString).map wrapStrip = L at *
  generalize hO : (opts.filter (fun s => !isLongOptionString s)).map wrapStrip = O at *
  have hLne : opts.filter isLongOptionString ≠ [] ↔ L ≠ [] := by rw [← hL]; simp
  have hOne : opts.filter (fun s => !isLongOptionString s) ≠ [] ↔ O ≠ [] := by rw [← hO]; simp
  rw [hLne, hOne] at hnone
  have hrL : ∀ t ∈ L, Readable zshGlob t := fun t ht => readable_lits (hlong t ht)
  have hrO : ∀ t ∈ O, Readable zshGlob t := fun t ht => readable_lits (hold t ht)
  have hmL : ∀ w, (∃ t ∈ L, Matches zshGlob t w) ↔ w ∈ L := by
    intro w
    constructor
    · rintro ⟨t, ht, hm⟩; rw [(matches_lits (hlong t ht) w).mp hm]; exact ht
    · intro hw; exact ⟨w, hw, (matches_lits (hlong w hw) w).mpr rfl⟩
  have hmO : ∀ w, (∃ t ∈ O, Matches zshGlob t w) ↔ w ∈ O := by
    intro w
    constructor
    · rintro ⟨t, ht, hm⟩; rw [(matches_lits (hold t ht) w).mp hm]; exact ht
    · intro hw; exact ⟨w, hw, (matches_lits (hold w hw) w).mpr rfl⟩
  have hempty : ∀ w, L = [] → w ∈ opts → isLongOptionString w = false := by
    intro w he hw
    cases hl : isLongOptionString w with
    | false => rfl
    | true => obtain ⟨t, ht, -⟩ := (wlong w).mpr ⟨hw, hl⟩; rw [he] at ht; cases ht
  have hempty' : ∀ w, O = [] → w ∈ opts → isLongOptionString w = true := by
    intro w he hw
    cases hl : isLongOptionString w with
    | true => rfl
    | false => obtain ⟨t, ht, -⟩ := (wold w).mpr ⟨hw, hl⟩; rw [he] at ht; cases ht
  by_cases hl : L = []
  · have ho : O ≠ [] := by rcases hnone with h | h; exact absurd hl h; exact h
    rw [if_neg (by simp [hl]), if_neg (by simp [hl]), if_pos ho]
    obtain ⟨p1, p2⟩ := matches_paren ho hrO
    have e : S "-(" ++ joinWith ['|'] O ++ S ")" = '-' :: (['('] ++ joinWith ['|'] O ++ [')']) := by simp [S]
    simp only [e]
    refine ⟨readable_lit_cons dash_lit p1, fun w => ?_⟩
    rw [matches_lit_cons dash_lit p1]
    constructor
    · rintro ⟨r, rfl, hr⟩
      exact ((wold _).mp ⟨r, (hmO r).mp ((p2 r).mp hr), rfl⟩).1
    · intro hw
      obtain ⟨t, ht, rfl⟩ := (wold w).mpr ⟨hw, hempty w hl hw⟩
      exact ⟨t, rfl, (p2 t).mpr ((hmO t).mpr ht)⟩
  · obtain ⟨p1, p2⟩ := matches_paren hl hrL
    by_cases ho : O = []
    · rw [if_neg (by simp [ho]), if_pos hl]
      have e : S "--(" ++ joinWith ['|'] L ++ S ")" = '-' :: '-' :: (['('] ++ joinWith ['|'] L ++ [')']) := by simp [S]
      simp only [e]
      have q1 := readable_lit_cons dash_lit p1
      refine ⟨readable_lit_cons dash_lit q1, fun w => ?_⟩
      rw [matches_lit_cons dash_lit q1]
      constructor
      · rintro ⟨r, rfl, hr⟩
        obtain ⟨r', rfl, hr'⟩ := (matches_lit_cons dash_lit p1 r).mp hr
        exact ((wlong _).mp ⟨r', (hmL r').mp ((p2 r').mp hr'), rfl⟩).1
      · intro hw
        obtain ⟨t, ht, rfl⟩ := (wlong w).mpr ⟨hw, hempty' w ho hw⟩
        exact ⟨_, rfl, (matches_lit_cons dash_lit p1 _).mpr ⟨t, rfl, (p2 t).mpr ((hmL t).mpr ht)⟩⟩
    · rw [if_pos ⟨hl, ho⟩]
      have q1 := readable_lit_cons dash_lit p1
      have hall : ∀ t ∈ O ++ ['-' :: (['('] ++ joinWith ['|'] L ++ [')'])], Readable zshGlob t := by
        intro t ht
        rw [List.mem_append, List.mem_singleton] at ht
        rcases ht with ht | rfl
        · exact hrO t ht
        · exact q1
      obtain ⟨r1, r2⟩ := matches_paren (by simp) hall
      have e : S "-(" ++ joinWith ['|'] O ++ S "|-(" ++ joinWith ['|'] L ++ S "))" =
          '-' :: (['('] ++ joinWith ['|'] (O ++ ['-' :: (['('] ++ joinWith ['|'] L ++ [')'])]) ++ [')']) := by
        rw [joinBar_snoc _ _ ho]; simp [S]
      simp only [e]
      refine ⟨readable_lit_cons dash_lit r1, fun w => ?_⟩
      rw [matches_lit_cons dash_lit r1]
      constructor
      · rintro ⟨r, rfl, hr⟩
        obtain ⟨t, ht, hm⟩ := (r2 r).mp hr
        rw [List.mem_append, List.mem_singleton] at ht
        rcases ht with ht | rfl
        · exact ((wold _).mp ⟨r, (hmO r).mp ⟨t, ht, hm⟩, rfl⟩).1
        · obtain ⟨r', rfl, hr'⟩ := (matches_lit_cons dash_lit p1 r).mp hm
          exact ((wlong _).mp ⟨r', (hmL r').mp ((p2 r').mp hr'), rfl⟩).1
      · intro hw
        cases hlw : isLongOptionString w with
        | false =>
          obtain ⟨t, ht, rfl⟩ := (wold w).mpr ⟨hw, hlw⟩
          obtain ⟨u, hu, hm⟩ := (hmO t).mpr ht
          exact ⟨t, rfl, (r2 t).mpr ⟨u, by simp [hu], hm⟩⟩
        | true =>
          obtain ⟨t, ht, rfl⟩ := (wlong w).mpr ⟨hw, hlw⟩
          exact ⟨_, rfl, (r2 _).mpr ⟨_, by rw [List.mem_append, List.mem_singleton]; exact Or.inr rfl,
            (matches_lit_cons dash_lit p1 _).mpr ⟨t, rfl, (p2 t).mpr ((hmL t).mpr ht)⟩⟩⟩

theorem star_reads : GReads zshGlob (S "=*") ([.lit '='] ++ [.star]) := by
  have := reads_append (reads_lit equals_lit) (reads_wild (x := zshGlob) '*' (Or.inl rfl))
  exact this

theorem star_matches (w : Str) : Matches zshGlob (S "=*") w ↔ ∃ v, w = '=' :: v := by
  rw [matches_of_reads star_reads]
  simp only [List.cons_append, List.nil_append, Glob.SeqLang, Glob.Lang]
  constructor
  · rintro ⟨a, b, rfl, rfl, c, d, rfl, -, -⟩; exact ⟨_, rfl⟩
  · rintro ⟨v, rfl⟩; exact ⟨['='], v, rfl, rfl, v, [], by simp, trivial, rfl⟩

theorem holds_glob {p : Str} (h : Readable zshGlob p) (hne : p ≠ []) (w : Str) : Holds (.glob p) w ↔ Matches zshGlob p w := by
  obtain ⟨alts, h1, h2⟩ := readGlob_single h hne
  simp only [Holds, h1, Option.some.injEq]
  rw [← h2]
  constructor
  · rintro ⟨_, rfl, h⟩; exact h
  · intro h; exact ⟨_, rfl, h⟩

theorem bare_ne {opts : List Str} (hne : opts ≠ []) (h : ∀ s ∈ opts, Fine s) : bare opts ≠ [] := by
  intro he
  obtain ⟨-, h2⟩ := bare_matches hne h
  cases opts with
  | nil => exact hne rfl
  | cons s r =>
    have h3 := (h2 s).mpr (by simp)
    rw [he, matches_nil] at h3
    subst h3
    rcases h [] (by simp) with ⟨n, h, -⟩ | ⟨n, h, -⟩ <;> cases h

/-- A pattern for options without arguments. -/
theorem pattern_none {opts : List Str} (hne : opts ≠ []) (h : ∀ s ∈ opts, Fine s) (w : Str) :
    Holds (.glob (makeLongOptsPattern opts .none)) w ↔ w ∈ opts := by
  obtain ⟨h1, h2⟩ := bare_matches hne h
  exact (holds_glob h1 (bare_ne hne h) w).trans (h2 w)

theorem pattern_more (opts : List Str) (hne : opts ≠ []) : makeLongOptsPattern opts .arg = bare opts ++ S "=*" ∧
    makeLongOptsPattern opts .optional = bare opts ++ S "(|=*)" := by
  unfold bare makeLongOptsPattern
  rw [if_neg hne, if_neg hne, if_neg hne]
  exact ⟨rfl, rfl⟩

/-- A pattern for options with their argument behind `=`. -/
theorem pattern_arg {opts : List Str} (hne : opts ≠ []) (h : ∀ s ∈ opts, Fine s) (w : Str) :
    Holds (.glob (makeLongOptsPattern opts .arg)) w ↔ ∃ s ∈ opts, ∃ v, w = s ++ '=' :: v := by
  obtain ⟨h1, h2⟩ := bare_matches hne h
  have hs : Readable zshGlob (S "=*") := ⟨_, star_reads⟩
  rw [(pattern_more opts hne).1, holds_glob (readable_append h1 hs) (by simp [bare_ne hne h]), matches_append h1 hs]
  constructor
  · rintro ⟨a, b, rfl, ha, hb⟩
    obtain ⟨v, rfl⟩ := (star_matches b).mp hb
    exact ⟨a, (h2 a).mp ha, v, rfl⟩
  · rintro ⟨s, hs, v, rfl⟩
    exact ⟨s, _, rfl, (h2 s).mpr hs, (star_matches _).mpr ⟨v, rfl⟩⟩

/-- A pattern for options with or without an argument behind `=`. -/
theorem pattern_optional {opts : List Str} (hne : opts ≠ []) (h : ∀ s ∈ opts, Fine s) (w : Str) :
    Holds (.glob (makeLongOptsPattern opts .optional)) w ↔ w ∈ opts ∨ ∃ s ∈ opts, ∃ v, w = s ++ '=' :: v := by
  obtain ⟨h1, h2⟩ := bare_matches hne h
  have hts : ∀ t ∈ [[], S "=*"], Readable zshGlob t := by
    intro t ht
    simp only [List.mem_cons, List.not_mem_nil, or_false] at ht
    rcases ht with rfl | rfl
    · exact ⟨_, reads_nil⟩
    · exact ⟨_, star_reads⟩
  obtain ⟨p1, p2⟩ := matches_paren (by simp) hts
  have e : S "(|=*)" = ['('] ++ joinWith ['|'] [[], S "=*"] ++ [')'] := by decide
  rw [(pattern_more opts hne).2, e, holds_glob (readable_append h1 p1) (by simp [bare_ne hne h]), matches_append h1 p1]
  constructor
  · rintro ⟨a, b, rfl, ha, hb⟩
    obtain ⟨t, ht, hm⟩ := (p2 b).mp hb
    simp only [List.mem_cons, List.not_mem_nil, or_false] at ht
    rcases ht with rfl | rfl
    · rw [matches_nil] at hm; subst hm; exact Or.inl (by simpa using (h2 a).mp ha)
    · obtain ⟨v, rfl⟩ := (star_matches b).mp hm
      exact Or.inr ⟨a, (h2 a).mp ha, v, rfl⟩
  · rintro (hw | ⟨s, hs, v, rfl⟩)
    · exact ⟨w, [], by simp, (h2 w).mpr hw, (p2 []).mpr ⟨[], by simp, (matches_nil []).mpr rfl⟩⟩
    · exact ⟨s, _, rfl, (h2 s).mpr hs, (p2 _).mpr ⟨S "=*", by simp, (star_matches _).mpr ⟨v, rfl⟩⟩⟩

/-! ## Regular expressions -/

/-- A character that can be written in brackets. -/
def InBrackets (c : Char) : Prop := c ∉ S "[]-\\^'%"

theorem inBrackets_iff {c : Char} (h : InBrackets c) : c ≠ '[' ∧ c ≠ ']' ∧ c ≠ '-' ∧ c ≠ '\\' ∧ c ≠ '^' ∧ c ≠ '\'' ∧ c ≠ '%' := by
  simpa [InBrackets, S] using h

theorem items_inside (neg : Bool) (is : List (Atom × Option Char)) (r : Str) : ∀ (xs cs : Str), (∀ c ∈ xs, InBrackets c) →
    readItems (.inside neg cs) is (xs ++ r) = readItems (.inside neg (cs ++ xs)) is r
  | [], cs, _ => by simp
  | c :: xs, cs, h => by
    have hc := inBrackets_iff (h c (by simp))
    have ih := items_inside neg is r xs (cs ++ [c]) (fun d hd => h d (by simp [hd]))
    simp only [List.cons_append, readItems]
    rw [if_neg (by simp [hc]), if_neg (by simp [S, hc]), ih]
    simp

theorem items_set (is : List (Atom × Option Char)) (r xs : Str) (hne : xs ≠ []) (h : ∀ c ∈ xs, InBrackets c) :
    readItems .plain is ('[' :: (xs ++ ']' :: r)) = readItems .plain (is ++ [(.set false xs, none)]) r := by
  cases xs with
  | nil => exact absurd rfl hne
  | cons c xs =>
    have hc := inBrackets_iff (h c (by simp))
    simp only [List.cons_append]
    rw [readItems, if_neg (by simp), if_pos rfl, readItems, if_neg hc.2.2.2.2.1, if_neg (by simp [S, hc]),
      items_inside false is _ xs [c] (fun d hd => h d (by simp [hd])), readItems]
    rw [if_pos (by simp)]
    rfl

theorem items_dash (is : List (Atom × Option Char)) (c : Char) (r : Str) :
    readItems .plain is ('-' :: c :: r) = readItems .plain (is ++ [(.chr '-', none)]) (c :: r) := by
  rw [readItems, if_neg (by simp), if_neg (by decide), if_neg (by decide), if_neg (by decide), if_neg (by decide)]

theorem items_quantify (is : List (Atom × Option Char)) (a : Atom) (q : Char) (hq : q = '*' ∨ q = '+') (c : Char) (r : Str) :
    readItems .plain (is ++ [(a, none)]) (q :: c :: r) = readItems .plain (is ++ [(a, some q)]) (c :: r) := by
  rw [readItems, if_neg (by simp), if_neg (by rcases hq with rfl | rfl <;> decide), if_pos hq]
  simp [quantified]

theorem items_dot (is : List (Atom × Option Char)) (c : Char) (r : Str) :
    readItems .plain is ('.' :: c :: r) = readItems .plain (is ++ [(.any, none)]) (c :: r) := by
  rw [readItems, if_neg (by simp), if_neg (by decide), if_neg (by decide), if_pos rfl]

theorem items_end (is : List (Atom × Option Char)) : readItems .plain is ['$'] = some is := by
  rw [readItems, if_pos ⟨rfl, rfl⟩]

theorem no_quote {xs : Str} (h : ∀ c ∈ xs, InBrackets c) : '\'' ∉ xs := fun hm => (inBrackets_iff (h _ hm)).2.2.2.2.2.1 rfl

/-- `^-[flags]+$`. -/
theorem regex_flags {fs : Str} (hne : fs ≠ []) (h : ∀ c ∈ fs, InBrackets c) (w : Str) :
    Holds (.regex (makeShortOptsFlagRegex fs)) w ↔ ∃ cs, w = '-' :: cs ∧ cs ≠ [] ∧ ∀ c ∈ cs, c ∈ fs := by
  have e : makeShortOptsFlagRegex fs = '^' :: '-' :: '[' :: (fs ++ ']' :: '+' :: '$' :: []) := by
    simp [makeShortOptsFlagRegex, hne, S]
  have hr : readEre ('^' :: '-' :: '[' :: (fs ++ ']' :: '+' :: '$' :: [])) = some [(.chr '-', none), (.set false fs, some '+')] := by
    unfold readEre
    rw [if_neg (by simp [no_quote h])]
    simp only
    rw [items_dash, items_set _ _ _ hne h, items_quantify _ _ _ (Or.inr rfl), items_end]
    rfl
  simp only [Holds, e, hr, Option.some.injEq]
  constructor
  · rintro ⟨_, rfl, c, r, rfl, rfl, p, q, rfl, hp, ha, rfl⟩
    exact ⟨p, by simp, hp rfl, ha⟩
  · rintro ⟨cs, rfl, hcs, ha⟩
    exact ⟨_, rfl, '-', cs, rfl, rfl, cs, [], by simp, fun _ => hcs, ha, rfl⟩

/-- The items in front of what stands for the argument. -/
def front (fs as : Str) : List (Atom × Option Char) :=
  if fs = [] then [(.chr '-', none), (.set false as, none)]
  else [(.chr '-', none), (.set false fs, some '*'), (.set false as, none)]

theorem front_reads {fs as : Str} (hf : ∀ c ∈ fs, InBrackets c) (ha : ∀ c ∈ as, InBrackets c) (hne : as ≠ []) (r : Str) :
    readItems .plain [] ((if fs ≠ [] then S "-[" ++ fs ++ S "]*[" ++ as ++ S "]" else S "-[" ++ as ++ S "]") ++ r) =
      readItems .plain (front fs as) r := by
  by_cases h : fs = []
  · have e : (if fs ≠ [] then S "-[" ++ fs ++ S "]*[" ++ as ++ S "]" else S "-[" ++ as ++ S "]") ++ r = '-' :: '[' :: (as ++ ']' :: r) := by
      simp [h, S]
    rw [e, items_dash, items_set _ _ _ hne ha]
    simp [front, h]
  · have e : (if fs ≠ [] then S "-[" ++ fs ++ S "]*[" ++ as ++ S "]" else S "-[" ++ as ++ S "]") ++ r =
        '-' :: '[' :: (fs ++ ']' :: '*' :: '[' :: (as ++ ']' :: r)) := by simp [h, S]
    rw [e, items_dash, items_set _ _ _ h hf, items_quantify _ _ _ (Or.inl rfl), items_set _ _ _ hne ha]
    simp [front, h]

theorem front_lang {fs as : Str} (is : List (Atom × Option Char)) (w : Str) :
    ItemsLang (front fs as ++ is) w ↔ ∃ cs c v, w = '-' :: (cs ++ c :: v) ∧ (∀ x ∈ cs, x ∈ fs) ∧ c ∈ as ∧ ItemsLang is v := by
  unfold front
  split
  · rename_i h
    subst h
    simp only [List.cons_append, List.nil_append, ItemsLang]
    constructor
    · rintro ⟨c, r, rfl, rfl, d, r', rfl, hd, hv⟩
      exact ⟨[], d, r', rfl, by simp, hd, hv⟩
    · rintro ⟨cs, c, v, rfl, hcs, hc, hv⟩
      have : cs = [] := by
        cases cs with
        | nil => rfl
        | cons x _ => exact absurd (hcs x (by simp)) (by simp)
      subst this
      exact ⟨'-', _, rfl, rfl, c, v, rfl, hc, hv⟩
  · simp only [List.cons_append, List.nil_append, ItemsLang]
    constructor
    · rintro ⟨c, r, rfl, rfl, p, q, rfl, -, hp, d, r', rfl, hd, hv⟩
      exact ⟨p, d, r', rfl, hp, hd, hv⟩
    · rintro ⟨cs, c, v, rfl, hcs, hc, hv⟩
      exact ⟨'-', _, rfl, rfl, cs, c :: v, rfl, by simp, hcs, c, v, rfl, hc, hv⟩

/-- What may stand behind the letter of an option. -/
def Behind : WrapArg → Str → Prop
  | .none, v => v = []
  | .arg, v => v ≠ []
  | .optional, _ => True

theorem regex_quote_free {fs as : Str} (hf : ∀ c ∈ fs, InBrackets c) (ha : ∀ c ∈ as, InBrackets c) (t : WrapArg) :
    '\'' ∉ makeShortOptsArgRegex fs as t := by
  unfold makeShortOptsArgRegex
  have h1 := no_quote hf
  have h2 := no_quote ha
  split
  · simp
  · cases t <;> (simp only []; split <;> simp [S, h1, h2])

/-- `^-[flags]*[args]$`, `^-[flags]*[args].+$` and `^-[flags]*[args].*$`. -/
theorem regex_arg {fs as : Str} (hf : ∀ c ∈ fs, InBrackets c) (ha : ∀ c ∈ as, InBrackets c) (hne : as ≠ []) (t : WrapArg) (w : Str) :
    Holds (.regex (makeShortOptsArgRegex fs as t)) w ↔
      ∃ cs c v, w = '-' :: (cs ++ c :: v) ∧ (∀ x ∈ cs, x ∈ fs) ∧ c ∈ as ∧ Behind t v := by
  have hq := regex_quote_free hf ha t
  have hr := fun r => front_reads hf ha hne r
  generalize hR : (if fs ≠ [] then S "-[" ++ fs ++ S "]*[" ++ as ++ S "]" else S "-[" ++ as ++ S "]") = R at hr
  have key : ∀ (x : Str) (is : List (Atom × Option Char)), makeShortOptsArgRegex fs as t = '^' :: (R ++ (x ++ ['$'])) →
      readItems .plain (front fs as) (x ++ ['$']) = some (front fs as ++ is) → (∀ v, ItemsLang is v ↔ Behind t v) →
      (Holds (.regex (makeShortOptsArgRegex fs as t)) w ↔
      ∃ cs c v, w = '-' :: (cs ++ c :: v) ∧ (∀ x ∈ cs, x ∈ fs) ∧ c ∈ as ∧ Behind t v) := by
    intro x is h1 h2 h3
    have : readEre (makeShortOptsArgRegex fs as t) = some (front fs as ++ is) := by
      unfold readEre
      rw [if_neg hq, h1]
      simp only
      rw [hr, h2]
    simp only [Holds, this, Option.some.injEq]
    constructor
    · rintro ⟨_, rfl, hl⟩
      obtain ⟨cs, c, v, e1, e2, e3, e4⟩ := (front_lang is w).mp hl
      exact ⟨cs, c, v, e1, e2, e3, (h3 v).mp e4⟩
    · rintro ⟨cs, c, v, e1, e2, e3, e4⟩
      exact ⟨_, rfl, (front_lang is w).mpr ⟨cs, c, v, e1, e2, e3, (h3 v).mpr e4⟩⟩
  cases t with
  | none =>
    refine key [] [] ?_ ?_ ?_
    · unfold makeShortOptsArgRegex; rw [if_neg hne, hR]; simp [S]
    · simpa using items_end _
    · intro v; simp [ItemsLang, Behind]
  | arg =>
    refine key (S ".+") [(.any, some '+')] ?_ ?_ ?_
    · unfold makeShortOptsArgRegex; rw [if_neg hne, hR]; simp [S]
    · simp only [S, String.reduceToList, List.cons_append, List.nil_append]
      rw [items_dot, items_quantify _ _ _ (Or.inr rfl), items_end]
    · intro v
      simp only [ItemsLang, Behind, Atom.Has]
      constructor
      · rintro ⟨p, r, rfl, hp, -, rfl⟩; simpa using hp
      · intro hv; exact ⟨v, [], by simp, fun _ => hv, by simp, rfl⟩
  | optional =>
    refine key (S ".*") [(.any, some '*')] ?_ ?_ ?_
    · unfold makeShortOptsArgRegex; rw [if_neg hne, hR]; simp [S]
    · simp only [S, String.reduceToList, List.cons_append, List.nil_append]
      rw [items_dot, items_quantify _ _ _ (Or.inl rfl), items_end]
    · intro v
      simp only [ItemsLang, Behind, Atom.Has, iff_true]
      exact ⟨v, [], by simp, by simp, by simp, rfl⟩

end ZshWrap
end CC
