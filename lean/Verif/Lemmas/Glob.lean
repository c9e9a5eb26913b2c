import Verif.Spec.Glob
import Verif.Lemmas.Cli
/-!
# Reading pattern texts piece by piece
-/

namespace CC

theorem seqLang_append (gs hs : List Glob) (w : Str) :
    Glob.SeqLang (gs ++ hs) w ↔ ∃ a b, w = a ++ b ∧ Glob.SeqLang gs a ∧ Glob.SeqLang hs b := by
  induction gs generalizing w with
  | nil =>
    simp only [List.nil_append, Glob.SeqLang]
    constructor
    · intro h; exact ⟨[], w, rfl, rfl, h⟩
    · rintro ⟨a, b, rfl, rfl, h⟩; exact h
  | cons g gs ih =>
    simp only [List.cons_append, Glob.SeqLang]
    constructor
    · rintro ⟨a, b, rfl, ha, hb⟩
      obtain ⟨b1, b2, rfl, h1, h2⟩ := (ih b).1 hb
      exact ⟨a ++ b1, b2, by simp, ⟨a, b1, rfl, ha, h1⟩, h2⟩
    · rintro ⟨a, b, rfl, ⟨a1, a2, rfl, h1, h2⟩, hb⟩
      exact ⟨a1, a2 ++ b, by simp, h1, (ih _).2 ⟨a2, b, rfl, h2, hb⟩⟩

theorem altLang_iff (alts : List (List Glob)) (w : Str) :
    Glob.AltLang alts w ↔ ∃ g ∈ alts, Glob.SeqLang g w := by
  induction alts with
  | nil => simp [Glob.AltLang]
  | cons g gs ih => simp [Glob.AltLang, ih]

theorem seqLang_single (g : Glob) (w : Str) : Glob.SeqLang [g] w ↔ g.Lang w := by
  simp only [Glob.SeqLang]
  constructor
  · rintro ⟨a, b, rfl, h, rfl⟩; simpa using h
  · intro h; exact ⟨w, [], by simp, h, rfl⟩

/-- Outside of quotes and brackets. -/
def GState.open_ (st : GState) : Prop := st.mode = .plain ∨ ∃ k, st.mode = .pend k

theorem flush_open {st : GState} (h : st.open_) : st.flush.mode = .plain := by
  rcases h with h | ⟨k, h⟩ <;> simp [GState.flush, h]

theorem flush_frames (st : GState) : st.flush.frames = st.frames := by
  unfold GState.flush; split <;> rfl

theorem flush_alts (st : GState) : st.flush.alts = st.alts := by
  unfold GState.flush; split <;> rfl

theorem flush_of_plain {st : GState} (h : st.mode = .plain) : st.flush = st := by
  simp [GState.flush, h]

theorem flush_open' {st : GState} (h : st.open_) : st.flush.open_ := Or.inl (flush_open h)

variable {x : GlobCtx}

theorem gstep_flush {st : GState} (h : st.open_) {c : Char} (hc : c ≠ '(' ∨ x.ext = false) : gstep x st c = gplain x st.flush c := by
  rcases h with h | ⟨k, h⟩
  · rw [flush_of_plain h]; simp [gstep, h]
  · rcases hc with hc | hc <;> simp [gstep, h, hc]

theorem gread_cons (st : GState) (c : Char) (t : Str) : gread x st (c :: t) = (gstep x st c).bind (fun s => gread x s t) := rfl

theorem gread_append (st : GState) (t u : Str) : gread x st (t ++ u) = (gread x st t).bind (fun s => gread x s u) := by
  simp [gread, List.foldlM_append]

/-- The text is read as the given elements, wherever it stands. -/
def GReads (x : GlobCtx) (t : Str) (gs : List Glob) : Prop :=
  (x.ext = true → t.head? ≠ some '(') ∧ ∀ st : GState, st.open_ →
    ∃ st', gread x st t = some st' ∧ st'.open_ ∧ st'.flush = { st.flush with cur := st.flush.cur ++ gs }

theorem reads_nil : GReads x [] [] :=
  ⟨by simp, fun st h => ⟨st, rfl, h, by simp⟩⟩

theorem reads_append {t u : Str} {gs hs : List Glob} (h1 : GReads x t gs) (h2 : GReads x u hs) :
    GReads x (t ++ u) (gs ++ hs) := by
  refine ⟨?_, ?_⟩
  · cases t with
    | nil => simpa using h2.1
    | cons c t => simpa using h1.1
  · intro st hs
    obtain ⟨s1, r1, o1, f1⟩ := h1.2 st hs
    obtain ⟨s2, r2, o2, f2⟩ := h2.2 s1 o1
    refine ⟨s2, by rw [gread_append, r1]; exact r2, o2, ?_⟩
    rw [f2, f1]
    simp

theorem reads_unique {t : Str} {gs hs : List Glob} (h1 : GReads x t gs) (h2 : GReads x t hs) : gs = hs := by
  obtain ⟨s1, r1, _, f1⟩ := h1.2 {} (Or.inl rfl)
  obtain ⟨s2, r2, _, f2⟩ := h2.2 {} (Or.inl rfl)
  rw [r1] at r2
  cases r2
  rw [f1] at f2
  have := congrArg GState.cur f2
  simpa [GState.flush] using this

/-- Characters that stand for themselves in a pattern. -/
def LitChar (x : GlobCtx) (c : Char) : Prop := c ∉ S "\\'\"[()|?*" ∧ x.special c = false

theorem reads_lit {c : Char} (h : LitChar x c) : GReads x [c] [.lit c] := by
  have hm := h.1
  simp only [S, String.reduceToList, List.mem_cons, List.not_mem_nil, or_false, not_or] at hm
  refine ⟨by simp [hm], ?_⟩
  intro st hs
  have hstep := gstep_flush (x := x) hs (c := c) (Or.inl (by simp [hm]))
  by_cases hk : c = '@' ∨ c = '+' ∨ c = '!'
  · have hp : gplain x st.flush c = some { st.flush with mode := .pend c } := by
      unfold gplain
      rw [if_neg (by simp [hm]), if_neg (by simp [hm]), if_neg (by simp [hm]), if_neg (by simp [hm]),
        if_pos (by rcases hk with h | h | h <;> simp [h])]
    refine ⟨{ st.flush with mode := .pend c }, ?_, Or.inr ⟨c, rfl⟩, ?_⟩
    · rw [gread_cons, hstep, hp]; rfl
    · have h0 := flush_open hs
      have hpend : pendGlob c = .lit c := by
        unfold pendGlob
        rw [if_neg (by simp [hm]), if_neg (by simp [hm])]
      cases hst : st.flush with
      | mk f a cu m =>
        rw [hst] at h0
        simp only at h0
        subst h0
        simp [GState.flush, hpend]
  · simp only [not_or] at hk
    have hp : gplain x st.flush c = some { st.flush with cur := st.flush.cur ++ [.lit c] } := by
      unfold gplain
      rw [if_neg (by simp [hm]), if_neg (by simp [hm]), if_neg (by simp [hm]), if_neg (by simp [hm]),
        if_neg (by simp [hm, hk]), if_neg (by simp [hm]), if_neg (by simp [hm]), if_neg (by simp [hm]), if_neg]
      simp [h.2]
    refine ⟨{ st.flush with cur := st.flush.cur ++ [.lit c] }, ?_, Or.inl (flush_open hs), ?_⟩
    · rw [gread_cons, hstep, hp]; rfl
    · rw [flush_of_plain]; exact flush_open hs

/-- The text can be read. -/
def Readable (x : GlobCtx) (t : Str) : Prop := ∃ gs, GReads x t gs

/-- The text, read as a pattern, matches the word. -/
def Matches (x : GlobCtx) (t w : Str) : Prop := ∃ gs, GReads x t gs ∧ Glob.SeqLang gs w

theorem matches_of_reads {t : Str} {gs : List Glob} (h : GReads x t gs) (w : Str) : Matches x t w ↔ Glob.SeqLang gs w := by
  constructor
  · rintro ⟨hs, h2, hw⟩; rw [reads_unique h h2]; exact hw
  · intro hw; exact ⟨gs, h, hw⟩

theorem readable_append {t u : Str} (h1 : Readable x t) (h2 : Readable x u) : Readable x (t ++ u) := by
  obtain ⟨gs, h1⟩ := h1
  obtain ⟨hs, h2⟩ := h2
  exact ⟨_, reads_append h1 h2⟩

theorem matches_append {t u : Str} (h1 : Readable x t) (h2 : Readable x u) (w : Str) :
    Matches x (t ++ u) w ↔ ∃ a b, w = a ++ b ∧ Matches x t a ∧ Matches x u b := by
  obtain ⟨gs, h1⟩ := h1
  obtain ⟨hs, h2⟩ := h2
  rw [matches_of_reads (reads_append h1 h2), seqLang_append]
  simp only [matches_of_reads h1, matches_of_reads h2]

theorem matches_nil (w : Str) : Matches x [] w ↔ w = [] := by
  rw [matches_of_reads reads_nil]; rfl

theorem matches_lit {c : Char} (h : LitChar x c) (w : Str) : Matches x [c] w ↔ w = [c] := by
  rw [matches_of_reads (reads_lit h), seqLang_single]; rfl

theorem matches_lit_cons {c : Char} {t : Str} (h : LitChar x c) (ht : Readable x t) (w : Str) :
    Matches x (c :: t) w ↔ ∃ b, w = c :: b ∧ Matches x t b := by
  have := matches_append ⟨_, reads_lit h⟩ ht w
  simp only [List.cons_append, List.nil_append] at this
  rw [this]
  constructor
  · rintro ⟨a, b, rfl, ha, hb⟩
    rw [matches_lit h] at ha
    subst ha
    exact ⟨b, rfl, hb⟩
  · rintro ⟨b, rfl, hb⟩
    exact ⟨[c], b, rfl, (matches_lit h _).2 rfl, hb⟩

theorem readable_lit_cons {c : Char} {t : Str} (h : LitChar x c) (ht : Readable x t) : Readable x (c :: t) := by
  have := readable_append ⟨_, reads_lit h⟩ ht
  simpa using this

theorem readable_lits {s : Str} (h : ∀ c ∈ s, LitChar x c) : Readable x s := by
  induction s with
  | nil => exact ⟨_, reads_nil⟩
  | cons c s ih => exact readable_lit_cons (h c (by simp)) (ih (fun x hx => h x (by simp [hx])))

theorem matches_lits {s : Str} (h : ∀ c ∈ s, LitChar x c) (w : Str) : Matches x s w ↔ w = s := by
  induction s generalizing w with
  | nil => exact matches_nil w
  | cons c s ih =>
    have hs : ∀ c ∈ s, LitChar x c := fun x hx => h x (by simp [hx])
    rw [matches_lit_cons (h c (by simp)) (readable_lits hs)]
    constructor
    · rintro ⟨b, rfl, hb⟩; rw [(ih hs b).1 hb]
    · rintro rfl; exact ⟨s, rfl, (ih hs s).2 rfl⟩

/-- Two lists related element by element. -/
inductive All2 {α β : Type} (R : α → β → Prop) : List α → List β → Prop where
  | nil : All2 R [] []
  | cons {a : α} {b : β} {as : List α} {bs : List β} : R a b → All2 R as bs → All2 R (a :: as) (b :: bs)

/-- Reading alternatives separated by bars. -/
theorem read_bars (ts : List Str) (gss : List (List Glob)) (h : All2 (GReads x) ts gss) (hne : ts ≠ [])
    (st : GState) (hs : st.open_) :
    ∃ st', gread x st (joinWith ['|'] ts) = some st' ∧ st'.open_ ∧ st'.frames = st.frames ∧
      st'.flush.alts ++ [st'.flush.cur] = st.flush.alts ++ (st.flush.cur ++ gss.headD []) :: gss.tail := by
  induction h generalizing st with
  | nil => exact absurd rfl hne
  | @cons t g ts gss hg hrest ih =>
    obtain ⟨s1, r1, o1, f1⟩ := hg.2 st hs
    have hfr : s1.frames = st.frames := by
      rw [← flush_frames s1, f1, ← flush_frames st]
    cases hrest with
    | nil => exact ⟨s1, by simpa [joinWith] using r1, o1, hfr, by rw [f1]; rfl⟩
    | @cons u g2 us gss2 hg2 hrest2 =>
      have hbar : gstep x s1 '|' = some ⟨s1.flush.frames, s1.flush.alts ++ [s1.flush.cur], [], s1.flush.mode⟩ := by
        rw [gstep_flush o1 (Or.inl (by decide))]
        rfl
      obtain ⟨s2, r2, o2, fr2, c2⟩ := ih (by simp)
        ⟨s1.flush.frames, s1.flush.alts ++ [s1.flush.cur], [], s1.flush.mode⟩ (Or.inl (flush_open o1))
      refine ⟨s2, ?_, o2, ?_, ?_⟩
      · simp only [joinWith, List.append_assoc, List.cons_append, List.nil_append]
        rw [gread_append, r1]
        simp only [Option.bind_some, gread_cons, hbar]
        exact r2
      · rw [fr2]; simp only; rw [flush_frames, hfr]
      · rw [c2, flush_of_plain (by exact flush_open o1)]
        simp only [f1]
        simp

theorem readable_all {ts : List Str} (h : ∀ t ∈ ts, Readable x t) : ∃ gss, All2 (GReads x) ts gss := by
  induction ts with
  | nil => exact ⟨[], .nil⟩
  | cons t ts ih =>
    obtain ⟨g, hg⟩ := h t (by simp)
    obtain ⟨gss, hgs⟩ := ih (fun x hx => h x (by simp [hx]))
    exact ⟨g :: gss, .cons hg hgs⟩

theorem alt_matches {ts : List Str} {gss : List (List Glob)} (h : All2 (GReads x) ts gss) (w : Str) :
    Glob.AltLang gss w ↔ ∃ t ∈ ts, Matches x t w := by
  induction h with
  | nil => simp [Glob.AltLang]
  | @cons t g ts gss hg hrest ih => simp [Glob.AltLang, ih, matches_of_reads hg]

/-- An extended glob of one of the five kinds. -/
theorem reads_ext (hx : x.ext = true) (k : Char) (hk : k = '@' ∨ k = '*' ∨ k = '?' ∨ k = '+' ∨ k = '!') (ts : List Str)
    (gss : List (List Glob)) (h : All2 (GReads x) ts gss) (hne : ts ≠ []) :
    GReads x ([k, '('] ++ joinWith ['|'] ts ++ [')']) [.ext k gss] := by
  refine ⟨?_, ?_⟩
  · rcases hk with rfl | rfl | rfl | rfl | rfl <;> simp
  intro st hs
  have h1 : gstep x st k = some ⟨st.flush.frames, st.flush.alts, st.flush.cur, .pend k⟩ := by
    rw [gstep_flush hs (Or.inl (by rcases hk with rfl | rfl | rfl | rfl | rfl <;> decide))]
    rcases hk with rfl | rfl | rfl | rfl | rfl <;> rfl
  have h2 : gstep x ⟨st.flush.frames, st.flush.alts, st.flush.cur, .pend k⟩ '(' =
      some ⟨⟨k, st.flush.alts, st.flush.cur⟩ :: st.flush.frames, [], [], .plain⟩ := by
    simp [gstep, hx]
  obtain ⟨s1, r1, o1, f1, c1⟩ := read_bars ts gss h hne
    ⟨⟨k, st.flush.alts, st.flush.cur⟩ :: st.flush.frames, [], [], .plain⟩ (Or.inl rfl)
  have h3 : gstep x s1 ')' = some ⟨st.flush.frames, st.flush.alts, st.flush.cur ++ [.ext k gss], .plain⟩ := by
    rw [gstep_flush o1 (Or.inl (by decide))]
    have hc : s1.flush.alts ++ [s1.flush.cur] = gss := by
      rw [c1]
      cases h with
      | nil => exact absurd rfl hne
      | cons _ _ => rfl
    have hf : s1.flush.frames = ⟨k, st.flush.alts, st.flush.cur⟩ :: st.flush.frames := by
      rw [flush_frames, f1]
    simp [gplain, hf, hc]
  refine ⟨⟨st.flush.frames, st.flush.alts, st.flush.cur ++ [.ext k gss], .plain⟩, ?_, Or.inl rfl, ?_⟩
  · simp only [List.cons_append, List.nil_append]
    rw [gread_cons, h1, Option.bind_some, gread_cons, h2, Option.bind_some, gread_append, r1, Option.bind_some,
      gread_cons, h3]
    rfl
  · rw [flush_of_plain rfl]
    have := flush_open hs
    cases hst : st.flush with
    | mk f a cu m =>
      rw [hst] at this
      simp only at this
      subst this
      rfl

/-- `@(a|b|c)`. -/
theorem matches_at (hx : x.ext = true) {ts : List Str} (hne : ts ≠ []) (h : ∀ t ∈ ts, Readable x t) :
    Readable x (['@', '('] ++ joinWith ['|'] ts ++ [')']) ∧
    ∀ w, Matches x (['@', '('] ++ joinWith ['|'] ts ++ [')']) w ↔ ∃ t ∈ ts, Matches x t w := by
  obtain ⟨gss, hg⟩ := readable_all h
  have hr := reads_ext hx '@' (by simp) ts gss hg hne
  refine ⟨⟨_, hr⟩, ?_⟩
  intro w
  rw [matches_of_reads hr, seqLang_single]
  simp only [Glob.Lang, if_true]
  exact alt_matches hg w

/-- `a|b|c` in a `case` list. -/
theorem readGlob_bars {ts : List Str} (hne : ts ≠ []) (h : ∀ t ∈ ts, Readable x t)
    (hne2 : joinWith ['|'] ts ≠ []) :
    ∃ alts, readGlob x (joinWith ['|'] ts) = some alts ∧ ∀ w, Glob.AltLang alts w ↔ ∃ t ∈ ts, Matches x t w := by
  obtain ⟨gss, hg⟩ := readable_all h
  obtain ⟨s1, r1, o1, f1, c1⟩ := read_bars ts gss hg hne {} (Or.inl rfl)
  refine ⟨s1.flush.alts ++ [s1.flush.cur], ?_, ?_⟩
  · unfold readGlob
    rw [if_neg hne2, r1]
    simp only [flush_open o1, f1]
  · intro w
    have hc : s1.flush.alts ++ [s1.flush.cur] = gss := by
      rw [c1]
      cases hg with
      | nil => exact absurd rfl hne
      | cons _ _ => rfl
    rw [hc]
    exact alt_matches hg w

theorem readGlob_single {t : Str} (h : Readable x t) (hne : t ≠ []) :
    ∃ alts, readGlob x t = some alts ∧ ∀ w, Glob.AltLang alts w ↔ Matches x t w := by
  have := readGlob_bars (ts := [t]) (by simp) (by simpa using h) (by simpa [joinWith] using hne)
  simpa [joinWith] using this

/-- Characters that stand for themselves in brackets, or for a range. -/
def ClsChar (x : GlobCtx) (c : Char) : Prop := c ∉ S "]\\'\"" ∧ x.clsSpecial c = false

theorem gread_cls (cs : Str) (h : ∀ c ∈ cs, ClsChar x c) (f : List GFrame) (a : List (List Glob)) (cu : List Glob)
    (neg : Bool) (acc : List (Char × Bool)) :
    gread x ⟨f, a, cu, .cls neg acc⟩ cs = some ⟨f, a, cu, .cls neg (acc ++ cs.map (fun c => (c, false)))⟩ := by
  induction cs generalizing acc with
  | nil => simp [gread]
  | cons c cs ih =>
    have hc := h c (by simp)
    have hm := hc.1
    simp only [S, String.reduceToList, List.mem_cons, List.not_mem_nil, or_false, not_or] at hm
    have h1 : gstep x ⟨f, a, cu, .cls neg acc⟩ c = some ⟨f, a, cu, .cls neg (acc ++ [(c, false)])⟩ := by
      simp [gstep, gcls, hm, hc.2]
    rw [gread_cons, h1, Option.bind_some, ih (fun d hd => h d (by simp [hd]))]
    simp

/-- Brackets with unquoted characters. -/
theorem reads_cls (neg : Bool) (cs : Str) (hne : cs ≠ []) (h : ∀ c ∈ cs, ClsChar x c)
    (hneg : neg = false → cs.head? ≠ some '!' ∧ cs.head? ≠ some '^') (bang : Char) (hb : bang = '!' ∨ bang = '^') :
    GReads x (['['] ++ (if neg then [bang] else []) ++ cs ++ [']']) [.cls neg (clsRanges (cs.map (fun c => (c, false))))] := by
  refine ⟨by simp, ?_⟩
  intro st hs
  refine ⟨⟨st.flush.frames, st.flush.alts, st.flush.cur ++ [.cls neg (clsRanges (cs.map (fun c => (c, false))))], .plain⟩,
    ?_, Or.inl rfl, ?_⟩
  · have e1 : gstep x st '[' = some ⟨st.flush.frames, st.flush.alts, st.flush.cur, .clsOpen⟩ := by
      rw [gstep_flush hs (Or.inl (by decide))]; rfl
    have e3 : gstep x ⟨st.flush.frames, st.flush.alts, st.flush.cur, .cls neg (cs.map (fun c => (c, false)))⟩ ']' =
        some ⟨st.flush.frames, st.flush.alts, st.flush.cur ++ [.cls neg (clsRanges (cs.map (fun c => (c, false))))], .plain⟩ := by
      simp [gstep, gcls, hne]
    have e2 : gread x ⟨st.flush.frames, st.flush.alts, st.flush.cur, .clsOpen⟩ ((if neg then [bang] else []) ++ cs) =
        some ⟨st.flush.frames, st.flush.alts, st.flush.cur, .cls neg (cs.map (fun c => (c, false)))⟩ := by
      cases neg with
      | true =>
        simp only [if_true, List.cons_append, List.nil_append]
        rw [gread_cons]
        have : gstep x ⟨st.flush.frames, st.flush.alts, st.flush.cur, .clsOpen⟩ bang =
            some ⟨st.flush.frames, st.flush.alts, st.flush.cur, .cls true []⟩ := by
          simp [gstep, hb]
        rw [this, Option.bind_some, gread_cls cs h]
        simp
      | false =>
        simp only [Bool.false_eq_true, if_false, List.nil_append]
        cases cs with
        | nil => exact absurd rfl hne
        | cons c cs =>
          have hn := hneg rfl
          simp only [List.head?_cons, ne_eq, Option.some.injEq] at hn
          have hc := h c (by simp)
          have hm := hc.1
          simp only [S, String.reduceToList, List.mem_cons, List.not_mem_nil, or_false, not_or] at hm
          have : gstep x ⟨st.flush.frames, st.flush.alts, st.flush.cur, .clsOpen⟩ c =
              some ⟨st.flush.frames, st.flush.alts, st.flush.cur, .cls false [(c, false)]⟩ := by
            simp [gstep, gcls, hm, hc.2, hn]
          rw [gread_cons, this, Option.bind_some, gread_cls cs (fun d hd => h d (by simp [hd]))]
          simp
    rw [List.append_assoc, List.append_assoc, List.cons_append, List.nil_append, gread_cons, e1, Option.bind_some,
      ← List.append_assoc, gread_append, e2, Option.bind_some, gread_cons, e3]
    rfl
  · rw [flush_of_plain rfl]
    have := flush_open hs
    cases hst : st.flush with
    | mk f a cu m =>
      rw [hst] at this
      simp only at this
      subst this
      rfl

/-- `[a-b]`. -/
theorem reads_range (a b : Char) (ha : ClsChar x a) (hm : ClsChar x '-') (hb : ClsChar x b) (ha2 : a ≠ '!') (ha3 : a ≠ '^') :
    GReads x ['[', a, '-', b, ']'] [.cls false [(a, b)]] := by
  have := reads_cls (x := x) false [a, '-', b] (by simp)
    (by intro c hc; simp only [List.mem_cons, List.not_mem_nil, or_false] at hc; rcases hc with rfl | rfl | rfl <;> assumption)
    (by simp [ha2, ha3]) '!' (Or.inl rfl)
  simpa [clsRanges] using this

/-- `[ab]`. -/
theorem reads_two (a b : Char) (ha : ClsChar x a) (hb : ClsChar x b) (ha2 : a ≠ '!') (ha3 : a ≠ '^') :
    GReads x ['[', a, b, ']'] [.cls false [(a, a), (b, b)]] := by
  have := reads_cls (x := x) false [a, b] (by simp)
    (by intro c hc; simp only [List.mem_cons, List.not_mem_nil, or_false] at hc; rcases hc with rfl | rfl <;> assumption)
    (by simp [ha2, ha3]) '!' (Or.inl rfl)
  simpa [clsRanges] using this

/-- `*` and `?` on their own. -/
theorem reads_wild (k : Char) (hk : k = '*' ∨ k = '?') : GReads x [k] [pendGlob k] := by
  refine ⟨by rcases hk with rfl | rfl <;> simp, ?_⟩
  intro st hs
  have h1 : gstep x st k = some ⟨st.flush.frames, st.flush.alts, st.flush.cur, .pend k⟩ := by
    rw [gstep_flush hs (Or.inl (by rcases hk with rfl | rfl <;> decide))]
    rcases hk with rfl | rfl <;> rfl
  refine ⟨⟨st.flush.frames, st.flush.alts, st.flush.cur, .pend k⟩, ?_, Or.inr ⟨k, rfl⟩, ?_⟩
  · rw [gread_cons, h1]; rfl
  · have := flush_open hs
    cases hst : st.flush with
    | mk f a cu m =>
      rw [hst] at this
      simp only at this
      subst this
      rfl

end CC
