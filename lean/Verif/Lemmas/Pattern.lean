import Verif.Model.Pattern
import Verif.Spec.GlobConv
import Verif.Lemmas.Regex
/-!
# From the text of a Bash glob to what the converter parsed
-/

namespace CC

/-! ## The lexer -/

/-- The text of a literal without quotes, and what follows it. -/
def RunOk : Str → Str → Prop
  | [], _ => True
  | c :: cs, rest => c ∉ S "*?[])|\"'" ∧ (extPre c = true → (cs ++ rest).head? ≠ some '(') ∧ RunOk cs rest

/-- A token, its text and the text that follows. -/
inductive LexPiece : PTok → Str → Str → Prop where
  | ext {k : Char} {rest : Str} : extPre k = true → LexPiece (.tok [k, '(']) [k, '('] rest
  | punct {c : Char} {rest : Str} : c ∈ S "[])?!*|" → (extPre c = true → rest.head? ≠ some '(') → LexPiece (.tok [c]) [c] rest
  | sq {s rest : Str} : '\'' ∉ s → LexPiece (.lit s) ('\'' :: (s ++ ['\''])) rest
  | dq {s rest : Str} : '"' ∉ s → LexPiece (.lit s) ('"' :: (s ++ ['"'])) rest
  | run {a rest : Str} : a ≠ [] → a.head? ≠ some '!' → RunOk a rest → LexPiece (.lit a) a rest

/-- A text and its tokens. -/
inductive LexTo : Str → List PTok → Prop where
  | nil : LexTo [] []
  | cons {t : PTok} {p r : Str} {ts : List PTok} : LexPiece t p r → LexTo r ts → LexTo (p ++ r) (t :: ts)

theorem takeSingle_ok {t s r : Str} (h : takeSingle t = .ok (s, r)) : t = s ++ '\'' :: r ∧ '\'' ∉ s := by
  induction t generalizing s r with
  | nil => cases h
  | cons c cs ih =>
    unfold takeSingle at h
    by_cases hc : c = '\''
    · rw [if_pos hc] at h; cases h; simp [hc]
    · rw [if_neg hc] at h
      split at h
      · rename_i s1 r1 h1
        cases h
        obtain ⟨e, hn⟩ := ih h1
        refine ⟨by rw [e]; rfl, ?_⟩
        simp only [List.mem_cons, not_or]
        exact ⟨fun e => hc e.symm, hn⟩
      · cases h

theorem takeDouble_ok {t s r : Str} (hb : '\\' ∉ t) (h : takeDouble t = .ok (s, r)) : t = s ++ '"' :: r ∧ '"' ∉ s := by
  induction t generalizing s r with
  | nil => cases h
  | cons c cs ih =>
    simp only [List.mem_cons, not_or] at hb
    unfold takeDouble at h
    rw [if_neg (fun e => hb.1 e.symm)] at h
    by_cases hc : c = '"'
    · rw [if_pos hc] at h; cases h; simp [hc]
    · rw [if_neg hc] at h
      split at h
      · rename_i s1 r1 h1
        cases h
        obtain ⟨e, hn⟩ := ih hb.2 h1
        refine ⟨by rw [e]; rfl, ?_⟩
        simp only [List.mem_cons, not_or]
        exact ⟨fun e => hc e.symm, hn⟩
      · cases h

theorem takeLit_ok (t : Str) : t = (takeLit t).1 ++ (takeLit t).2 ∧ RunOk (takeLit t).1 (takeLit t).2 := by
  induction t with
  | nil => exact ⟨rfl, trivial⟩
  | cons c cs ih =>
    unfold takeLit
    by_cases h : endsLiteral c cs = true
    · rw [if_pos h]; exact ⟨rfl, trivial⟩
    · rw [if_neg h]
      refine ⟨by simp only [List.cons_append]; rw [← ih.1], ?_, ?_, ih.2⟩
      · intro hm
        apply h
        unfold endsLiteral
        rw [Bool.or_eq_true]; right
        simpa using hm
      · intro hp hh
        apply h
        unfold endsLiteral
        rw [Bool.or_eq_true]; left
        rw [hp, ih.1, hh]; rfl

theorem lexGlobTok_ok {c : Char} {cs r : Str} {t : PTok} (hb : '\\' ∉ c :: cs) (h : lexGlobTok c cs = .ok (t, r)) :
    ∃ p, c :: cs = p ++ r ∧ LexPiece t p r := by
  unfold lexGlobTok at h
  by_cases h1 : (extPre c && cs.head? == some '(') = true
  · rw [if_pos h1] at h
    rw [Bool.and_eq_true, beq_iff_eq] at h1
    cases h
    cases cs with
    | nil => simp at h1
    | cons d ds =>
      simp only [List.head?_cons, Option.some.injEq] at h1
      obtain ⟨hk, rfl⟩ := h1
      exact ⟨[c, '('], rfl, .ext hk⟩
  · rw [if_neg h1] at h
    have hnp : extPre c = true → cs.head? ≠ some '(' := fun hp hh => h1 (by rw [hp, hh]; rfl)
    by_cases h2 : (S "[])?!*|").contains c = true
    · rw [if_pos h2] at h
      cases h
      exact ⟨[c], rfl, .punct (by simpa using h2) hnp⟩
    · rw [if_neg h2] at h
      by_cases h3 : c = '"'
      · rw [if_pos h3] at h
        split at h
        · rename_i s r1 hs
          cases h
          obtain ⟨e, hn⟩ := takeDouble_ok (fun hm => hb (List.mem_cons_of_mem _ hm)) hs
          exact ⟨'"' :: (s ++ ['"']), by rw [h3, e]; simp, .dq hn⟩
        · cases h
      · rw [if_neg h3] at h
        by_cases h4 : c = '\''
        · rw [if_pos h4] at h
          split at h
          · rename_i s r1 hs
            cases h
            obtain ⟨e, hn⟩ := takeSingle_ok hs
            exact ⟨'\'' :: (s ++ ['\'']), by rw [h4, e]; simp, .sq hn⟩
          · cases h
        · rw [if_neg h4] at h
          cases h
          have hl := takeLit_ok cs
          refine ⟨c :: (takeLit cs).1, by rw [List.cons_append, ← hl.1], .run (by simp) ?_ ⟨?_, ?_, hl.2⟩⟩
          · intro e
            simp only [List.head?_cons, Option.some.injEq] at e
            subst e
            exact h2 rfl
          · simp only [S, String.reduceToList, List.contains_eq_mem, List.mem_cons, List.not_mem_nil, or_false,
              decide_eq_true_eq, not_or] at h2
            simp only [S, String.reduceToList, List.mem_cons, List.not_mem_nil, or_false, not_or]
            simp [h2, h3, h4]
          · rw [← hl.1]; exact hnp

theorem lexGlobN_ok (n : Nat) {s : Str} {ts : List PTok} (hb : '\\' ∉ s) (h : lexGlobN n s = .ok ts) : LexTo s ts := by
  induction n generalizing s ts with
  | zero => cases s with
    | nil => cases h; exact .nil
    | cons c cs => cases h
  | succ n ih => cases s with
    | nil => cases h; exact .nil
    | cons c cs =>
      unfold lexGlobN at h
      split at h
      · cases h
      · rename_i t r ht
        obtain ⟨p, e, hp⟩ := lexGlobTok_ok hb ht
        split at h
        · cases h
        · rename_i ts' hts
          cases h
          rw [e]
          refine .cons hp (ih ?_ hts)
          intro hm
          apply hb
          rw [e]
          exact List.mem_append_right _ hm

/-! ## Reading pieces of the text -/

/-- An opening parenthesis does not turn a pending character into an extended glob. -/
def Sep (st : GState) (t : Str) : Prop := ∀ k, st.mode = .pend k → t.head? ≠ some '('

theorem gplain_pend {x : GlobCtx} {st st' : GState} {c k : Char} (hst : st.mode = .plain) (h : gplain x st c = some st')
    (hk : st'.mode = .pend k) : extPre c = true := by
  unfold gplain at h
  repeat' split at h
  all_goals first
    | (cases h; done)
    | (cases h; simp only [hst] at hk; cases hk; done)
    | (cases h; rename_i hc; cases hk; rcases hc with rfl | rfl | rfl | rfl | rfl <;> rfl)
    | (cases h; cases hk; done)

theorem gstep_pend {x : GlobCtx} {st st' : GState} {c k : Char} (h : gstep x st c = some st') (hk : st'.mode = .pend k) :
    extPre c = true := by
  unfold gstep at h
  split at h
  · exact gplain_pend (by assumption) h hk
  · rename_i k' hm
    split at h
    · cases h; cases hk
    · exact gplain_pend (by simp [GState.flush, hm]) h hk
  all_goals
    try unfold gcls at h
    repeat' split at h
    all_goals first
      | (cases h; done)
      | (cases h; cases hk; done)
      | (cases h; simp_all; done)

/-- The last character of a piece of text cannot start an extended glob. -/
def EndOk (p t : Str) : Prop := ∃ q c, p = q ++ [c] ∧ (extPre c = true → t.head? ≠ some '(')

theorem sep_after {x : GlobCtx} {st st' : GState} {p t : Str} (h : gread x st p = some st') (he : EndOk p t) : Sep st' t := by
  obtain ⟨q, c, rfl, hc⟩ := he
  rw [gread_append] at h
  intro k hk
  cases hq : gread x st q with
  | none => rw [hq] at h; cases h
  | some s1 =>
    rw [hq, Option.bind_some, gread_cons] at h
    cases hs : gstep x s1 c with
    | none => rw [hs] at h; cases h
    | some s2 =>
      rw [hs] at h
      cases h
      exact hc (gstep_pend hs hk)

theorem reads_sq_aux {x : GlobCtx} (s : Str) (h : '\'' ∉ s) (f a cu) :
    gread x ⟨f, a, cu, .sq⟩ (s ++ ['\'']) = some ⟨f, a, cu ++ s.map .lit, .plain⟩ := by
  induction s generalizing cu with
  | nil => simp [gread, gstep]
  | cons c s ih =>
    simp only [List.mem_cons, not_or] at h
    have h1 : gstep x ⟨f, a, cu, .sq⟩ c = some ⟨f, a, cu ++ [.lit c], .sq⟩ := by
      simp only [gstep]; rw [if_neg (fun e => h.1 e.symm)]
    rw [List.cons_append, gread_cons, h1, Option.bind_some, ih h.2]
    simp

theorem reads_dq_aux {x : GlobCtx} (s : Str) (h : ∀ c ∈ s, c ≠ '"' ∧ c ≠ '\\' ∧ c ≠ '$' ∧ c ≠ '`') (f a cu) :
    gread x ⟨f, a, cu, .dq⟩ (s ++ ['"']) = some ⟨f, a, cu ++ s.map .lit, .plain⟩ := by
  induction s generalizing cu with
  | nil => simp [gread, gstep]
  | cons c s ih =>
    have hc := h c (by simp)
    have h1 : gstep x ⟨f, a, cu, .dq⟩ c = some ⟨f, a, cu ++ [.lit c], .dq⟩ := by
      simp [gstep, hc]
    rw [List.cons_append, gread_cons, h1, Option.bind_some, ih (fun d hd => h d (by simp [hd]))]
    simp

theorem gstate_eta {st : GState} (h : st.mode = .plain) : st = ⟨st.frames, st.alts, st.cur, .plain⟩ := by
  cases st; simp_all

theorem reads_of_step {x : GlobCtx} {t : Str} {gs : List Glob} (hne : t ≠ []) (hh : t.head? ≠ some '(')
    (h : ∀ f a cu, gread x ⟨f, a, cu, .plain⟩ t = some ⟨f, a, cu ++ gs, .plain⟩) : GReads x t gs := by
  refine ⟨fun _ => hh, ?_⟩
  intro st hs
  have hp := flush_open hs
  refine ⟨{ st.flush with cur := st.flush.cur ++ gs }, ?_, Or.inl hp, flush_of_plain hp⟩
  cases t with
  | nil => exact absurd rfl hne
  | cons c t =>
    have e : gread x st (c :: t) = gread x st.flush (c :: t) := by
      rw [gread_cons, gread_cons, gstep_flush hs (Or.inl (by simpa using hh)),
        gstep_flush (flush_open' hs) (Or.inl (by simpa using hh)), flush_of_plain hp]
    rw [e, gstate_eta hp, h]

theorem reads_sq {x : GlobCtx} {s : Str} (h : '\'' ∉ s) : GReads x ('\'' :: (s ++ ['\''])) (s.map .lit) := by
  refine reads_of_step (by simp) (by simp) ?_
  intro f a cu
  rw [gread_cons]
  have : gstep x ⟨f, a, cu, .plain⟩ '\'' = some ⟨f, a, cu, .sq⟩ := rfl
  rw [this, Option.bind_some, reads_sq_aux s h]

theorem reads_dq {x : GlobCtx} {s : Str} (h : ∀ c ∈ s, c ≠ '"' ∧ c ≠ '\\' ∧ c ≠ '$' ∧ c ≠ '`') :
    GReads x ('"' :: (s ++ ['"'])) (s.map .lit) := by
  refine reads_of_step (by simp) (by simp) ?_
  intro f a cu
  rw [gread_cons]
  have : gstep x ⟨f, a, cu, .plain⟩ '"' = some ⟨f, a, cu, .dq⟩ := rfl
  rw [this, Option.bind_some, reads_dq_aux s h]

/-- A double-quoted text that can be read has no expansions in it. -/
theorem dq_plain {x : GlobCtx} (s r : Str) (hq : '"' ∉ s) (hb : '\\' ∉ s) (f a cu) {fin : GState}
    (h : gread x ⟨f, a, cu, .dq⟩ (s ++ r) = some fin) : ∀ c ∈ s, c ≠ '"' ∧ c ≠ '\\' ∧ c ≠ '$' ∧ c ≠ '`' := by
  induction s generalizing cu with
  | nil => simp
  | cons c s ih =>
    simp only [List.mem_cons, not_or] at hq hb
    rw [List.cons_append, gread_cons] at h
    by_cases hx : c = '$' ∨ c = '`'
    · have : gstep x ⟨f, a, cu, .dq⟩ c = none := by
        rcases hx with rfl | rfl <;> rfl
      rw [this] at h; cases h
    · have h1 : gstep x ⟨f, a, cu, .dq⟩ c = some ⟨f, a, cu ++ [.lit c], .dq⟩ := by
        simp only [not_or] at hx
        simp only [gstep]
        rw [if_neg (fun e => hq.1 e.symm), if_neg (fun e => hb.1 e.symm), if_neg (by simp [hx])]
      rw [h1, Option.bind_some] at h
      simp only [not_or] at hx
      intro d hd
      simp only [List.mem_cons] at hd
      rcases hd with rfl | hd
      · exact ⟨fun e => hq.1 e.symm, fun e => hb.1 e.symm, hx.1, hx.2⟩
      · exact ih hq.2 hb.2 _ h d hd

/-- A run of literal characters that Bash reads. -/
theorem globRun_reads (a r : Str) (ho : RunOk a r) (hb : '\\' ∉ a) (st : GState) (hs : st.open_) (hsep : Sep st (a ++ r))
    {fin : GState} (h : gread bashGlob st (a ++ r) = some fin) : GReads bashGlob a (a.map .lit) := by
  induction a generalizing st with
  | nil => exact reads_nil
  | cons c a ih =>
    obtain ⟨hc, hp, ho'⟩ := ho
    simp only [S, String.reduceToList, List.mem_cons, List.not_mem_nil, or_false, not_or] at hc
    simp only [List.mem_cons, not_or] at hb
    have hparen : c ≠ '(' := by
      intro e
      subst e
      rcases hs with hm | ⟨k, hm⟩
      · rw [List.cons_append, gread_cons] at h
        have : gstep bashGlob st '(' = none := by simp [gstep, hm, gplain, bashGlob]
        rw [this] at h; cases h
      · exact hsep k hm rfl
    have hlit : LitChar bashGlob c := by
      refine ⟨?_, ?_⟩
      · simp only [S, String.reduceToList, List.mem_cons, List.not_mem_nil, or_false, not_or]
        have hb1 : c ≠ '\\' := fun e => hb.1 e.symm
        simp [hc, hparen, hb1]
      · cases hsp : bashGlob.special c with
        | false => rfl
        | true =>
          rw [List.cons_append, gread_cons, gstep_flush hs (Or.inl hparen)] at h
          have hd : c = '$' ∨ c = '`' := by simpa [bashGlob, S] using hsp
          have : gplain bashGlob st.flush c = none := by rcases hd with rfl | rfl <;> rfl
          rw [this] at h; cases h
    have h1 := reads_lit hlit
    obtain ⟨s1, r1, o1, _⟩ := h1.2 st hs
    have hsep1 : Sep s1 (a ++ r) := sep_after r1 ⟨[], c, rfl, hp⟩
    have h2 : gread bashGlob s1 (a ++ r) = some fin := by
      have : (c :: a) ++ r = [c] ++ (a ++ r) := rfl
      rw [this, gread_append, r1, Option.bind_some] at h
      exact h
    have := reads_append h1 (ih ho' hb.2 s1 o1 hsep1 h2)
    simpa using this

/-! ## Brackets -/

/-- The text in brackets adds the given characters, each with a flag telling whether it is quoted. -/
def ClsReads (x : GlobCtx) (t : Str) (ad : List (Char × Bool)) : Prop :=
  ∀ f a cu neg acc, gread x ⟨f, a, cu, .cls neg acc⟩ t = some ⟨f, a, cu, .cls neg (acc ++ ad)⟩

theorem clsReads_nil {x : GlobCtx} : ClsReads x [] [] := by intro f a cu neg acc; simp [gread]

theorem clsReads_append {x : GlobCtx} {t u : Str} {ad bd : List (Char × Bool)} (h1 : ClsReads x t ad) (h2 : ClsReads x u bd) :
    ClsReads x (t ++ u) (ad ++ bd) := by
  intro f a cu neg acc
  rw [gread_append, h1, Option.bind_some, h2, List.append_assoc]

theorem clsReads_chars {x : GlobCtx} {s : Str} (h : ∀ c ∈ s, ClsChar x c) : ClsReads x s (s.map (fun c => (c, false))) :=
  fun f a cu neg acc => gread_cls s h f a cu neg acc

theorem clsReads_sq {x : GlobCtx} {s : Str} (h : '\'' ∉ s) :
    ClsReads x ('\'' :: (s ++ ['\''])) (s.map (fun c => (c, true))) := by
  intro f a cu neg acc
  have aux : ∀ acc, gread x ⟨f, a, cu, .clsSq neg acc⟩ (s ++ ['\'']) = some ⟨f, a, cu, .cls neg (acc ++ s.map (fun c => (c, true)))⟩ := by
    induction s with
    | nil => intro acc; simp [gread, gstep]
    | cons c s ih =>
      intro acc
      simp only [List.mem_cons, not_or] at h
      have h1 : gstep x ⟨f, a, cu, .clsSq neg acc⟩ c = some ⟨f, a, cu, .clsSq neg (acc ++ [(c, true)])⟩ := by
        simp only [gstep]; rw [if_neg (fun e => h.1 e.symm)]
      rw [List.cons_append, gread_cons, h1, Option.bind_some, ih h.2]
      simp
  rw [gread_cons]
  have : gstep x ⟨f, a, cu, .cls neg acc⟩ '\'' = some ⟨f, a, cu, .clsSq neg acc⟩ := by simp [gstep, gcls]
  rw [this, Option.bind_some, aux]

theorem clsReads_dq {x : GlobCtx} {s : Str} (h : ∀ c ∈ s, c ≠ '"' ∧ c ≠ '\\' ∧ c ≠ '$' ∧ c ≠ '`') :
    ClsReads x ('"' :: (s ++ ['"'])) (s.map (fun c => (c, true))) := by
  intro f a cu neg acc
  have aux : ∀ acc, gread x ⟨f, a, cu, .clsDq neg acc⟩ (s ++ ['"']) = some ⟨f, a, cu, .cls neg (acc ++ s.map (fun c => (c, true)))⟩ := by
    induction s with
    | nil => intro acc; simp [gread, gstep]
    | cons c s ih =>
      intro acc
      have hc := h c (by simp)
      have h1 : gstep x ⟨f, a, cu, .clsDq neg acc⟩ c = some ⟨f, a, cu, .clsDq neg (acc ++ [(c, true)])⟩ := by
        simp [gstep, hc]
      rw [List.cons_append, gread_cons, h1, Option.bind_some, ih (fun d hd => h d (by simp [hd]))]
      simp
  rw [gread_cons]
  have : gstep x ⟨f, a, cu, .cls neg acc⟩ '"' = some ⟨f, a, cu, .clsDq neg acc⟩ := by simp [gstep, gcls]
  rw [this, Option.bind_some, aux]

theorem clsDq_plain {x : GlobCtx} (s r : Str) (hq : '"' ∉ s) (f a cu neg acc) {fin : GState}
    (h : gread x ⟨f, a, cu, .clsDq neg acc⟩ (s ++ r) = some fin) : ∀ c ∈ s, c ≠ '"' ∧ c ≠ '\\' ∧ c ≠ '$' ∧ c ≠ '`' := by
  induction s generalizing acc with
  | nil => simp
  | cons c s ih =>
    simp only [List.mem_cons, not_or] at hq
    rw [List.cons_append, gread_cons] at h
    by_cases hx : c = '$' ∨ c = '`' ∨ c = '\\'
    · have : gstep x ⟨f, a, cu, .clsDq neg acc⟩ c = none := by
        rcases hx with rfl | rfl | rfl <;> rfl
      rw [this] at h; cases h
    · have h1 : gstep x ⟨f, a, cu, .clsDq neg acc⟩ c = some ⟨f, a, cu, .clsDq neg (acc ++ [(c, true)])⟩ := by
        simp only [gstep]
        rw [if_neg (fun e => hq.1 e.symm), if_neg hx]
      rw [h1, Option.bind_some] at h
      simp only [not_or] at hx
      intro d hd
      simp only [List.mem_cons] at hd
      rcases hd with rfl | hd
      · exact ⟨fun e => hq.1 e.symm, hx.2.2, hx.1, hx.2.1⟩
      · exact ih hq.2 _ h d hd

/-- Unquoted text in brackets that Bash reads. -/
theorem clsRun_reads (s r : Str) (hs : ∀ c ∈ s, c ≠ ']' ∧ c ≠ '"' ∧ c ≠ '\'' ∧ c ≠ '\\') (f a cu neg acc) {fin : GState}
    (h : gread bashGlob ⟨f, a, cu, .cls neg acc⟩ (s ++ r) = some fin) : ∀ c ∈ s, ClsChar bashGlob c := by
  induction s generalizing acc with
  | nil => simp
  | cons c s ih =>
    have hc := hs c (by simp)
    rw [List.cons_append, gread_cons] at h
    cases hsp : bashGlob.clsSpecial c with
    | true =>
      have : gstep bashGlob ⟨f, a, cu, .cls neg acc⟩ c = none := by simp [gstep, gcls, hc, hsp]
      rw [this] at h; cases h
    | false =>
      have h1 : gstep bashGlob ⟨f, a, cu, .cls neg acc⟩ c = some ⟨f, a, cu, .cls neg (acc ++ [(c, false)])⟩ := by
        simp [gstep, gcls, hc, hsp]
      rw [h1, Option.bind_some] at h
      intro d hd
      simp only [List.mem_cons] at hd
      rcases hd with rfl | hd
      · exact ⟨by simp [S, hc], hsp⟩
      · exact ih (fun e he => hs e (by simp [he])) _ h d hd

theorem runOk_chars {a r : Str} (h : RunOk a r) : ∀ c ∈ a, c ∉ S "*?[])|\"'" := by
  induction a with
  | nil => simp
  | cons c a ih =>
    intro d hd
    simp only [List.mem_cons] at hd
    rcases hd with rfl | hd
    · exact h.1
    · exact ih h.2.2 d hd

theorem extPre_mem {k : Char} (h : extPre k = true) : k = '@' ∨ k = '*' ∨ k = '+' ∨ k = '?' ∨ k = '!' := by
  simpa [extPre, S] using h

/-- One token in brackets, other than the closing bracket. -/
theorem clsPiece_reads {t : PTok} {p r : Str} (hp : LexPiece t p r) (hne : t ≠ .tok [']']) (hb : '\\' ∉ p) (f a cu neg acc) {fin : GState}
    (h : gread bashGlob ⟨f, a, cu, .cls neg acc⟩ (p ++ r) = some fin) :
    ∃ ad, ClsReads bashGlob p ad ∧ t.str = ad.map (·.1) ∧ (∀ q ∈ ad, q.2 = true → '\'' ∈ p ∨ '"' ∈ p) := by
  have unq : ∀ s : Str, (∀ c ∈ s, c ≠ ']' ∧ c ≠ '"' ∧ c ≠ '\'' ∧ c ≠ '\\') →
      gread bashGlob ⟨f, a, cu, .cls neg acc⟩ (s ++ r) = some fin →
      ∃ ad, ClsReads bashGlob s ad ∧ s = ad.map (·.1) ∧ (∀ q ∈ ad, q.2 = true → '\'' ∈ s ∨ '"' ∈ s) := by
    intro s hs hg
    refine ⟨_, clsReads_chars (clsRun_reads s r hs f a cu neg acc hg), by simp [List.map_map, Function.comp_def], ?_⟩
    intro q hq
    obtain ⟨c, _, rfl⟩ := List.mem_map.1 hq
    intro e; cases e
  cases hp with
  | ext hk =>
    refine unq _ ?_ h
    rcases extPre_mem hk with rfl | rfl | rfl | rfl | rfl <;> simp
  | @punct c _ hc _ =>
    refine unq _ ?_ h
    have h1 : c ≠ ']' := fun e => hne (by rw [e])
    simp only [S, String.reduceToList, List.mem_cons, List.not_mem_nil, or_false] at hc
    intro d hd
    simp only [List.mem_cons, List.not_mem_nil, or_false] at hd
    subst hd
    rcases hc with rfl | rfl | rfl | rfl | rfl | rfl | rfl <;> simp_all
  | @sq s _ hs =>
    exact ⟨_, clsReads_sq hs, by simp [PTok.str, List.map_map, Function.comp_def], by simp⟩
  | @dq s _ hs =>
    have hg : gread bashGlob ⟨f, a, cu, .clsDq neg acc⟩ (s ++ '"' :: r) = some fin := by
      simp only [List.cons_append, List.append_assoc, List.nil_append, gread_cons] at h
      exact h
    exact ⟨_, clsReads_dq (clsDq_plain s _ hs f a cu neg acc hg), by simp [PTok.str, List.map_map, Function.comp_def], by simp⟩
  | run _ _ ho =>
    refine unq _ ?_ h
    intro d hd
    have := runOk_chars ho d hd
    simp only [S, String.reduceToList, List.mem_cons, List.not_mem_nil, or_false, not_or] at this
    exact ⟨this.2.2.2.1, by simp [this], by simp [this], fun e => hb (e ▸ hd)⟩

theorem lexPiece_str {t : PTok} {p r : Str} (h : LexPiece t p r) : ∀ c ∈ t.str, c ∈ p := by
  cases h <;> simp +contextual [PTok.str]

theorem clsLoop_reads (ts : List PTok) {t : Str} {chars chars' : Str} {rest : List PTok} (hl : LexTo t ts) (hb : '\\' ∉ t)
    (hp : parseClsLoop ts chars = .ok (chars', rest)) (f a cu neg acc) {fin : GState}
    (h : gread bashGlob ⟨f, a, cu, .cls neg acc⟩ t = some fin) :
    ∃ p t2 ad, t = p ++ ']' :: t2 ∧ LexTo t2 rest ∧ ClsReads bashGlob p ad ∧ chars' = chars ++ ad.map (·.1) ∧
      acc ++ ad ≠ [] ∧ (∀ q ∈ ad, q.2 = true → '\'' ∈ p ∨ '"' ∈ p) ∧ (∀ q ∈ ad, q.1 ∈ p) := by
  induction ts generalizing t chars acc with
  | nil => cases hp
  | cons tk ts ih =>
    cases hl with
    | @cons _ p r _ hpc hl' =>
      unfold parseClsLoop at hp
      by_cases ht : tk = .tok [']']
      · rw [if_pos ht] at hp
        cases hp
        subst ht
        cases hpc with
        | punct hc hn =>
          refine ⟨[], r, [], rfl, hl', clsReads_nil, by simp, ?_, by simp, by simp⟩
          intro e
          simp only [List.append_nil] at e
          subst e
          rw [List.cons_append, gread_cons] at h
          have : gstep bashGlob ⟨f, a, cu, .cls neg []⟩ ']' = none := by
            simp [gstep, gcls, bashGlob, S]
          rw [this] at h; cases h
      · rw [if_neg ht] at hp
        obtain ⟨ad, hr, he, hfl⟩ := clsPiece_reads hpc ht (fun hm => hb (List.mem_append_left _ hm)) f a cu neg acc h
        rw [gread_append, hr, Option.bind_some] at h
        obtain ⟨p2, t2, ad2, e2, hl2, hr2, hc2, hne2, hfl2, hm2⟩ := ih hl' (fun hm => hb (List.mem_append_right _ hm)) hp _ h
        refine ⟨p ++ p2, t2, ad ++ ad2, by rw [e2]; simp, hl2, clsReads_append hr hr2, ?_, by simpa using hne2, ?_, ?_⟩
        · rw [hc2, he]; simp
        · intro q hq hq2
          rcases List.mem_append.1 hq with hq | hq
          · rcases hfl q hq hq2 with h1 | h1
            · exact Or.inl (List.mem_append_left _ h1)
            · exact Or.inr (List.mem_append_left _ h1)
          · rcases hfl2 q hq hq2 with h1 | h1
            · exact Or.inl (List.mem_append_right _ h1)
            · exact Or.inr (List.mem_append_right _ h1)
        · intro q hq
          rcases List.mem_append.1 hq with hq | hq
          · apply List.mem_append_left
            apply lexPiece_str hpc
            rw [he]
            exact List.mem_map_of_mem hq
          · exact List.mem_append_right _ (hm2 q hq)

theorem lexPiece_ne {t : PTok} {p r : Str} (h : LexPiece t p r) : p ≠ [] := by
  cases h <;> simp_all

/-- A bracket expression. -/
theorem cls_reads {ts : List PTok} {t : Str} {pat : Pat} {rest : List PTok} (hl : LexTo t ts) (hb : '\\' ∉ t) (hc : '^' ∉ t)
    (hn : ¬ S "!(" <+: t) (hp : parseCls ts = .ok (pat, rest)) (f a cu) {fin : GState}
    (h : gread bashGlob ⟨f, a, cu, .clsOpen⟩ t = some fin) :
    ∃ neg p t2 ad, pat = .cls (ad.map (·.1)) neg ∧ t = p ++ [']'] ++ t2 ∧ LexTo t2 rest ∧
      GReads bashGlob ('[' :: (p ++ [']'])) [.cls neg (clsRanges ad)] ∧ ad ≠ [] ∧
      (∀ q ∈ ad, q.2 = true → '\'' ∈ p ∨ '"' ∈ p) ∧ (∀ q ∈ ad, q.1 ∈ p) := by
  have close : ∀ (ad : List (Char × Bool)) (neg : Bool) (p : Str), ad ≠ [] →
      (∀ f a cu, gread bashGlob ⟨f, a, cu, .clsOpen⟩ p = some ⟨f, a, cu, .cls neg ad⟩) →
      GReads bashGlob ('[' :: (p ++ [']'])) [.cls neg (clsRanges ad)] := by
    intro ad neg p hne hg
    refine reads_of_step (by simp) (by simp) ?_
    intro f a cu
    have e1 : gstep bashGlob ⟨f, a, cu, .plain⟩ '[' = some ⟨f, a, cu, .clsOpen⟩ := rfl
    have e2 : gstep bashGlob ⟨f, a, cu, .cls neg ad⟩ ']' = some ⟨f, a, cu ++ [.cls neg (clsRanges ad)], .plain⟩ := by
      simp [gstep, gcls, hne]
    rw [gread_cons, e1, Option.bind_some, gread_append, hg, Option.bind_some, gread_cons, e2]
    rfl
  cases hl with
  | nil => cases hp
  | @cons tk p r ts hpc hl' =>
    have opens : ∀ (p r : Str), p ≠ [] → p.head? ≠ some '!' → p.head? ≠ some '^' → ∀ f a cu,
        gread bashGlob ⟨f, a, cu, .clsOpen⟩ (p ++ r) = gread bashGlob ⟨f, a, cu, .cls false []⟩ (p ++ r) := by
      intro p r h1 h2 h3 f a cu
      cases p with
      | nil => exact absurd rfl h1
      | cons c p =>
        simp only [List.head?_cons, ne_eq, Option.some.injEq] at h2 h3
        have : gstep bashGlob ⟨f, a, cu, .clsOpen⟩ c = gstep bashGlob ⟨f, a, cu, .cls false []⟩ c := by
          simp [gstep, h2, h3, gcls]
        rw [List.cons_append, gread_cons, gread_cons, this]
    unfold parseCls at hp
    simp only at hp
    by_cases h1 : tk = .tok ['!']
    · rw [if_pos h1] at hp
      subst h1
      have hp0 : p = ['!'] := by cases hpc with | punct _ _ => rfl
      subst hp0
      split at hp
      · rename_i chars rest' hloop
        cases hp
        rw [List.cons_append, List.nil_append, gread_cons] at h
        have e0 : ∀ f a cu, gstep bashGlob ⟨f, a, cu, .clsOpen⟩ '!' = some ⟨f, a, cu, .cls true []⟩ := fun _ _ _ => rfl
        rw [e0, Option.bind_some] at h
        obtain ⟨p2, t2, ad, e2, hl2, hr2, hc2, hne2, hfl2, hm2⟩ :=
          clsLoop_reads ts hl' (fun hm => hb (by simp [hm])) hloop f a cu true [] h
        simp only [List.nil_append] at hne2 hc2
        refine ⟨true, '!' :: p2, t2, ad, by rw [hc2], by rw [e2]; simp, hl2, close ad true _ hne2 ?_, hne2, ?_, ?_⟩
        · intro f a cu
          rw [gread_cons, e0, Option.bind_some, hr2, List.nil_append]
        · intro q hq hq2
          rcases hfl2 q hq hq2 with h1 | h1
          · exact Or.inl (List.mem_cons_of_mem _ h1)
          · exact Or.inr (List.mem_cons_of_mem _ h1)
        · intro q hq; exact List.mem_cons_of_mem _ (hm2 q hq)
      · cases hp
    · rw [if_neg h1] at hp
      by_cases h2 : tk = .tok [']']
      · rw [if_pos h2] at hp; cases hp
      · rw [if_neg h2] at hp
        split at hp
        · rename_i chars rest' hloop
          cases hp
          have hloop2 : parseClsLoop (tk :: ts) [] = .ok (chars, rest) := by
            unfold parseClsLoop
            rw [if_neg h2]
            exact hloop
          have hne := lexPiece_ne hpc
          have hhead : p.head? ≠ some '!' := by
            intro e
            cases hpc with
            | ext hk =>
              simp only [List.head?_cons, Option.some.injEq] at e
              subst e
              exact hn ⟨r, rfl⟩
            | punct _ _ =>
              simp only [List.head?_cons, Option.some.injEq] at e
              subst e
              exact h1 rfl
            | sq _ => simp at e
            | dq _ => simp at e
            | run _ hx _ => exact hx e
          have hcaret : p.head? ≠ some '^' := by
            intro e
            apply hc
            apply List.mem_append_left
            exact List.mem_of_mem_head? e
          rw [opens p r hne hhead hcaret] at h
          obtain ⟨p2, t2, ad, e2, hl2, hr2, hc2, hne2, hfl2, hm2⟩ :=
            clsLoop_reads (tk :: ts) (.cons hpc hl') hb hloop2 f a cu false [] h
          simp only [List.nil_append] at hne2 hc2
          refine ⟨false, p2, t2, ad, by rw [hc2], by rw [e2]; simp, hl2, close ad false _ hne2 ?_, hne2, hfl2, hm2⟩
          have hp2 : p2 ≠ [] := by
            intro e
            subst e
            have := hr2 f a cu false []
            simp [gread] at this
            exact hne2 this
          have hh : p2.head? = p.head? := by
            cases p with
            | nil => exact absurd rfl hne
            | cons c p => cases p2 with
              | nil => exact absurd rfl hp2
              | cons d p2 =>
                simp only [List.cons_append, List.cons.injEq] at e2
                simp [e2.1]
          intro f a cu
          have := opens p2 [] hp2 (hh ▸ hhead) (hh ▸ hcaret) f a cu
          rw [List.append_nil] at this
          rw [this, hr2, List.nil_append]
        · cases hp

/-! ## The parser -/

mutual
/-- What was parsed, and the elements Bash reads. `Q` holds if there are quotes in the text. -/
def PatG (Q : Prop) : Pat → List Glob → Prop
  | .lit s, gs => gs = s.map .lit ∧ (∀ c ∈ s, c ≠ '\\' ∧ c ≠ '^')
  | .star, gs => gs = [.star]
  | .question, gs => gs = [.any]
  | .cls chars neg, gs => ∃ ad : List (Char × Bool), chars = ad.map (·.1) ∧ gs = [.cls neg (clsRanges ad)] ∧ ad ≠ [] ∧
      (∀ q ∈ ad, q.2 = true → Q) ∧ (∀ q ∈ ad, q.1 ≠ '\\' ∧ q.1 ≠ '^')
  | .ext k alts, gs => ∃ gss, gs = [.ext k gss] ∧ AltsG Q alts gss ∧ alts ≠ []
  | .raw _, _ => False
/-- The same for sequences. -/
def SeqG (Q : Prop) : List Pat → List Glob → Prop
  | [], gs => gs = []
  | p :: ps, gs => ∃ a b, gs = a ++ b ∧ PatG Q p a ∧ SeqG Q ps b
/-- The same for alternatives. -/
def AltsG (Q : Prop) : List (List Pat) → List (List Glob) → Prop
  | [], gss => gss = []
  | a :: as, gss => ∃ g gs, gss = g :: gs ∧ SeqG Q a g ∧ AltsG Q as gs
end

theorem altsG_of {Q : Prop} {as : List (List Pat)} {gss : List (List Glob)} (h : All2 (SeqG Q) as gss) : AltsG Q as gss := by
  induction h with
  | nil => rfl
  | cons h _ ih => exact ⟨_, _, rfl, h, ih⟩

mutual
/-- No token string was returned unchanged. -/
def Pat.Clean : Pat → Prop
  | .ext _ alts => Pat.AltsClean alts
  | .raw _ => False
  | _ => True
/-- The same for sequences. -/
def Pat.SeqClean : List Pat → Prop
  | [] => True
  | p :: ps => p.Clean ∧ Pat.SeqClean ps
/-- The same for alternatives. -/
def Pat.AltsClean : List (List Pat) → Prop
  | [] => True
  | a :: as => Pat.SeqClean a ∧ Pat.AltsClean as
end

theorem seqClean_append {as bs : List Pat} (h : Pat.SeqClean (as ++ bs)) : Pat.SeqClean as ∧ Pat.SeqClean bs := by
  induction as with
  | nil => exact ⟨trivial, h⟩
  | cons a as ih => exact ⟨⟨h.1, (ih h.2).1⟩, (ih h.2).2⟩

theorem altsClean_append {as bs : List (List Pat)} (h : Pat.AltsClean (as ++ bs)) : Pat.AltsClean as ∧ Pat.AltsClean bs := by
  induction as with
  | nil => exact ⟨trivial, h⟩
  | cons a as ih => exact ⟨⟨h.1, (ih h.2).1⟩, (ih h.2).2⟩

theorem parseExt_form (n : Nat) {k : Char} {alts : List (List Pat)} {cur : List Pat} {ts : List PTok} {pat : Pat} {rest : List PTok}
    (h : parseExt n k alts cur ts = .ok (pat, rest)) : ∃ a as, pat = .ext k (alts ++ (cur ++ a) :: as) := by
  induction n generalizing alts cur ts with
  | zero => rw [parseExt.eq_def] at h; cases h
  | succ n ih => cases ts with
    | nil => rw [parseExt.eq_def] at h; cases h
    | cons t ts =>
      rw [parseExt.eq_def] at h
      simp only at h
      by_cases h1 : t = .tok [')']
      · rw [if_pos h1] at h
        cases h
        exact ⟨[], [], by simp⟩
      · rw [if_neg h1] at h
        by_cases h2 : t = .tok ['|']
        · rw [if_pos h2] at h
          obtain ⟨a, as, e⟩ := ih h
          exact ⟨[], a :: as, by rw [e]; simp⟩
        · rw [if_neg h2] at h
          split at h
          · cases h
          · rename_i p0 _ _
            obtain ⟨a, as, e⟩ := ih h
            exact ⟨p0 :: a, as, by rw [e]; simp⟩

/-- The conditions on the text. -/
structure TextOk (Q : Prop) (t : Str) : Prop where
  noBackslash : '\\' ∉ t
  noCaret : '^' ∉ t
  noBang : ¬ S "[!(" <:+: t
  quotes : '\'' ∈ t ∨ '"' ∈ t → Q

theorem TextOk.tail {Q : Prop} {p t : Str} (h : TextOk Q (p ++ t)) : TextOk Q t :=
  ⟨fun hm => h.1 (List.mem_append_right _ hm), fun hm => h.2 (List.mem_append_right _ hm),
    fun hi => h.3 (hi.trans (List.suffix_append p t).isInfix),
    fun hq => h.4 (hq.imp (List.mem_append_right _) (List.mem_append_right _))⟩

theorem isExtToken_of {s : Str} (h : isExtToken s = true) : ∃ k, s = [k, '('] ∧ extPre k = true := by
  unfold isExtToken at h
  split at h
  · exact ⟨_, rfl, h⟩
  · cases h

theorem parse_reads (Q : Prop) (n : Nat) :
    (∀ (tk : PTok) (ts : List PTok) (pat : Pat) (rest : List PTok) (t : Str) (st fin : GState), LexTo t (tk :: ts) →
      parseGlobTok n tk ts = .ok (pat, rest) → pat.Clean → TextOk Q t → st.open_ → Sep st t → gread bashGlob st t = some fin →
      ∃ p t2 gs, t = p ++ t2 ∧ LexTo t2 rest ∧ GReads bashGlob p gs ∧ PatG Q pat gs ∧ EndOk p t2) ∧
    (∀ (k : Char) (alts : List (List Pat)) (cur : List Pat) (ts : List PTok) (pat : Pat) (rest : List PTok) (t : Str) (st fin : GState),
      LexTo t ts → parseExt n k alts cur ts = .ok (pat, rest) → pat.Clean → TextOk Q t → st.open_ → Sep st t →
      gread bashGlob st t = some fin →
      ∃ (a : List Pat) (as : List (List Pat)) (us : List Str) (gss : List (List Glob)) (t2 : Str),
        pat = .ext k (alts ++ (cur ++ a) :: as) ∧ t = joinWith ['|'] us ++ [')'] ++ t2 ∧ All2 (GReads bashGlob) us gss ∧
        All2 (SeqG Q) (a :: as) gss ∧ LexTo t2 rest) := by
  induction n with
  | zero =>
    refine ⟨?_, ?_⟩
    · intro tk ts pat rest t st fin _ h; rw [parseGlobTok.eq_def] at h; cases h
    · intro k alts cur ts pat rest t st fin _ h; rw [parseExt.eq_def] at h; cases h
  | succ n ih =>
    obtain ⟨ihT, ihE⟩ := ih
    refine ⟨?_, ?_⟩
    · intro tk ts pat rest t st fin hl hp hcl hok hs hsep hg
      cases hl with
      | @cons _ p r _ hpc hl' =>
        rw [parseGlobTok.eq_def] at hp
        simp only at hp
        by_cases h1 : tk = .tok ['[']
        · rw [if_pos h1] at hp
          subst h1
          have hp0 : p = ['['] := by cases hpc with | punct _ _ => rfl
          subst hp0
          have hg2 : gread bashGlob ⟨st.flush.frames, st.flush.alts, st.flush.cur, .clsOpen⟩ r = some fin := by
            rw [List.cons_append, List.nil_append, gread_cons, gstep_flush hs (Or.inl (by decide))] at hg
            exact hg
          obtain ⟨neg, p2, t2, ad, e1, e2, hl2, hr2, hne, hfl, hmem⟩ := cls_reads hl' hok.tail.1 hok.tail.2
            (by
              intro hpre
              apply hok.3
              obtain ⟨z, hz⟩ := hpre
              exact ⟨[], z, by rw [← hz]; rfl⟩) hp _ _ _ hg2
          refine ⟨'[' :: (p2 ++ [']']), t2, _, by rw [e2]; simp, hl2, hr2, ?_, '[' :: p2, ']', by simp, fun h => absurd h (by decide)⟩
          rw [e1]
          refine ⟨ad, rfl, rfl, hne, ?_, ?_⟩
          · intro q hq hq2
            apply hok.tail.4
            rw [e2]
            rcases hfl q hq hq2 with h | h
            · exact Or.inl (by simp [h])
            · exact Or.inr (by simp [h])
          · intro q hq
            have hm := hmem q hq
            refine ⟨fun e => hok.tail.1 ?_, fun e => hok.tail.2 ?_⟩
            · rw [e2, ← e]; simp [hm]
            · rw [e2, ← e]; simp [hm]
        · rw [if_neg h1] at hp
          by_cases h2 : (isExtToken tk.str && tk == .tok tk.str) = true
          · rw [if_pos h2] at hp
            rw [Bool.and_eq_true, beq_iff_eq] at h2
            obtain ⟨k, hk, hkp⟩ := isExtToken_of h2.1
            rw [hk] at h2 hp
            have htk := h2.2
            subst htk
            have hp0 : p = [k, '('] := by
              cases hpc with
              | ext _ => rfl
            subst hp0
            have hk5 : k = '@' ∨ k = '*' ∨ k = '?' ∨ k = '+' ∨ k = '!' := by
              rcases extPre_mem hkp with h | h | h | h | h <;> simp [h]
            have e1 : gstep bashGlob st k = some ⟨st.flush.frames, st.flush.alts, st.flush.cur, .pend k⟩ := by
              rw [gstep_flush hs (Or.inl (by rcases hk5 with rfl | rfl | rfl | rfl | rfl <;> decide))]
              rcases hk5 with rfl | rfl | rfl | rfl | rfl <;> rfl
            have e2 : gstep bashGlob ⟨st.flush.frames, st.flush.alts, st.flush.cur, .pend k⟩ '(' =
                some ⟨⟨k, st.flush.alts, st.flush.cur⟩ :: st.flush.frames, [], [], .plain⟩ := by
              simp [gstep, bashGlob]
            have hg2 : gread bashGlob ⟨⟨k, st.flush.alts, st.flush.cur⟩ :: st.flush.frames, [], [], .plain⟩ r = some fin := by
              rw [List.cons_append, List.cons_append, List.nil_append, gread_cons, e1, Option.bind_some, gread_cons, e2] at hg
              exact hg
            obtain ⟨a, as, us, gss, t2, ep, et, hus, hgs, hl2⟩ := ihE k [] [] ts pat rest r _ fin hl' hp hcl hok.tail
              (Or.inl rfl) (by intro k hk; cases hk) hg2
            refine ⟨[k, '('] ++ joinWith ['|'] us ++ [')'], t2, _, by rw [et]; simp, hl2, reads_ext rfl k hk5 us gss hus ?_, ?_,
              [k, '('] ++ joinWith ['|'] us, ')', by simp, fun h => absurd h (by decide)⟩
            · intro e
              subst e
              cases hus
              cases hgs
            · rw [ep]
              exact ⟨gss, rfl, altsG_of hgs, by simp⟩
          · rw [if_neg h2] at hp
            cases hp
            cases hpc with
            | ext hk => exact absurd (by simp [isExtToken, PTok.str, hk]) h2
            | @punct c _ hc hn =>
              have hend : EndOk [c] r := ⟨[], c, rfl, hn⟩
              by_cases hstar : c = '*'
              · subst hstar
                exact ⟨['*'], r, _, rfl, hl', reads_wild '*' (Or.inl rfl), rfl, hend⟩
              · by_cases hq : c = '?'
                · subst hq
                  exact ⟨['?'], r, _, rfl, hl', reads_wild '?' (Or.inr rfl), rfl, hend⟩
                · have : plainToken (.tok [c]) = .raw [c] := by simp [plainToken, hstar, hq]
                  rw [this] at hcl
                  exact absurd hcl id
            | @sq s _ hsq =>
              refine ⟨_, r, _, rfl, hl', reads_sq hsq, ⟨rfl, ?_⟩, '\'' :: s, '\'', by simp, fun h => absurd h (by decide)⟩
              intro c hc
              exact ⟨fun e => hok.1 (by subst e; simp [hc]), fun e => hok.2 (by subst e; simp [hc])⟩
            | @dq s _ hdq =>
              have hg2 : gread bashGlob ⟨st.flush.frames, st.flush.alts, st.flush.cur, .dq⟩ (s ++ '"' :: r) = some fin := by
                simp only [List.cons_append, List.append_assoc, List.nil_append] at hg
                rw [gread_cons, gstep_flush hs (Or.inl (by decide))] at hg
                exact hg
              have hb : '\\' ∉ s := fun hm => hok.1 (by simp [hm])
              refine ⟨_, r, _, rfl, hl', reads_dq (dq_plain s _ hdq hb _ _ _ hg2), ⟨rfl, ?_⟩, '"' :: s, '"', by simp, fun h => absurd h (by decide)⟩
              intro c hc
              exact ⟨fun e => hok.1 (by subst e; simp [hc]), fun e => hok.2 (by subst e; simp [hc])⟩
            | run hne hbang ho =>
              have hb : '\\' ∉ p := fun hm => hok.1 (by simp [hm])
              refine ⟨p, r, _, rfl, hl', globRun_reads p r ho hb st hs hsep hg, ⟨rfl, ?_⟩, ?_⟩
              · intro c hc
                exact ⟨fun e => hok.1 (by subst e; simp [hc]), fun e => hok.2 (by subst e; simp [hc])⟩
              · clear hok hsep hg hb hl' hcl h1 h2 hbang
                induction p with
                | nil => exact absurd rfl hne
                | cons c p ihp =>
                  cases p with
                  | nil => exact ⟨[], c, rfl, by simpa using ho.2.1⟩
                  | cons d p =>
                    obtain ⟨q, e, he, hx⟩ := ihp (by simp) ho.2.2
                    exact ⟨c :: q, e, by rw [he]; rfl, hx⟩
    · intro k alts cur ts pat rest t st fin hl hp hcl hok hs hsep hg
      rw [parseExt.eq_def] at hp
      cases hl with
      | nil => cases hp
      | @cons tk p r ts hpc hl' =>
        simp only at hp
        by_cases h1 : tk = .tok [')']
        · rw [if_pos h1] at hp
          subst h1
          have hp0 : p = [')'] := by cases hpc with | punct _ _ => rfl
          subst hp0
          cases hp
          exact ⟨[], [], [[]], [[]], r, by simp, rfl, .cons reads_nil .nil, .cons rfl .nil, hl'⟩
        · rw [if_neg h1] at hp
          by_cases h2 : tk = .tok ['|']
          · rw [if_pos h2] at hp
            subst h2
            have hp0 : p = ['|'] := by cases hpc with | punct _ _ => rfl
            subst hp0
            have hbar : gstep bashGlob st '|' = some ⟨st.flush.frames, st.flush.alts ++ [st.flush.cur], [], st.flush.mode⟩ := by
              rw [gstep_flush hs (Or.inl (by decide))]
              rfl
            have hg2 : gread bashGlob ⟨st.flush.frames, st.flush.alts ++ [st.flush.cur], [], st.flush.mode⟩ r = some fin := by
              rw [List.cons_append, List.nil_append, gread_cons, hbar] at hg
              exact hg
            obtain ⟨a, as, us, gss, t2, ep, et, hus, hgs, hl2⟩ := ihE k (alts ++ [cur]) [] ts pat rest r
              ⟨st.flush.frames, st.flush.alts ++ [st.flush.cur], [], st.flush.mode⟩ fin hl' hp hcl hok.tail
              (Or.inl (flush_open hs)) (by intro k hk; have hm := flush_open hs; simp only [hm] at hk; cases hk) hg2
            refine ⟨[], a :: as, [] :: us, [] :: gss, t2, by rw [ep]; simp, ?_, .cons reads_nil hus, .cons rfl hgs, hl2⟩
            rw [et]
            cases us with
            | nil => cases hus; cases hgs
            | cons u us => simp [joinWith]
          · rw [if_neg h2] at hp
            split at hp
            · cases hp
            · rename_i p0 r0 hp0
              obtain ⟨a0, as0, ef⟩ := parseExt_form n hp
              have hc0 : p0.Clean := by
                rw [ef] at hcl
                have h := (altsClean_append hcl).2.1
                exact (seqClean_append (seqClean_append h).1).2.1
              obtain ⟨p1, t1, gs, et1, hl1, hr1, hpg, hend⟩ := ihT tk ts p0 r0 _ st fin (.cons hpc hl') hp0 hc0 hok hs hsep hg
              obtain ⟨s1, rr1, o1, _⟩ := hr1.2 st hs
              rw [et1, gread_append, rr1, Option.bind_some] at hg
              rw [et1] at hok
              obtain ⟨a, as, us, gss, t2, ep, et, hus, hgs, hl2⟩ := ihE k alts (cur ++ [p0]) r0 pat rest t1 s1 fin hl1 hp hcl hok.tail
                o1 (sep_after rr1 hend) hg
              cases hus with
              | nil => cases hgs
              | @cons u g us gss hu hus =>
                cases hgs with
                | cons hg1 hgs =>
                  refine ⟨p0 :: a, as, (p1 ++ u) :: us, (gs ++ g) :: gss, t2, by rw [ep]; simp, ?_,
                    .cons (reads_append hr1 hu) hus, .cons ⟨gs, g, rfl, hpg, hg1⟩ hgs, hl2⟩
                  rw [et1, et]
                  cases us with
                  | nil => simp [joinWith]
                  | cons v us => simp [joinWith]

theorem parseAll_reads (Q : Prop) (n : Nat) {ts : List PTok} {pats : List Pat} {t : Str} {st fin : GState} (hl : LexTo t ts)
    (hp : parseGlobN n ts = .ok pats) (hcl : Pat.SeqClean pats) (hok : TextOk Q t) (hs : st.open_) (hsep : Sep st t)
    (hg : gread bashGlob st t = some fin) : ∃ gs, GReads bashGlob t gs ∧ SeqG Q pats gs := by
  induction n generalizing ts pats t st with
  | zero => cases hl with
    | nil => cases hp; exact ⟨[], reads_nil, rfl⟩
    | cons _ _ => cases hp
  | succ n ih => cases ts with
    | nil => cases hl; cases hp; exact ⟨[], reads_nil, rfl⟩
    | cons tk ts =>
      unfold parseGlobN at hp
      split at hp
      · cases hp
      · rename_i p0 r0 h0
        split at hp
        · cases hp
        · rename_i ps hps
          cases hp
          obtain ⟨p1, t1, gs, et1, hl1, hr1, hpg, hend⟩ := (parse_reads Q (n + 1)).1 tk ts p0 r0 t st fin hl h0 hcl.1 hok hs hsep hg
          obtain ⟨s1, rr1, o1, _⟩ := hr1.2 st hs
          rw [et1, gread_append, rr1, Option.bind_some] at hg
          rw [et1] at hok
          obtain ⟨gs2, h2, h3⟩ := ih hl1 hps hcl.2 hok.tail o1 (sep_after rr1 hend) hg
          exact ⟨gs ++ gs2, by rw [et1]; exact reads_append hr1 h2, gs, gs2, rfl, hpg, h3⟩

/-- What the converter parsed agrees with what Bash reads. -/
theorem readPats_reads {t : Str} {pats : List Pat} {alts : List (List Glob)} {Q : Prop} (hp : readPats t = .ok pats)
    (hcl : Pat.SeqClean pats) (hok : TextOk Q t) (hg : readGlob bashGlob t = some alts) :
    ∃ gs, alts = [gs] ∧ SeqG Q pats gs := by
  unfold readPats at hp
  split at hp
  · cases hp
  · rename_i ts hts
    have hl := lexGlobN_ok _ hok.1 hts
    unfold readGlob at hg
    split at hg
    · cases hg
    · rename_i hne
      split at hg
      · cases hg
      · rename_i fin hfin
        obtain ⟨gs, h1, h2⟩ := parseAll_reads Q _ hl hp hcl hok (Or.inl rfl) (by intro k hk; cases hk) hfin
        obtain ⟨s1, r1, o1, f1⟩ := h1.2 {} (Or.inl rfl)
        rw [r1] at hfin
        cases hfin
        split at hg
        · cases hg
          refine ⟨gs, ?_, h2⟩
          rw [f1]
          simp [GState.flush]
        · cases hg

end CC
