import Verif.Lemmas.Pattern
/-!
# From what the converter parsed to its output
-/

namespace CC

/-! ## Escaping -/

theorem replaceChar_app (c : Char) (r a b : Str) : replaceChar c r (a ++ b) = replaceChar c r a ++ replaceChar c r b := by
  induction a with
  | nil => rfl
  | cons x a ih =>
    simp only [List.cons_append, replaceChar]
    split <;> simp [ih]

theorem escapeEach_append (E a b : Str) : escapeEach E (a ++ b) = escapeEach E a ++ escapeEach E b := by
  unfold escapeEach
  induction E generalizing a b with
  | nil => rfl
  | cons c E ih => simp only [List.foldl_cons, replaceChar_app, ih]

theorem escapeEach_nil (E : Str) : escapeEach E [] = [] := by
  unfold escapeEach
  induction E with
  | nil => rfl
  | cons c E ih => simpa [List.foldl_cons, replaceChar] using ih

theorem escapeEach_cons (E : Str) (c : Char) (s : Str) : escapeEach E (c :: s) = escapeEach E [c] ++ escapeEach E s := by
  rw [← escapeEach_append]; rfl

theorem escapeEach_other (E : Str) (c : Char) (h : c ∉ E) : escapeEach E [c] = [c] := by
  unfold escapeEach
  induction E with
  | nil => rfl
  | cons d E ih =>
    simp only [List.mem_cons, not_or] at h
    simp only [List.foldl_cons, replaceChar, if_neg h.1]
    exact ih h.2

/-! ## Brackets -/

theorem clsRanges_flags (ad : List (Char × Bool)) (h : ∀ q ∈ ad, q.1 = '-' → q.2 = false) :
    clsRanges ad = clsRanges (ad.map (fun q => (q.1, false))) := by
  fun_induction clsRanges ad with
  | case1 a x m q b qb r hc ih =>
    simp only [List.map_cons, clsRanges, hc.1, and_self, if_true]
    rw [ih (fun z hz => h z (by simp [hz]))]
  | case2 a x m q b qb r hc ih =>
    have hm : ¬ (m = '-' ∧ false = false) := by
      intro e
      exact hc ⟨e.1, h (m, q) (by simp) e.1⟩
    simp only [List.map_cons] at ih ⊢
    rw [clsRanges, if_neg hm, ih (fun z hz => h z (List.mem_cons_of_mem _ hz))]
  | case3 a x r hr ih =>
    cases r with
    | nil => rfl
    | cons y r => cases r with
      | nil =>
        have := ih (fun z hz => h z (List.mem_cons_of_mem _ hz))
        simp only [List.map_cons, List.map_nil, clsRanges] at this ⊢
      | cons z r => exact absurd rfl (hr y.1 y.2 z.1 z.2 r)
  | case4 => rfl

theorem clsRanges_dash (ad : List (Char × Bool)) (h : ∀ r ∈ clsRanges ad, r.1 ≠ '-' ∧ r.2 ≠ '-') :
    ∀ q ∈ ad, q.1 = '-' → q.2 = false := by
  fun_induction clsRanges ad with
  | case1 a x m q b qb r hc ih =>
    have h0 := h (a, b) (by simp)
    have ih := ih (fun z hz => h z (by simp [hz]))
    intro z hz
    simp only [List.mem_cons] at hz
    rcases hz with rfl | rfl | rfl | hz
    · exact fun e => absurd e h0.1
    · exact fun _ => hc.2
    · exact fun e => absurd e h0.2
    · exact ih z hz
  | case2 a x m q b qb r hc ih =>
    have h0 := h (a, a) (by simp)
    have ih := ih (fun z hz => h z (by simp [hz]))
    intro z hz
    rcases List.mem_cons.1 hz with rfl | hz
    · exact fun e => absurd e h0.1
    · exact ih z hz
  | case3 a x r hr ih =>
    have h0 := h (a, a) (by simp)
    have ih := ih (fun z hz => h z (by simp [hz]))
    intro z hz
    rcases List.mem_cons.1 hz with rfl | hz
    · exact fun e => absurd e h0.1
    · exact ih z hz
  | case4 => simp

theorem clsRanges_ends (ad : List (Char × Bool)) : ∀ q ∈ ad, q.1 = '-' ∨ ∃ r ∈ clsRanges ad, q.1 = r.1 ∨ q.1 = r.2 := by
  fun_induction clsRanges ad with
  | case1 a x m q b qb r hc ih =>
    intro z hz
    simp only [List.mem_cons] at hz
    rcases hz with rfl | rfl | rfl | hz
    · exact Or.inr ⟨(a, b), by simp, Or.inl rfl⟩
    · exact Or.inl hc.1
    · exact Or.inr ⟨(a, b), by simp, Or.inr rfl⟩
    · exact (ih z hz).imp id (fun ⟨r, hr, h⟩ => ⟨r, by simp [hr], h⟩)
  | case2 a x m q b qb r hc ih =>
    intro z hz
    rcases List.mem_cons.1 hz with rfl | hz
    · exact Or.inr ⟨(a, a), by simp, Or.inl rfl⟩
    · exact (ih z hz).imp id (fun ⟨r, hr, h⟩ => ⟨r, by simp [hr], h⟩)
  | case3 a x r hr ih =>
    intro z hz
    rcases List.mem_cons.1 hz with rfl | hz
    · exact Or.inr ⟨(a, a), by simp, Or.inl rfl⟩
    · exact (ih z hz).imp id (fun ⟨r, hr, h⟩ => ⟨r, by simp [hr], h⟩)
  | case4 => simp

/-- The text in brackets of a regular expression adds the given characters. -/
def RClsReads (t : Str) (ad : List (Char × Bool)) : Prop :=
  ∀ f a cu neg acc, rread ⟨f, a, cu, .cls neg acc⟩ t = some ⟨f, a, cu, .cls neg (acc ++ ad)⟩

theorem rclsReads_append {t u : Str} {ad bd : List (Char × Bool)} (h1 : RClsReads t ad) (h2 : RClsReads u bd) :
    RClsReads (t ++ u) (ad ++ bd) := by
  intro f a cu neg acc
  rw [rread_append, h1, Option.bind_some, h2, List.append_assoc]

/-- The flag a character gets in the regular expression. -/
def rxFlag (c : Char) : Bool := decide (c ∈ S ".[]")

theorem rcls_char (c : Char) (h1 : c ≠ '\\') (h2 : c ≠ '^') :
    RClsReads (escapeEach (S "^\\.[]") [c]) [(c, rxFlag c)] := by
  intro f a cu neg acc
  by_cases h : c = '.' ∨ c = '[' ∨ c = ']'
  · have e : escapeEach (S "^\\.[]") [c] = ['\\', c] := by rcases h with rfl | rfl | rfl <;> rfl
    have hf : rxFlag c = true := by rcases h with rfl | rfl | rfl <;> rfl
    have hal : c.isAlphanum = false := by rcases h with rfl | rfl | rfl <;> rfl
    rw [e, hf]
    simp [rread, rstep, rcls, hal]
  · simp only [not_or] at h
    rw [escapeEach_other _ _ (by simp [S, h1, h2, h])]
    have hf : rxFlag c = false := by simp [rxFlag, S, h]
    rw [hf]
    simp [rread, rstep, rcls, h, h1]

theorem rcls_chars (s : Str) (h : ∀ c ∈ s, c ≠ '\\' ∧ c ≠ '^') :
    RClsReads (escapeEach (S "^\\.[]") s) (s.map (fun c => (c, rxFlag c))) := by
  induction s with
  | nil => rw [escapeEach_nil]; intro f a cu neg acc; simp [rread]
  | cons c s ih =>
    rw [escapeEach_cons]
    have hc := h c (by simp)
    exact rclsReads_append (rcls_char c hc.1 hc.2) (ih (fun d hd => h d (by simp [hd])))

theorem escapeEach_head {c : Char} (h1 : c ≠ '\\') (h2 : c ≠ '^') (s : Str) :
    ∃ d r, escapeEach (S "^\\.[]") (c :: s) = d :: r ∧ d ≠ '^' := by
  rw [escapeEach_cons]
  by_cases h : c = '.' ∨ c = '[' ∨ c = ']'
  · have e : escapeEach (S "^\\.[]") [c] = ['\\', c] := by rcases h with rfl | rfl | rfl <;> rfl
    rw [e]
    exact ⟨'\\', _, rfl, by decide⟩
  · simp only [not_or] at h
    rw [escapeEach_other _ _ (by simp [S, h1, h2, h])]
    exact ⟨c, _, rfl, h2⟩

/-- A bracket expression in a regular expression. -/
theorem rreads_cls (ad : List (Char × Bool)) (neg : Bool) (hne : ad ≠ []) (h : ∀ q ∈ ad, q.1 ≠ '\\' ∧ q.1 ≠ '^')
    (hd : ∀ q ∈ ad, q.1 = '-' → q.2 = false) (ho : ∀ r ∈ clsRanges ad, r.1.toNat ≤ r.2.toNat) :
    RReads (S (if neg then "[^" else "[") ++ escapeEach (S "^\\.[]") (ad.map (·.1)) ++ S "]") [.cls neg (clsRanges ad)] := by
  intro f a cu
  have hr := rcls_chars (ad.map (·.1)) (by
    intro c hc
    obtain ⟨q, hq, rfl⟩ := List.mem_map.1 hc
    exact h q hq)
  have he : clsRanges ((ad.map (·.1)).map (fun c => (c, rxFlag c))) = clsRanges ad := by
    rw [clsRanges_flags ad hd, clsRanges_flags]
    · simp [List.map_map, Function.comp_def]
    · intro q hq
      obtain ⟨c, _, rfl⟩ := List.mem_map.1 hq
      intro e
      simp only at e
      subst e
      rfl
  have hopen : rread ⟨f, a, cu, .plain⟩ (S (if neg then "[^" else "[") ++ escapeEach (S "^\\.[]") (ad.map (·.1))) =
      some ⟨f, a, cu, .cls neg ((ad.map (·.1)).map (fun c => (c, rxFlag c)))⟩ := by
    cases neg with
    | true =>
      simp only [if_true]
      have e0 : rread ⟨f, a, cu, .plain⟩ (S "[^") = some ⟨f, a, cu, .cls true []⟩ := rfl
      rw [rread_append, e0, Option.bind_some, hr, List.nil_append]
    | false =>
      simp only [Bool.false_eq_true, if_false]
      have e0 : rread ⟨f, a, cu, .plain⟩ (S "[") = some ⟨f, a, cu, .clsOpen⟩ := rfl
      rw [rread_append, e0, Option.bind_some]
      have hr2 := hr f a cu false []
      cases ad with
      | nil => exact absurd rfl hne
      | cons q ad =>
        have hq := h q (by simp)
        obtain ⟨d, r, hd1, hd2⟩ := escapeEach_head hq.1 hq.2 (ad.map (·.1))
        simp only [List.map_cons] at hr2 ⊢
        rw [hd1] at hr2 ⊢
        have : rstep ⟨f, a, cu, .clsOpen⟩ d = rstep ⟨f, a, cu, .cls false []⟩ d := by
          simp [rstep, hd2, rcls]
        rw [rread_cons, this, ← rread_cons, hr2, List.nil_append]
  rw [rread_append, hopen, Option.bind_some]
  have hstep : rstep ⟨f, a, cu, .cls neg ((ad.map (·.1)).map (fun c => (c, rxFlag c)))⟩ ']' =
      some ⟨f, a, cu ++ [.cls neg (clsRanges ad)], .plain⟩ := by
    simp only [rstep, rcls]
    rw [if_pos ⟨trivial, by simpa using hne⟩, he, if_pos]
    simpa using ho
  show rread _ [']'] = _
  rw [rread_cons, hstep]
  rfl

/-! ## Regular expressions -/

theorem rreads_lit {c : Char} (h1 : c ≠ '\\') (h2 : c ≠ '^') (h3 : c ≠ '$') :
    RReads (escapeEach (S ".?*+|{}[]()") [c]) [.chr c] := by
  by_cases h : c ∈ S ".?*+|{}[]()"
  · have hh := h
    simp only [S, String.reduceToList, List.mem_cons, List.not_mem_nil, or_false] at hh
    have e : escapeEach (S ".?*+|{}[]()") [c] = ['\\', c] := by
      rcases hh with rfl | rfl | rfl | rfl | rfl | rfl | rfl | rfl | rfl | rfl | rfl <;> rfl
    have hal : c.isAlphanum = false := by
      rcases hh with rfl | rfl | rfl | rfl | rfl | rfl | rfl | rfl | rfl | rfl | rfl <;> rfl
    rw [e]
    exact rreads_escaped hal
  · rw [escapeEach_other _ _ h]
    apply rreads_plain
    simp only [S, String.reduceToList, List.mem_cons, List.not_mem_nil, or_false, not_or] at h
    simp [RxPlain, S, h, h1, h2, h3]

theorem appendE_ok {a b : Except Err Str} {r : Str} (h : appendE a b = .ok r) : ∃ s t, a = .ok s ∧ b = .ok t ∧ r = s ++ t := by
  cases a with
  | error e => cases h
  | ok s => cases b with
    | error e => cases h
    | ok t => cases h; exact ⟨s, t, rfl, rfl, rfl⟩

theorem altsRegex_cons {a : List Pat} {as : List (List Pat)} {rs : List Str} (h : Pat.altsRegex (a :: as) = .ok rs) :
    ∃ s r, Pat.seqRegex a = .ok s ∧ Pat.altsRegex as = .ok r ∧ rs = s :: r := by
  unfold Pat.altsRegex at h
  split at h
  · cases h
  · cases h
  · rename_i s r h1 h2
    cases h
    exact ⟨s, r, h1, h2, rfl⟩

theorem altsZsh_cons {a : List Pat} {as : List (List Pat)} {rs : List Str} (h : Pat.altsZsh (a :: as) = .ok rs) :
    ∃ s r, Pat.seqZsh a = .ok s ∧ Pat.altsZsh as = .ok r ∧ rs = s :: r := by
  unfold Pat.altsZsh at h
  split at h
  · cases h
  · cases h
  · rename_i s r h1 h2
    cases h
    exact ⟨s, r, h1, h2, rfl⟩

mutual
theorem clean_of_regex (p : Pat) {r : Str} (h : p.toRegex = .ok r) : p.Clean := by
  cases p with
  | ext k alts =>
    unfold Pat.toRegex at h
    split at h
    · cases h
    · rename_i ps hps
      exact altsClean_of_regex alts hps
  | raw s => cases h
  | lit _ => trivial
  | star => trivial
  | question => trivial
  | cls _ _ => trivial
theorem seqClean_of_regex (ps : List Pat) {r : Str} (h : Pat.seqRegex ps = .ok r) : Pat.SeqClean ps := by
  cases ps with
  | nil => trivial
  | cons p ps =>
    obtain ⟨s, t, h1, h2, _⟩ := appendE_ok h
    exact ⟨clean_of_regex p h1, seqClean_of_regex ps h2⟩
theorem altsClean_of_regex (as : List (List Pat)) {rs : List Str} (h : Pat.altsRegex as = .ok rs) : Pat.AltsClean as := by
  cases as with
  | nil => trivial
  | cons a as =>
    obtain ⟨s, r, h1, h2, _⟩ := altsRegex_cons h
    exact ⟨seqClean_of_regex a h1, altsClean_of_regex as h2⟩
end

mutual
theorem clean_of_zsh (p : Pat) {r : Str} (h : p.toZsh = .ok r) : p.Clean := by
  cases p with
  | ext k alts =>
    unfold Pat.toZsh at h
    split at h
    · cases h
    · rename_i ps hps
      exact altsClean_of_zsh alts hps
  | raw s => cases h
  | lit _ => trivial
  | star => trivial
  | question => trivial
  | cls _ _ => trivial
theorem seqClean_of_zsh (ps : List Pat) {r : Str} (h : Pat.seqZsh ps = .ok r) : Pat.SeqClean ps := by
  cases ps with
  | nil => trivial
  | cons p ps =>
    obtain ⟨s, t, h1, h2, _⟩ := appendE_ok h
    exact ⟨clean_of_zsh p h1, seqClean_of_zsh ps h2⟩
theorem altsClean_of_zsh (as : List (List Pat)) {rs : List Str} (h : Pat.altsZsh as = .ok rs) : Pat.AltsClean as := by
  cases as with
  | nil => trivial
  | cons a as =>
    obtain ⟨s, r, h1, h2, _⟩ := altsZsh_cons h
    exact ⟨seqClean_of_zsh a h1, altsClean_of_zsh as h2⟩
end

theorem seqEach_append {L : Char → Prop} {R : Char × Char → Prop} {gs hs : List Glob} :
    Glob.SeqEach L R (gs ++ hs) ↔ Glob.SeqEach L R gs ∧ Glob.SeqEach L R hs := by
  induction gs with
  | nil => simp [Glob.SeqEach]
  | cons g gs ih => simp [Glob.SeqEach, ih, and_assoc]

theorem repeat_congr {L M : Str → Prop} (h : ∀ w, '\n' ∉ w → (L w ↔ M w)) (w : Str) (hw : '\n' ∉ w) : Repeat L w ↔ Repeat M w := by
  constructor
  · intro hr
    induction hr with
    | nil => exact .nil
    | @cons a b ha _ ih =>
      simp only [List.mem_append, not_or] at hw
      exact .cons ((h a hw.1).1 ha) (ih hw.2)
  · intro hr
    induction hr with
    | nil => exact .nil
    | @cons a b ha _ ih =>
      simp only [List.mem_append, not_or] at hw
      exact .cons ((h a hw.1).2 ha) (ih hw.2)

theorem seq_congr {L1 L2 M1 M2 : Str → Prop} (h1 : ∀ w, '\n' ∉ w → (L1 w ↔ M1 w)) (h2 : ∀ w, '\n' ∉ w → (L2 w ↔ M2 w))
    (w : Str) (hw : '\n' ∉ w) : (∃ a b, w = a ++ b ∧ L1 a ∧ L2 b) ↔ ∃ a b, w = a ++ b ∧ M1 a ∧ M2 b := by
  constructor
  · rintro ⟨a, b, rfl, ha, hb⟩
    simp only [List.mem_append, not_or] at hw
    exact ⟨a, b, rfl, (h1 a hw.1).1 ha, (h2 b hw.2).1 hb⟩
  · rintro ⟨a, b, rfl, ha, hb⟩
    simp only [List.mem_append, not_or] at hw
    exact ⟨a, b, rfl, (h1 a hw.1).2 ha, (h2 b hw.2).2 hb⟩

/-- What is asked of the elements of a glob for the conversion to a regular expression. -/
def RxLit (c : Char) : Prop := c ≠ '$'
/-- The same for the ranges in brackets. `Q` holds if there are quotes in the text. -/
def RxRange (Q : Prop) (r : Char × Char) : Prop := r.1.toNat ≤ r.2.toNat ∧ (Q → r.1 ≠ '-' ∧ r.2 ≠ '-')

/-- The regular expression and the glob match the same words. -/
def RxSame (rx : List Rx) (gs : List Glob) : Prop := ∀ w, '\n' ∉ w → (Rx.SeqLang rx w ↔ Glob.SeqLang gs w)

theorem regex_lits (s : Str) (h : ∀ c ∈ s, c ≠ '\\' ∧ c ≠ '^') (h3 : Glob.SeqEach RxLit (RxRange Q) (s.map .lit)) :
    ∃ rx, RReads (escapeEach (S ".?*+|{}[]()") s) rx ∧ RxSame rx (s.map .lit) := by
  induction s with
  | nil => exact ⟨[], by rw [escapeEach_nil]; exact rreads_nil, fun w _ => by simp [Rx.SeqLang, Glob.SeqLang]⟩
  | cons c s ih =>
    have hc := h c (by simp)
    obtain ⟨rx, h1, h2⟩ := ih (fun d hd => h d (by simp [hd])) h3.2
    refine ⟨.chr c :: rx, ?_, ?_⟩
    · rw [escapeEach_cons]
      exact rreads_append (rreads_lit hc.1 hc.2 h3.1) h1
    · intro w hw
      simp only [List.map_cons, Rx.SeqLang, Glob.SeqLang, Rx.Lang, Glob.Lang]
      exact seq_congr (fun _ _ => Iff.rfl) h2 w hw

mutual
theorem pat_regex (Q : Prop) (p : Pat) {gs : List Glob} {r : Str} (h : PatG Q p gs) (hr : p.toRegex = .ok r)
    (he : Glob.SeqEach RxLit (RxRange Q) gs) : ∃ rx, RReads r rx ∧ RxSame rx gs := by
  cases p with
  | lit s =>
    obtain ⟨rfl, hs⟩ := h
    cases hr
    exact regex_lits s hs he
  | star =>
    cases h
    cases hr
    refine ⟨_, rreads_any, ?_⟩
    intro w hw
    rw [rxSeq_single, seqLang_single]
    simp only [Rx.Lang, Glob.Lang, if_true, iff_true]
    exact (repeat_dot w).2 hw
  | question =>
    cases h
    cases hr
    refine ⟨_, rreads_dot, ?_⟩
    intro w hw
    rw [rxSeq_single, seqLang_single]
    simp only [Rx.Lang, Glob.Lang]
    constructor
    · rintro ⟨c, rfl, _⟩; exact ⟨c, rfl⟩
    · rintro ⟨c, rfl⟩; exact ⟨c, rfl, by simpa using fun e => hw (by simp [e])⟩
  | cls chars neg =>
    obtain ⟨ad, rfl, rfl, hne, hq, hch⟩ := h
    cases hr
    have hrg : ∀ r ∈ clsRanges ad, RxRange Q r := he.1
    refine ⟨_, rreads_cls ad neg hne hch ?_ (fun r hr => (hrg r hr).1), ?_⟩
    · by_cases hQ : Q
      · exact clsRanges_dash ad (fun r hr => (hrg r hr).2 hQ)
      · intro q hm _
        cases hb : q.2 with
        | false => rfl
        | true => exact absurd (hq q hm hb) hQ
    · intro w _
      rw [rxSeq_single, seqLang_single]
      simp only [Rx.Lang, Glob.Lang]
  | ext k alts =>
    obtain ⟨gss, rfl, hg, hne⟩ := h
    unfold Pat.toRegex at hr
    split at hr
    · cases hr
    · rename_i ps hps
      obtain ⟨rxs, h1, h2⟩ := alts_regex Q alts hg hps he.1
      have hpne : ps ≠ [] := by
        intro e
        subst e
        cases alts with
        | nil => exact hne rfl
        | cons a as => obtain ⟨_, _, _, _, e⟩ := altsRegex_cons hps; cases e
      have hgrp := rreads_group ps rxs h1 hpne
      unfold extRegex at hr
      by_cases k1 : k = '@'
      · rw [if_pos k1] at hr
        cases hr
        refine ⟨_, hgrp, ?_⟩
        intro w hw
        rw [rxSeq_single, seqLang_single]
        simp only [Rx.Lang, Glob.Lang, k1, if_true]
        exact h2 w hw
      · rw [if_neg k1] at hr
        by_cases k2 : k = '*'
        · rw [if_pos k2] at hr
          cases hr
          refine ⟨_, rreads_quantified '*' (by simp) hgrp, ?_⟩
          intro w hw
          rw [rxSeq_single, seqLang_single]
          simp only [Rx.Lang, Glob.Lang, k2, if_true, if_neg (show '*' ≠ '@' by decide), if_neg (show '*' ≠ '?' by decide)]
          exact repeat_congr h2 w hw
        · rw [if_neg k2] at hr
          by_cases k3 : k = '+'
          · rw [if_pos k3] at hr
            cases hr
            refine ⟨_, rreads_quantified '+' (by simp) hgrp, ?_⟩
            intro w hw
            rw [rxSeq_single, seqLang_single]
            simp only [Rx.Lang, Glob.Lang, k3, if_true, if_neg (show '+' ≠ '@' by decide), if_neg (show '+' ≠ '?' by decide),
              if_neg (show '+' ≠ '*' by decide)]
            exact seq_congr h2 (fun w hw => repeat_congr h2 w hw) w hw
          · rw [if_neg k3] at hr
            by_cases k4 : k = '?'
            · rw [if_pos k4] at hr
              cases hr
              refine ⟨_, rreads_quantified '?' (by simp) hgrp, ?_⟩
              intro w hw
              rw [rxSeq_single, seqLang_single]
              simp only [Rx.Lang, Glob.Lang, k4, if_true, if_neg (show '?' ≠ '@' by decide), if_neg (show '?' ≠ '*' by decide),
                if_neg (show '?' ≠ '+' by decide)]
              rw [h2 w hw]
            · rw [if_neg k4] at hr
              split at hr <;> cases hr
  | raw s => cases hr
theorem seq_regex (Q : Prop) (ps : List Pat) {gs : List Glob} {r : Str} (h : SeqG Q ps gs) (hr : Pat.seqRegex ps = .ok r)
    (he : Glob.SeqEach RxLit (RxRange Q) gs) : ∃ rx, RReads r rx ∧ RxSame rx gs := by
  cases ps with
  | nil =>
    cases h
    cases hr
    exact ⟨[], rreads_nil, fun w _ => by simp [Rx.SeqLang, Glob.SeqLang]⟩
  | cons p ps =>
    obtain ⟨a, b, rfl, ha, hb⟩ := h
    obtain ⟨s, t, h1, h2, rfl⟩ := appendE_ok hr
    rw [seqEach_append] at he
    obtain ⟨rx1, r1, s1⟩ := pat_regex Q p ha h1 he.1
    obtain ⟨rx2, r2, s2⟩ := seq_regex Q ps hb h2 he.2
    refine ⟨rx1 ++ rx2, rreads_append r1 r2, ?_⟩
    intro w hw
    rw [rxSeq_append, seqLang_append]
    exact seq_congr s1 s2 w hw
theorem alts_regex (Q : Prop) (as : List (List Pat)) {gss : List (List Glob)} {rs : List Str} (h : AltsG Q as gss)
    (hr : Pat.altsRegex as = .ok rs) (he : Glob.AltEach RxLit (RxRange Q) gss) :
    ∃ rxs, All2 RReads rs rxs ∧ ∀ w, '\n' ∉ w → (Rx.AltLang rxs w ↔ Glob.AltLang gss w) := by
  cases as with
  | nil =>
    cases h
    cases hr
    exact ⟨[], .nil, fun w _ => by simp [Rx.AltLang, Glob.AltLang]⟩
  | cons a as =>
    obtain ⟨g, gs, rfl, ha, hb⟩ := h
    obtain ⟨s, r, h1, h2, rfl⟩ := altsRegex_cons hr
    obtain ⟨rx1, r1, s1⟩ := seq_regex Q a ha h1 he.1
    obtain ⟨rxs, r2, s2⟩ := alts_regex Q as hb h2 he.2
    refine ⟨rx1 :: rxs, .cons r1 r2, ?_⟩
    intro w hw
    simp only [Rx.AltLang, Glob.AltLang]
    rw [s1 w hw, s2 w hw]
end

/-! ## Zsh globs -/

/-- `(a|b|c)` where plain parentheses group. -/
theorem reads_paren {x : GlobCtx} (hx : x.ext = false) (hp : x.paren = true) (ts : List Str)
    (gss : List (List Glob)) (h : All2 (GReads x) ts gss) (hne : ts ≠ []) :
    GReads x (['('] ++ joinWith ['|'] ts ++ [')']) [.ext '@' gss] := by
  refine ⟨by simp [hx], ?_⟩
  intro st hs
  have h2 : gstep x st '(' = some ⟨⟨'@', st.flush.alts, st.flush.cur⟩ :: st.flush.frames, [], [], .plain⟩ := by
    rw [gstep_flush hs (Or.inr hx)]
    simp [gplain, hp]
  obtain ⟨s1, r1, o1, f1, c1⟩ := read_bars ts gss h hne
    ⟨⟨'@', st.flush.alts, st.flush.cur⟩ :: st.flush.frames, [], [], .plain⟩ (Or.inl rfl)
  have h3 : gstep x s1 ')' = some ⟨st.flush.frames, st.flush.alts, st.flush.cur ++ [.ext '@' gss], .plain⟩ := by
    rw [gstep_flush o1 (Or.inl (by decide))]
    have hc : s1.flush.alts ++ [s1.flush.cur] = gss := by
      rw [c1]
      cases h with
      | nil => exact absurd rfl hne
      | cons _ _ => rfl
    have hf : s1.flush.frames = ⟨'@', st.flush.alts, st.flush.cur⟩ :: st.flush.frames := by
      rw [flush_frames, f1]
    simp [gplain, hf, hc]
  refine ⟨⟨st.flush.frames, st.flush.alts, st.flush.cur ++ [.ext '@' gss], .plain⟩, ?_, Or.inl rfl, ?_⟩
  · simp only [List.cons_append, List.nil_append]
    rw [gread_cons, h2, Option.bind_some, gread_append, r1, Option.bind_some, gread_cons, h3]
    rfl
  · rw [flush_of_plain rfl]
    have := flush_open hs
    cases hst : st.flush with
    | mk f a cu m =>
      rw [hst] at this
      simp only at this
      subst this
      rfl

/-- What is asked of the literal characters of a glob for the conversion to Zsh: the converter leaves the
others unquoted although they mean something to Zsh. -/
def ZshLit (c : Char) : Prop := c ∉ S "()|#^~<>$`&;\t\n"
/-- The same for the ranges in brackets. `Q` holds if there are quotes in the text. -/
def ZshRange (Q : Prop) (r : Char × Char) : Prop :=
  r.1 ∉ S "'\"$` \t\n" ∧ r.2 ∉ S "'\"$` \t\n" ∧ (Q → r.1 ≠ '-' ∧ r.2 ≠ '-')

theorem zsh_lit {c : Char} (h : ZshLit c) : GReads zshGlob (zshLitChar c) [.lit c] := by
  unfold zshLitChar
  split
  · rename_i hc
    have hq : '\'' ∉ [c] := by
      intro hm
      simp only [List.mem_cons, List.not_mem_nil, or_false] at hm
      subst hm
      exact absurd hc (by decide)
    exact reads_sq hq
  · rename_i hc
    split
    · rename_i h2
      subst h2
      exact reads_dq (s := ['\'']) (by simp)
    · rename_i h2
      apply reads_lit
      simp only [ZshLit, S, String.reduceToList, List.mem_cons, List.not_mem_nil, or_false, not_or] at h
      simp only [S, String.reduceToList, List.contains_eq_mem, List.mem_cons, List.not_mem_nil, or_false, decide_eq_true_eq,
        not_or] at hc
      refine ⟨?_, ?_⟩
      · simp [S, hc, h, h2]
      · simp [zshGlob, S, hc, h]

theorem zsh_lits (s : Str) (h : ∀ c ∈ s, c ≠ '\\' ∧ c ≠ '^') (h3 : Glob.SeqEach ZshLit (ZshRange Q) (s.map .lit)) :
    GReads zshGlob (s.flatMap zshLitChar) (s.map .lit) := by
  induction s with
  | nil => exact reads_nil
  | cons c s ih =>
    simp only [List.flatMap_cons, List.map_cons]
    exact reads_append (zsh_lit h3.1) (ih (fun d hd => h d (by simp [hd])) h3.2)

/-- The flag a character in brackets gets in the Zsh glob. -/
def zshFlag (c : Char) : Bool := decide (c ∈ S "[]!")

theorem zsh_clsChar {c : Char} (h : c ∉ S "'\"$` \t\n\\^") : ClsReads zshGlob (zshClsChar c) [(c, zshFlag c)] := by
  unfold zshClsChar
  split
  · rename_i hc
    have hq : '\'' ∉ [c] := by
      intro hm
      simp only [List.mem_cons, List.not_mem_nil, or_false] at hm
      subst hm
      exact absurd hc (by decide)
    have hf : zshFlag c = true := by simpa [zshFlag] using hc
    rw [hf]
    exact clsReads_sq hq
  · rename_i hc
    have hf : zshFlag c = false := by simpa [zshFlag] using hc
    rw [hf]
    apply clsReads_chars (s := [c])
    intro d hd
    simp only [List.mem_cons, List.not_mem_nil, or_false] at hd
    subst hd
    simp only [S, String.reduceToList, List.mem_cons, List.not_mem_nil, or_false, not_or] at h
    simp only [S, String.reduceToList, List.contains_eq_mem, List.mem_cons, List.not_mem_nil, or_false, decide_eq_true_eq,
      not_or] at hc
    refine ⟨?_, ?_⟩
    · simp [S, hc, h]
    · simp [zshGlob, S, hc, h]

theorem zsh_clsChars (s : Str) (h : ∀ c ∈ s, c ∉ S "'\"$` \t\n\\^") :
    ClsReads zshGlob (s.flatMap zshClsChar) (s.map (fun c => (c, zshFlag c))) := by
  induction s with
  | nil => exact clsReads_nil
  | cons c s ih =>
    simp only [List.flatMap_cons, List.map_cons]
    exact clsReads_append (zsh_clsChar (h c (by simp))) (ih (fun d hd => h d (by simp [hd])))

theorem zsh_cls (ad : List (Char × Bool)) (neg : Bool) (hne : ad ≠ []) (h : ∀ q ∈ ad, q.1 ∉ S "'\"$` \t\n\\^")
    (hd : ∀ q ∈ ad, q.1 = '-' → q.2 = false) :
    GReads zshGlob (S (if neg then "[!" else "[") ++ (ad.map (·.1)).flatMap zshClsChar ++ S "]") [.cls neg (clsRanges ad)] := by
  have hr := zsh_clsChars (ad.map (·.1)) (by
    intro c hc
    obtain ⟨q, hq, rfl⟩ := List.mem_map.1 hc
    exact h q hq)
  have he : clsRanges ((ad.map (·.1)).map (fun c => (c, zshFlag c))) = clsRanges ad := by
    rw [clsRanges_flags ad hd, clsRanges_flags]
    · simp [List.map_map, Function.comp_def]
    · intro q hq
      obtain ⟨c, _, rfl⟩ := List.mem_map.1 hq
      intro e
      simp only at e
      subst e
      rfl
  refine reads_of_step (by cases neg <;> simp [S]) (by cases neg <;> simp [S]) ?_
  intro f a cu
  have hopen : gread zshGlob ⟨f, a, cu, .plain⟩ (S (if neg then "[!" else "[") ++ (ad.map (·.1)).flatMap zshClsChar) =
      some ⟨f, a, cu, .cls neg ((ad.map (·.1)).map (fun c => (c, zshFlag c)))⟩ := by
    cases neg with
    | true =>
      simp only [if_true]
      have e0 : gread zshGlob ⟨f, a, cu, .plain⟩ (S "[!") = some ⟨f, a, cu, .cls true []⟩ := rfl
      rw [gread_append, e0, Option.bind_some, hr, List.nil_append]
    | false =>
      simp only [Bool.false_eq_true, if_false]
      have e0 : gread zshGlob ⟨f, a, cu, .plain⟩ (S "[") = some ⟨f, a, cu, .clsOpen⟩ := rfl
      rw [gread_append, e0, Option.bind_some]
      have hr2 := hr f a cu false []
      cases ad with
      | nil => exact absurd rfl hne
      | cons q ad =>
        have hq := h q (by simp)
        simp only [S, String.reduceToList, List.mem_cons, List.not_mem_nil, or_false, not_or] at hq
        have hhead : ∃ d r, ((q :: ad).map (·.1)).flatMap zshClsChar = d :: r ∧ d ≠ '!' ∧ d ≠ '^' := by
          simp only [List.map_cons, List.flatMap_cons, zshClsChar]
          split
          · exact ⟨'\'', _, rfl, by decide, by decide⟩
          · rename_i hc
            simp only [S, String.reduceToList, List.contains_eq_mem, List.mem_cons, List.not_mem_nil, or_false,
              decide_eq_true_eq, not_or] at hc
            exact ⟨q.1, _, rfl, hc.2.2, by simp [hq]⟩
        obtain ⟨d, r, hd1, hd2, hd3⟩ := hhead
        rw [hd1] at hr2 ⊢
        have : gstep zshGlob ⟨f, a, cu, .clsOpen⟩ d = gstep zshGlob ⟨f, a, cu, .cls false []⟩ d := by
          simp [gstep, hd2, hd3, gcls]
        rw [gread_cons, this, ← gread_cons, hr2, List.nil_append]
  rw [gread_append, hopen, Option.bind_some]
  have hstep : gstep zshGlob ⟨f, a, cu, .cls neg ((ad.map (·.1)).map (fun c => (c, zshFlag c)))⟩ ']' =
      some ⟨f, a, cu ++ [.cls neg (clsRanges ad)], .plain⟩ := by
    simp only [gstep, gcls]
    rw [if_pos ⟨trivial, by simpa using hne⟩, he]
  show gread _ _ [']'] = _
  rw [gread_cons, hstep]
  rfl

mutual
theorem pat_zsh (Q : Prop) (p : Pat) {gs : List Glob} {r : Str} (h : PatG Q p gs) (hr : p.toZsh = .ok r)
    (he : Glob.SeqEach ZshLit (ZshRange Q) gs) : GReads zshGlob r gs := by
  cases p with
  | lit s =>
    obtain ⟨rfl, hs⟩ := h
    cases hr
    exact zsh_lits s hs he
  | star => cases h; cases hr; exact reads_wild '*' (Or.inl rfl)
  | question => cases h; cases hr; exact reads_wild '?' (Or.inr rfl)
  | cls chars neg =>
    obtain ⟨ad, rfl, rfl, hne, hq, hch⟩ := h
    cases hr
    have hrg : ∀ r ∈ clsRanges ad, ZshRange Q r := he.1
    refine zsh_cls ad neg hne ?_ ?_
    · intro q hm
      have hc := hch q hm
      rcases clsRanges_ends ad q hm with h1 | ⟨r, hr, h1⟩
      · rw [h1]; decide
      · obtain ⟨ha, hb, _⟩ := hrg r hr
        simp only [S, String.reduceToList, List.mem_cons, List.not_mem_nil, or_false, not_or] at ha hb
        rcases h1 with h1 | h1
        · rw [h1] at hc ⊢; simp [S, ha, hc]
        · rw [h1] at hc ⊢; simp [S, hb, hc]
    · by_cases hQ : Q
      · exact clsRanges_dash ad (fun r hr => (hrg r hr).2.2 hQ)
      · intro q hm _
        cases hb : q.2 with
        | false => rfl
        | true => exact absurd (hq q hm hb) hQ
  | ext k alts =>
    obtain ⟨gss, rfl, hg, hne⟩ := h
    unfold Pat.toZsh at hr
    split at hr
    · cases hr
    · rename_i ps hps
      have h1 := alts_zsh Q alts hg hps he.1
      have hpne : ps ≠ [] := by
        intro e
        subst e
        cases alts with
        | nil => exact hne rfl
        | cons a as => obtain ⟨_, _, _, _, e⟩ := altsZsh_cons hps; cases e
      unfold extZsh at hr
      by_cases k1 : k = '@'
      · rw [if_pos k1] at hr
        cases hr
        subst k1
        exact reads_paren rfl rfl ps gss h1 hpne
      · rw [if_neg k1] at hr
        split at hr <;> cases hr
  | raw s => cases hr
theorem seq_zsh (Q : Prop) (ps : List Pat) {gs : List Glob} {r : Str} (h : SeqG Q ps gs) (hr : Pat.seqZsh ps = .ok r)
    (he : Glob.SeqEach ZshLit (ZshRange Q) gs) : GReads zshGlob r gs := by
  cases ps with
  | nil => cases h; cases hr; exact reads_nil
  | cons p ps =>
    obtain ⟨a, b, rfl, ha, hb⟩ := h
    obtain ⟨s, t, h1, h2, rfl⟩ := appendE_ok hr
    rw [seqEach_append] at he
    exact reads_append (pat_zsh Q p ha h1 he.1) (seq_zsh Q ps hb h2 he.2)
theorem alts_zsh (Q : Prop) (as : List (List Pat)) {gss : List (List Glob)} {rs : List Str} (h : AltsG Q as gss)
    (hr : Pat.altsZsh as = .ok rs) (he : Glob.AltEach ZshLit (ZshRange Q) gss) : All2 (GReads zshGlob) rs gss := by
  cases as with
  | nil => cases h; cases hr; exact .nil
  | cons a as =>
    obtain ⟨g, gs, rfl, ha, hb⟩ := h
    obtain ⟨s, r, h1, h2, rfl⟩ := altsZsh_cons hr
    exact .cons (seq_zsh Q a ha h1 he.1) (alts_zsh Q as hb h2 he.2)
end

end CC
