import Verif.Spec.Regex
import Verif.Lemmas.Glob
/-!
# Reading regular expressions piece by piece
-/

namespace CC

theorem rxSeq_append (gs hs : List Rx) (w : Str) :
    Rx.SeqLang (gs ++ hs) w ↔ ∃ a b, w = a ++ b ∧ Rx.SeqLang gs a ∧ Rx.SeqLang hs b := by
  induction gs generalizing w with
  | nil =>
    simp only [List.nil_append, Rx.SeqLang]
    constructor
    · intro h; exact ⟨[], w, rfl, rfl, h⟩
    · rintro ⟨a, b, rfl, rfl, h⟩; exact h
  | cons g gs ih =>
    simp only [List.cons_append, Rx.SeqLang]
    constructor
    · rintro ⟨a, b, rfl, ha, hb⟩
      obtain ⟨b1, b2, rfl, h1, h2⟩ := (ih b).1 hb
      exact ⟨a ++ b1, b2, by simp, ⟨a, b1, rfl, ha, h1⟩, h2⟩
    · rintro ⟨a, b, rfl, ⟨a1, a2, rfl, h1, h2⟩, hb⟩
      exact ⟨a1, a2 ++ b, by simp, h1, (ih _).2 ⟨a2, b, rfl, h2, hb⟩⟩

theorem rxSeq_single (g : Rx) (w : Str) : Rx.SeqLang [g] w ↔ g.Lang w := by
  simp only [Rx.SeqLang]
  constructor
  · rintro ⟨a, b, rfl, h, rfl⟩; simpa using h
  · intro h; exact ⟨w, [], by simp, h, rfl⟩

theorem rread_cons (st : RState) (c : Char) (t : Str) : rread st (c :: t) = (rstep st c).bind (fun s => rread s t) := rfl

theorem rread_append (st : RState) (t u : Str) : rread st (t ++ u) = (rread st t).bind (fun s => rread s u) := by
  simp [rread, List.foldlM_append]

/-- The text is read as the given elements, wherever it stands. -/
def RReads (t : Str) (gs : List Rx) : Prop :=
  ∀ f a c, rread ⟨f, a, c, .plain⟩ t = some ⟨f, a, c ++ gs, .plain⟩

theorem rreads_nil : RReads [] [] := by intro f a c; simp [rread]

theorem rreads_append {t u : Str} {gs hs : List Rx} (h1 : RReads t gs) (h2 : RReads u hs) :
    RReads (t ++ u) (gs ++ hs) := by
  intro f a c
  rw [rread_append, h1 f a c, Option.bind_some, h2]
  simp

/-- Characters that have no meaning of their own in a regular expression. -/
def RxPlain (c : Char) : Prop := c ∉ S "\\[]()|*+?.^${}"

theorem rreads_plain {c : Char} (h : RxPlain c) : RReads [c] [.chr c] := by
  intro f a cu
  simp only [RxPlain, S, String.reduceToList, List.mem_cons, List.not_mem_nil, or_false, not_or] at h
  simp [rread, rstep, rplain, h]

theorem rreads_escaped {c : Char} (h : c.isAlphanum = false) : RReads ['\\', c] [.chr c] := by
  intro f a cu
  simp [rread, rstep, rplain, h]

theorem rreads_any : RReads ['.', '*'] [.rep '*' .dot] := by
  intro f a cu
  simp [rread, rstep, rplain, quantify]

theorem rreads_dot : RReads ['.'] [.dot] := by
  intro f a cu
  simp [rread, rstep, rplain]

theorem rread_bars (ts : List Str) (gss : List (List Rx)) (h : All2 RReads ts gss) (hne : ts ≠ [])
    (f : List (List (List Rx) × List Rx)) (a : List (List Rx)) (c : List Rx) :
    ∃ a' c', rread ⟨f, a, c, .plain⟩ (joinWith ['|'] ts) = some ⟨f, a', c', .plain⟩ ∧
      a' ++ [c'] = a ++ (c ++ gss.headD []) :: gss.tail := by
  induction h generalizing a c with
  | nil => exact absurd rfl hne
  | @cons t g ts gss hg hrest ih =>
    cases hrest with
    | nil => exact ⟨a, c ++ g, by simpa [joinWith] using hg f a c, rfl⟩
    | @cons u g2 us gss2 hg2 hrest2 =>
      obtain ⟨a', c', r, e⟩ := ih (by simp) (a ++ [c ++ g]) []
      refine ⟨a', c', ?_, ?_⟩
      · simp only [joinWith, List.append_assoc, List.cons_append, List.nil_append]
        rw [rread_append, hg f a c, Option.bind_some, rread_cons]
        exact r
      · rw [e]; simp

/-- A group. -/
theorem rreads_group (ts : List Str) (gss : List (List Rx)) (h : All2 RReads ts gss) (hne : ts ≠ []) :
    RReads (['('] ++ joinWith ['|'] ts ++ [')']) [.grp gss] := by
  intro f a c
  obtain ⟨a', c', r, e⟩ := rread_bars ts gss h hne ((a, c) :: f) [] []
  have hc : a' ++ [c'] = gss := by
    rw [e]
    cases h with
    | nil => exact absurd rfl hne
    | cons _ _ => rfl
  simp only [List.cons_append, List.nil_append]
  rw [rread_cons]
  have h1 : rstep ⟨f, a, c, .plain⟩ '(' = some ⟨(a, c) :: f, [], [], .plain⟩ := rfl
  rw [h1, Option.bind_some, rread_append, r, Option.bind_some]
  have h2 : rstep ⟨(a, c) :: f, a', c', .plain⟩ ')' = some ⟨f, a, c ++ [.grp (a' ++ [c'])], .plain⟩ := rfl
  rw [rread_cons, h2, hc]
  rfl

/-- A quantified group. -/
theorem rreads_quantified (q : Char) (hq : q = '*' ∨ q = '+' ∨ q = '?') {t : Str} {gss : List (List Rx)}
    (h : RReads t [.grp gss]) : RReads (t ++ [q]) [.rep q (.grp gss)] := by
  intro f a c
  rw [rread_append, h f a c, Option.bind_some, rread_cons]
  rcases hq with rfl | rfl | rfl <;> simp [rstep, rplain, quantify, rread]

theorem readRegex_bars (ts : List Str) (gss : List (List Rx)) (h : All2 RReads ts gss) (hne : ts ≠ []) :
    readRegex (joinWith ['|'] ts) = some gss := by
  obtain ⟨a', c', r, e⟩ := rread_bars ts gss h hne [] [] []
  have hc : a' ++ [c'] = gss := by
    rw [e]
    cases h with
    | nil => exact absurd rfl hne
    | cons _ _ => rfl
  unfold readRegex
  rw [r]
  simp only [hc]

/-- `[ab]` for two characters. -/
theorem rreads_two (a b : Char) (ha : RxPlain a) (hb : RxPlain b) :
    RReads ['[', a, b, ']'] [.cls false [(a, a), (b, b)]] := by
  intro f al c
  simp only [RxPlain, S, String.reduceToList, List.mem_cons, List.not_mem_nil, or_false, not_or] at ha hb
  by_cases hb2 : b = '-'
  · subst hb2
    simp [rread, rstep, rplain, rcls, ha, clsRanges]
  · simp [rread, rstep, rplain, rcls, ha, hb, clsRanges]

theorem repeat_dot (w : Str) : Repeat (Rx.Lang .dot) w ↔ '\n' ∉ w := by
  constructor
  · intro h
    induction h with
    | nil => simp
    | @cons a b ha _ ih =>
      obtain ⟨c, rfl, hc⟩ := ha
      simp only [List.cons_append, List.nil_append, List.mem_cons, ih, or_false]
      exact fun e => hc e.symm
  · intro h
    induction w with
    | nil => exact .nil
    | cons c w ih =>
      simp only [List.mem_cons, not_or] at h
      have := Repeat.cons (L := Rx.Lang .dot) (a := [c]) (b := w) ⟨c, rfl, fun e => h.1 e.symm⟩ (ih h.2)
      simpa using this

end CC
