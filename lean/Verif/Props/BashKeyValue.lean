import Verif.Props.BashValueList
import Verif.Spec.KeyValues
import Verif.Model.BashKeyValue
import Verif.Props.Choices
/-!
# C84: the helper functions `key_value_list` and `key_value_pair` in Bash
-/

namespace CC
open Typed ItemList

/-! ## Texts -/

theorem behindLast_none (chars : List Char) (u : Str) (h : ∀ c ∈ u, c ∉ chars) : behindLast chars u = u := by
  unfold behindLast
  have : u.reverse.takeWhile (fun c => !chars.contains c) = u.reverse := by
    have hr : ∀ c ∈ u.reverse, c ∉ chars := fun c hc => h c (List.mem_reverse.mp hc)
    revert hr
    generalize u.reverse = r
    intro hr
    induction r with
    | nil => rfl
    | cons c cs ih =>
      have := hr c (by simp)
      have ih' := ih (fun x hx => hr x (by simp [hx]))
      rw [List.takeWhile_cons, if_pos (by simp [this]), ih']
  rw [this, List.reverse_reverse]

theorem behindLast_append (chars : List Char) (a b : Str) (h : ∀ c ∈ b, c ∉ chars) :
    behindLast chars (a ++ b) = behindLast chars a ++ b := by
  unfold behindLast
  rw [List.reverse_append, List.takeWhile_append_of_pos]
  · simp
  · intro c hc
    have := h c (List.mem_reverse.mp hc)
    simp [this]

theorem behindLast_end (chars : List Char) (a : Str) (c : Char) (h : c ∈ chars) : behindLast chars (a ++ [c]) = [] := by
  unfold behindLast
  simp [h]

theorem behindLast_split (chars : List Char) (u : Str) : ∃ f, u = f ++ behindLast chars u ∧
    (f = [] ∨ ∃ g c, f = g ++ [c] ∧ c ∈ chars) ∧ ∀ c ∈ behindLast chars u, c ∉ chars := by
  generalize hn : u.length = n
  induction n generalizing u with
  | zero =>
    have : u = [] := List.length_eq_zero_iff.mp hn
    subst this
    exact ⟨[], rfl, Or.inl rfl, by simp [behindLast]⟩
  | succ n ih =>
    have hne : u ≠ [] := by intro e; simp [e] at hn
    obtain ⟨v, c, rfl⟩ : ∃ v c, u = v ++ [c] := ⟨u.dropLast, u.getLast hne, (List.dropLast_concat_getLast hne).symm⟩
    by_cases hc : c ∈ chars
    · rw [behindLast_end chars v c hc]
      exact ⟨v ++ [c], by simp, Or.inr ⟨v, c, rfl, hc⟩, by simp⟩
    · rw [behindLast_append chars v [c] (by simpa using hc)]
      obtain ⟨f, h1, h2, h3⟩ := ih v (by simp at hn; exact hn)
      refine ⟨f, ?_, h2, ?_⟩
      · rw [← List.append_assoc, ← h1]
      · intro x hx
        rcases List.mem_append.mp hx with hx | hx
        · exact h3 x hx
        · simp only [List.mem_singleton] at hx
          exact hx ▸ hc

/-- The break position of a text without quotes. -/
theorem lastBreak_plain (breaks chars : List Char) (u : Str) (h : ∀ c ∈ u, c ∈ breaks ↔ c ∈ chars) (f : Str)
    (hf : u = f ++ behindLast chars u) (hfe : f = [] ∨ ∃ g c, f = g ++ [c] ∧ c ∈ chars)
    (hb : ∀ c ∈ behindLast chars u, c ∉ chars) :
    (lastBreak breaks (u.map (·, false))).getD 0 = f.length := by
  have hnone : ∀ b : Str, (∀ c ∈ b, c ∉ breaks) → lastBreak breaks (b.map (·, false)) = none := by
    intro b
    induction b with
    | nil => intro _; rfl
    | cons c cs ih =>
      intro hb
      simp only [List.map_cons, lastBreak, ih (fun x hx => hb x (by simp [hx]))]
      simp [hb c (by simp)]
  have happ : ∀ (a b : List (Char × Bool)), lastBreak breaks b = none →
      (lastBreak breaks (a ++ b)) = lastBreak breaks a := by
    intro a b hn
    induction a with
    | nil => simpa [lastBreak] using hn
    | cons p a ih => simp only [List.cons_append, lastBreak, ih]
  have hend : ∀ (a : List (Char × Bool)) c, c ∈ breaks → lastBreak breaks (a ++ [(c, false)]) = some (a.length + 1) := by
    intro a c hc
    induction a with
    | nil => simp [lastBreak, hc]
    | cons p a ih => simp only [List.cons_append, lastBreak, ih]; simp
  generalize behindLast chars u = b at hf hb
  subst hf
  have hb' : ∀ c ∈ b, c ∉ breaks := fun c hc hcb => hb c hc ((h c (by simp [hc])).mp hcb)
  rw [List.map_append, happ _ _ (hnone b hb')]
  rcases hfe with rfl | ⟨g, c, rfl, hc⟩
  · rfl
  · have hcb : c ∈ breaks := (h c (by simp)).mpr hc
    rw [List.map_append, List.map_cons, List.map_nil, hend _ _ hcb]
    simp

theorem read_plain (u : Str) (h : ∀ c ∈ u, c ≠ '\'' ∧ c ≠ '"' ∧ c ≠ '\\') :
    read .bare u = (u.map (·, false), .bare) ∧ clean .bare u = true := by
  induction u with
  | nil => exact ⟨rfl, rfl⟩
  | cons c cs ih =>
    have := h c (by simp)
    obtain ⟨h1, h2⟩ := ih (fun x hx => h x (by simp [hx]))
    constructor
    · rw [Typed.read.eq_def]; simp [this, h1]
    · rw [clean.eq_def]; simp [this, h2]

/-! ## Items -/

theorem current_no_sep (sep : Char) (u : Str) : sep ∉ current sep u := by
  induction u with
  | nil => simp [current, items]
  | cons c cs ih =>
    rw [current_cons]
    split
    · rename_i h
      simp only [List.mem_cons, not_or]
      exact ⟨fun e => h.1 e.symm, ih⟩
    · exact ih

theorem before_end (sep : Char) (u : Str) : before sep u = [] ∨ ∃ g, before sep u = g ++ [sep] := by
  induction u with
  | nil => left; rfl
  | cons c cs ih =>
    have h1 := before_current sep (c :: cs)
    have h2 := before_current sep cs
    rw [current_cons] at h1
    by_cases hh : c ≠ sep ∧ (items sep cs).length = 1
    · rw [if_pos hh] at h1
      left
      have := items_length sep cs hh.2
      rw [← this] at h1
      have hl := congrArg List.length h1
      rw [List.length_append] at hl
      exact List.length_eq_zero_iff.mp (by omega)
    · rw [if_neg hh] at h1
      have : before sep (c :: cs) = c :: before sep cs := by
        have e : before sep (c :: cs) ++ current sep cs = (c :: before sep cs) ++ current sep cs := by
          rw [← h1, List.cons_append, ← h2]
        exact List.append_cancel_right e
      rw [this]
      right
      rcases ih with ih | ⟨g, ih⟩
      · rw [ih]
        rw [ih, List.nil_append] at h2
        by_cases hc : c = sep
        · exact ⟨[], by simp [hc]⟩
        · exfalso
          apply hh
          refine ⟨hc, ?_⟩
          have hns := current_no_sep sep cs
          rw [← h2] at hns
          clear hh h1 h2 ih this
          induction cs with
          | nil => rfl
          | cons d ds ih =>
            have hd : d ≠ sep := fun e => hns (by simp [e])
            have := ih (fun h => hns (by simp [h]))
            obtain ⟨i, r, hi⟩ := items_cases sep ds
            rw [hi] at this
            simp only [items, if_neg hd, hi]
            simpa using this
      · rw [ih]
        exact ⟨c :: g, rfl⟩

theorem behindLast_current (sep : Char) (u : Str) : behindLast [sep] u = current sep u := by
  have hn := current_no_sep sep u
  have h := before_current sep u
  generalize current sep u = p at *
  rcases before_end sep u with e | ⟨g, e⟩
  · rw [e] at h
    rw [h]
    exact behindLast_none _ _ (fun c hc => by simp only [List.mem_singleton]; intro e; exact hn (e ▸ hc))
  · rw [e] at h
    rw [h, behindLast_append _ _ _ (fun c hc => by simp only [List.mem_singleton]; intro e; exact hn (e ▸ hc)),
      behindLast_end _ _ _ (by simp)]
    rfl

theorem keyOf_eq (sep : Char) (p : Str) : keyOf sep p = beforeFirst sep p := by
  unfold keyOf beforeFirst
  induction p with
  | nil => rfl
  | cons c cs ih =>
    obtain ⟨i, r, h⟩ := items_cases sep cs
    rw [h] at ih
    simp only [items, h, List.takeWhile_cons]
    by_cases hc : c = sep
    · simp [hc]
    · simp only [if_neg hc, bne_iff_ne, ne_eq, hc, not_false_eq_true, if_true, ← ih]
      rfl

theorem split_at_first (sep : Char) (p : Str) (h : sep ∈ p) :
    p = beforeFirst sep p ++ sep :: behindFirst sep p ∧ sep ∉ beforeFirst sep p := by
  unfold beforeFirst behindFirst
  induction p with
  | nil => simp at h
  | cons c cs ih =>
    by_cases hc : c = sep
    · simp [hc]
    · have := ih ((List.mem_cons.mp h).resolve_left (fun e => hc e.symm))
      simp only [List.takeWhile_cons, List.dropWhile_cons, bne_iff_ne, ne_eq, hc, not_false_eq_true, if_true,
        List.cons_append, List.mem_cons, not_or]
      exact ⟨by rw [← this.1], fun e => hc e.symm, this.2⟩

theorem beforeFirst_append (sep : Char) (a b : Str) (h : sep ∉ a) : beforeFirst sep (a ++ sep :: b) = a ∧
    behindFirst sep (a ++ sep :: b) = b := by
  unfold beforeFirst behindFirst
  induction a with
  | nil => simp
  | cons c cs ih =>
    have hc : c ≠ sep := fun e => h (by simp [e])
    have := ih (fun hh => h (by simp [hh]))
    simp [List.takeWhile_cons, List.dropWhile_cons, hc, this]

/-! ## Keys -/

theorem keyNames_mem (es : List KeyArgs) (k : Str) : k ∈ keyNames es ↔ ∃ e ∈ es, e.key = k := by
  induction es with
  | nil => simp [keyNames]
  | cons e es ih =>
    simp only [keyNames]
    by_cases h : e.key ∈ keyNames es
    · rw [if_pos (by simpa using h), ih]
      constructor
      · rintro ⟨x, hx, hk⟩; exact ⟨x, by simp [hx], hk⟩
      · rintro ⟨x, hx, hk⟩
        rcases List.mem_cons.mp hx with rfl | hx
        · rw [← ih, ← hk]; exact h
        · exact ⟨x, hx, hk⟩
    · rw [if_neg (by simpa using h)]
      simp [ih, eq_comm]

theorem keyLookup_some (es : List KeyArgs) (hd : (es.map (·.key)).Nodup) (e : KeyArgs) :
    keyLookup es e.key = some e ↔ e ∈ es := by
  unfold keyLookup
  constructor
  · intro h
    exact List.mem_reverse.mp (List.mem_of_find?_eq_some h)
  · intro h
    cases hf : es.reverse.find? (fun x => x.key = e.key) with
    | none =>
      rw [List.find?_eq_none] at hf
      exact absurd (by simp) (hf e (List.mem_reverse.mpr h))
    | some x =>
      have hx := List.mem_reverse.mp (List.mem_of_find?_eq_some hf)
      have hk : x.key = e.key := by simpa using List.find?_some hf
      congr 1
      clear hf
      induction es with
      | nil => simp at h
      | cons y es ih =>
        simp only [List.map_cons, List.nodup_cons, List.mem_map, not_exists, not_and] at hd
        rcases List.mem_cons.mp h with rfl | h' <;> rcases List.mem_cons.mp hx with rfl | hx'
        · rfl
        · exact absurd hk (hd.1 x hx')
        · exact absurd hk.symm (hd.1 e h')
        · exact ih hd.2 h' hx'

theorem keyLookup_none (es : List KeyArgs) (k : Str) (h : keyLookup es k = none) : ∀ e ∈ es, e.key ≠ k := by
  unfold keyLookup at h
  rw [List.find?_eq_none] at h
  intro e he
  simpa using h e (List.mem_reverse.mpr he)

theorem keyLookup_key (es : List KeyArgs) (k : Str) (e : KeyArgs) (h : keyLookup es k = some e) : e.key = k ∧ e ∈ es := by
  unfold keyLookup at h
  exact ⟨by simpa using List.find?_some h, List.mem_reverse.mp (List.mem_of_find?_eq_some h)⟩

/-! ## Excluded keys -/

theorem items_no_sep (sep : Char) (x : Str) (h : sep ∉ x) : items sep x = [x] := by
  induction x with
  | nil => rfl
  | cons c cs ih =>
    have hc : c ≠ sep := fun e => h (by simp [e])
    simp only [items, if_neg hc, ih (fun hh => h (by simp [hh]))]

theorem items_join (sep : Char) : ∀ (l : List Str), l ≠ [] → (∀ x ∈ l, sep ∉ x) → items sep (joinWith [sep] l) = l := by
  have hcons : ∀ (x r : Str), sep ∉ x → items sep (x ++ sep :: r) = x :: items sep r := by
    intro x r hx
    induction x with
    | nil => simp [items]
    | cons c cs ih =>
      have hc : c ≠ sep := fun e => hx (by simp [e])
      simp only [List.cons_append, items, if_neg hc, ih (fun hh => hx (by simp [hh]))]
  intro l
  induction l with
  | nil => intro h; exact absurd rfl h
  | cons x l ih =>
    intro _ h
    have hx := h x (by simp)
    cases l with
    | nil => simpa [joinWith] using items_no_sep sep x hx
    | cons y l =>
      have := ih (by simp) (fun z hz => h z (by simp [hz]))
      simp only [joinWith, List.append_assoc, List.singleton_append]
      rw [hcons _ _ hx, this]

/-- A list of words joined with blanks is read back. -/
theorem readFields_join (l : List Str) (h : ∀ x ∈ l, x ≠ [] ∧ ' ' ∉ x ∧ '\n' ∉ x) :
    readFields ' ' (joinWith [' '] l) = l := by
  have hn : '\n' ∉ joinWith [' '] l := by
    have h' : ∀ x ∈ l, '\n' ∉ x := fun x hx => (h x hx).2.2
    clear h
    induction l with
    | nil => simp [joinWith]
    | cons x l ih =>
      cases l with
      | nil => simpa [joinWith] using h' x (by simp)
      | cons y l =>
        simp only [joinWith, List.mem_append, not_or]
        exact ⟨⟨h' x (by simp), by decide⟩, ih (fun z hz => h' z (by simp [hz]))⟩
  cases hl : l with
  | nil => rfl
  | cons y t =>
    rw [← hl]
    have hne : l ≠ [] := by simp [hl]
    simp only [readFields, takeWhile_line _ hn]
    rw [if_pos (Or.inl trivial), fields_items, items_join ' ' l hne (fun x hx => (h x hx).2.1)]
    unfold withoutEmptyLast
    have hlast : l.getLastD [] ≠ [] := by
      rw [List.getLastD_eq_getLast?, List.getLast?_eq_some_getLast hne]
      exact (h _ (List.getLast_mem hne)).1
    rw [if_neg hlast]
    rw [List.filter_eq_self]
    intro x hx
    simpa using (h x hx).1

/-- A key as the generator passes it to the helper function. -/
def KeyArgs.asKey (run : Str → Str → List Str) (excl : KeyArgs → List Str) (e : KeyArgs) : KeyInfo :=
  ⟨e.key, run e.func, excl e⟩

theorem excludedKeys_spec (es : List KeyArgs) (run : Str → Str → List Str) (excl : KeyArgs → List Str) (sep1 sep2 : Char)
    (hs : sep1 ≠ '\n') (u : Str) (hn : '\n' ∉ u) (hd : (es.map (·.key)).Nodup) (hk : ∀ e ∈ es, e.key ≠ [])
    (he : ∀ e ∈ es, e.excludes = joinWith [' '] (excl e) ∧ ∀ x ∈ excl e, x ≠ [] ∧ ' ' ∉ x ∧ '\n' ∉ x) (k : Str) :
    k ∈ excludedKeys es sep1 sep2 u ↔ Excluded (es.map (KeyArgs.asKey run excl)) sep1 sep2 u k := by
  have hf : ∀ pair, pair ≠ [] → (pair ∈ readFields sep1 u ↔ pair ∈ items sep1 u) := by
    intro pair hp
    rw [(readFields_spec sep1 hs u hn).1 pair (fun _ => hp), items_split]
    simp only [List.mem_append, List.mem_singleton]
    constructor
    · rintro (h | h)
      · exact Or.inl h
      · exact Or.inr h.1
    · rintro (h | h)
      · exact Or.inl h
      · exact Or.inr ⟨h, h ▸ hp⟩
  unfold excludedKeys Excluded
  simp only [List.mem_flatMap, List.mem_map]
  constructor
  · rintro ⟨pair, hp, hm⟩
    cases hl : keyLookup es (beforeFirst sep2 pair) with
    | none => simp [hl] at hm
    | some e =>
      obtain ⟨h1, h2⟩ := keyLookup_key es _ e hl
      simp only [hl] at hm
      have hne : pair ≠ [] := by
        intro e'; subst e'
        exact hk e h2 (by rw [h1]; rfl)
      refine ⟨pair, (hf pair hne).mp hp, e.asKey run excl, ⟨e, h2, rfl⟩, ?_, ?_⟩
      · rw [keyOf_eq]; exact h1
      · rw [(he e h2).1, readFields_join _ (he e h2).2] at hm
        exact hm
  · rintro ⟨pair, hp, _, ⟨e, h2, rfl⟩, h1, hm⟩
    rw [keyOf_eq] at h1
    have h1 : e.key = beforeFirst sep2 pair := h1
    have hne : pair ≠ [] := by
      intro e'; subst e'
      exact hk e h2 (by rw [h1]; rfl)
    refine ⟨pair, (hf pair hne).mpr hp, ?_⟩
    rw [← h1, (keyLookup_some es hd e).mpr h2]
    simp only
    rw [(he e h2).1, readFields_join _ (he e h2).2]
    exact hm

/-- The word is typed without any quoting, and its only break characters are separators; or all of it is in quotes. -/
def PlainOrQuoted (breaks seps : List Char) (cur : Str) : Prop :=
  (∀ c ∈ cur, (c ≠ '\'' ∧ c ≠ '"' ∧ c ≠ '\\') ∧ (c ∈ breaks → c ∈ seps)) ∨
  ((cur.head? = some '"' ∨ cur.head? = some '\'') ∧ lastBreak breaks (read .bare cur).1 = none)

/-- What the line editor keeps is what the helper functions strip. -/
theorem break_strip (breaks seps : List Char) (cur : Str) (hc : clean .bare cur = true) (h : PlainOrQuoted breaks seps cur) :
    ∃ f, text cur = f ++ behindLast (stripChars breaks seps cur) (text cur) ∧
      ∀ x, accept breaks cur x = f ++ x := by
  obtain ⟨f, h1, h2, h3⟩ := behindLast_split (stripChars breaks seps cur) (text cur)
  refine ⟨f, h1, fun x => ?_⟩
  have hlen : (lastBreak breaks (read .bare cur).1).getD 0 = f.length := by
    rcases h with h | ⟨hq, hl⟩
    · obtain ⟨hr, -⟩ := read_plain cur (fun c hc => (h c hc).1)
      have ht : text cur = cur := by simp [text, hr, Function.comp_def]
      rw [hr]
      have hs : stripChars breaks seps cur = seps.filter (fun c => breaks.contains c) := by
        unfold stripChars
        rw [if_neg]
        intro hh
        cases cur with
        | nil => simp at hh
        | cons c cs =>
          have := h c (by simp)
          simp [this] at hh
      rw [ht] at h1 h3
      refine lastBreak_plain breaks (stripChars breaks seps cur) cur ?_ f h1 h2 h3
      intro c hc
      rw [hs]
      simp only [List.mem_filter, List.contains_eq_mem, decide_eq_true_eq]
      exact ⟨fun hb => ⟨(h c hc).2 hb, hb⟩, fun hb => hb.2⟩
    · rw [hl]
      have hs : stripChars breaks seps cur = [] := by
        unfold stripChars
        rw [if_pos hq]
      rw [hs] at h2
      rcases h2 with h2 | ⟨g, c, -, hcc⟩
      · simp [h2]
      · simp at hcc
  unfold accept
  rw [hlen]
  congr 1
  rw [h1]
  simp

/-- The value of a key: the word that results. -/
theorem accept_value (breaks seps : List Char) (cur w v : Str) (f : Str)
    (hf : text cur = f ++ behindLast (stripChars breaks seps cur) (text cur)) (ha : ∀ x, accept breaks cur x = f ++ x)
    (ht : text cur = w ++ v) (hv : ∀ c ∈ v, c ∉ stripChars breaks seps cur) (run : Str → Str → List Str) (func : Str) :
    (valueReplies run (stripChars breaks seps cur) func (text cur) v).map (accept breaks cur) =
      (run func v).map (w ++ ·) := by
  unfold valueReplies
  rw [List.map_map]
  refine List.map_congr_left fun r _ => ?_
  simp only [Function.comp, ha]
  have h1 : (text cur).take ((text cur).length - v.length) = w := by rw [ht]; simp
  rw [h1]
  rw [ht, behindLast_append _ _ _ hv, ← List.append_assoc] at hf
  rw [← List.append_assoc, ← List.append_cancel_right hf]

/-- **C84.** A word results from a choice exactly when it is one that a list of pairs should be completed to. It is
partial because of the hypotheses: the keys are different, not empty, and (as names in `excludes`) without blanks
(`C84_blank_key`), the word is typed without quotes or as a whole in quotes, other break characters than the
separators are not in it, and none is in the value (`C84_value_break`). -/
theorem C84_key_value_list_partial (breaks : List Char) (run : Str → Str → List Str) (sep1 sep2 : Char)
    (es : List KeyArgs) (excl : KeyArgs → List Str) (cur : Str) (hs : sep1 ≠ '\n') (hc : clean .bare cur = true)
    (hn : '\n' ∉ text cur) (hd : (es.map (·.key)).Nodup) (hk : ∀ e ∈ es, e.key ≠ [])
    (he : ∀ e ∈ es, e.excludes = joinWith [' '] (excl e) ∧ ∀ x ∈ excl e, x ≠ [] ∧ ' ' ∉ x ∧ '\n' ∉ x)
    (hp : PlainOrQuoted breaks [sep1, sep2] cur)
    (hv : ∀ k v, current sep1 (text cur) = k ++ sep2 :: v → sep2 ∉ k → sep2 ∈ breaks → sep2 ∉ v) (word : Str) :
    word ∈ (keyValueListHelper breaks run sep1 sep2 es cur).map (accept breaks cur) ↔
      PairOffered (es.map (KeyArgs.asKey run excl)) sep1 sep2 (text cur) word := by
  obtain ⟨f, hf, ha⟩ := break_strip breaks [sep1, sep2] cur hc hp
  have hrem : ∀ k, k ∈ remainingKeys es sep1 sep2 (text cur) ↔
      (∃ e ∈ es, e.key = k) ∧ ¬ Excluded (es.map (KeyArgs.asKey run excl)) sep1 sep2 (text cur) k := by
    intro k
    unfold remainingKeys
    rw [List.mem_filter, keyNames_mem, ← excludedKeys_spec es run excl sep1 sep2 hs (text cur) hn hd hk he k]
    simp
  have hbc := before_current sep1 (text cur)
  have hce := current_empty sep1 (text cur)
  have hstrip : ∀ c ∈ stripChars breaks [sep1, sep2] cur, c = sep1 ∨ c = sep2 := by
    intro c
    unfold stripChars
    split
    · simp
    · intro h
      simpa using (List.mem_filter.mp h).1
  have hstrip2 : sep2 ∈ stripChars breaks [sep1, sep2] cur → sep2 ∈ breaks := by
    unfold stripChars
    split
    · simp
    · intro h
      simpa using (List.mem_filter.mp h).2
  have hns := current_no_sep sep1 (text cur)
  unfold keyValueListHelper
  rw [C80_dequote_partial breaks cur hc]
  simp only
  rw [behindLast_current]
  unfold PairOffered
  have keysCase : ∀ (l : List Str) (g : Str), sep2 ∉ current sep1 (text cur) →
      (∀ k, k ∈ l ↔ (∃ e ∈ es, e.key = k) ∧ current sep1 (text cur) <+: k ∧
        ¬ Excluded (es.map (KeyArgs.asKey run excl)) sep1 sep2 (text cur) k) → f ++ g = before sep1 (text cur) →
      (word ∈ (l.map (g ++ ·)).map (accept breaks cur) ↔
        if sep2 ∈ current sep1 (text cur) then
          ∃ k ∈ es.map (KeyArgs.asKey run excl), ∃ value, current sep1 (text cur) = k.name ++ sep2 :: value ∧ sep2 ∉ k.name ∧
            ∃ r ∈ k.values value, word = before sep1 (text cur) ++ k.name ++ sep2 :: r
        else
          ∃ k ∈ es.map (KeyArgs.asKey run excl), current sep1 (text cur) <+: k.name ∧
            ¬ Excluded (es.map (KeyArgs.asKey run excl)) sep1 sep2 (text cur) k.name ∧
            word = before sep1 (text cur) ++ k.name) := by
    intro l g hns2 hl hg
    rw [if_neg hns2]
    simp only [List.mem_map, ha]
    constructor
    · rintro ⟨_, ⟨k, hk', rfl⟩, rfl⟩
      obtain ⟨⟨e, he1, rfl⟩, h2, h3⟩ := (hl k).mp hk'
      exact ⟨e.asKey run excl, ⟨e, he1, rfl⟩, h2, h3, by rw [← hg, List.append_assoc]; rfl⟩
    · rintro ⟨_, ⟨e, he1, rfl⟩, h2, h3, rfl⟩
      exact ⟨_, ⟨e.key, (hl e.key).mpr ⟨⟨e, he1, rfl⟩, h2, h3⟩, rfl⟩, by rw [← hg, List.append_assoc]; rfl⟩
  by_cases hu : text cur = []
  · rw [if_pos (by simp [hu])]
    have hcur : current sep1 (text cur) = [] := by rw [hu]; rfl
    have hfe : f = [] := by
      rw [hu] at hf
      simp at hf
      exact hf.1
    have hnoex : ∀ k, ¬ Excluded (es.map (KeyArgs.asKey run excl)) sep1 sep2 (text cur) k := by
      rintro k ⟨pair, h1, _, h2, h3, h4⟩
      rw [hu] at h1
      simp only [items, List.mem_singleton] at h1
      subst h1
      obtain ⟨e, he1, rfl⟩ := List.mem_map.mp h2
      exact hk e he1 h3
    have := keysCase (keyNames es) [] (by rw [hcur]; simp) (fun k => by
      rw [keyNames_mem, hcur]; simp [hnoex]) (by rw [hfe, hu]; rfl)
    simpa using this
  · rw [if_neg (show ¬ List.isEmpty (text cur) = true by simpa using hu)]
    have hce := hce hu
    by_cases hcur : current sep1 (text cur) = []
    · rw [if_pos (hce.mp hcur)]
      refine keysCase _ _ (by rw [hcur]; simp) (fun k => by rw [hrem, hcur]; simp) ?_
      rw [← hf]
      rw [hcur, List.append_nil] at hbc
      exact hbc
    · rw [if_neg (fun h => hcur (hce.mpr h))]
      by_cases h2 : sep2 ∈ current sep1 (text cur)
      · rw [if_pos (show List.contains (current sep1 (text cur)) sep2 = true by simpa using h2), if_pos h2]
        obtain ⟨hsp, hnk⟩ := split_at_first sep2 _ h2
        have hnv : ∀ c ∈ behindFirst sep2 (current sep1 (text cur)), c ∉ stripChars breaks [sep1, sep2] cur := by
          intro c hcm hcs
          rcases hstrip c hcs with rfl | rfl
          · apply hns
            rw [hsp]
            simp [hcm]
          · exact hv _ _ hsp hnk (hstrip2 hcs) hcm
        cases hl : keyLookup es (beforeFirst sep2 (current sep1 (text cur))) with
        | none =>
          simp only [List.map_nil, List.not_mem_nil, false_iff]
          rintro ⟨_, hm, value, h3, h4, -⟩
          obtain ⟨e, he1, rfl⟩ := List.mem_map.mp hm
          refine keyLookup_none es _ hl e he1 ?_
          rw [h3]
          exact (beforeFirst_append sep2 _ value h4).1.symm
        | some e =>
          obtain ⟨h3, h4⟩ := keyLookup_key es _ e hl
          simp only
          rw [accept_value breaks [sep1, sep2] cur
            (before sep1 (text cur) ++ (beforeFirst sep2 (current sep1 (text cur)) ++ [sep2]))
            (behindFirst sep2 (current sep1 (text cur))) f hf ha ?_ hnv]
          · rw [List.mem_map]
            constructor
            · rintro ⟨r, hr, rfl⟩
              refine ⟨e.asKey run excl, List.mem_map.mpr ⟨e, h4, rfl⟩, behindFirst sep2 (current sep1 (text cur)), ?_, ?_,
                r, hr, ?_⟩
              · show _ = e.key ++ _
                rw [h3]; exact hsp
              · show sep2 ∉ e.key
                rw [h3]; exact hnk
              · show _ = _ ++ e.key ++ _
                rw [h3]; simp
            · rintro ⟨_, hm, value, h5, h6, r, hr, rfl⟩
              obtain ⟨e', he1, rfl⟩ := List.mem_map.mp hm
              obtain ⟨h7, h8⟩ := beforeFirst_append sep2 _ value h6
              rw [← h5] at h7 h8
              have hee : e' = e := by
                have := (keyLookup_some es hd e').mpr he1
                rw [show e'.key = beforeFirst sep2 (current sep1 (text cur)) from h7.symm, hl] at this
                exact (Option.some.inj this).symm
              subst hee
              refine ⟨r, by rw [h8]; exact hr, ?_⟩
              rw [h7]; simp
          · conv => lhs; rw [hbc, hsp]
            simp
      · rw [if_neg (show ¬ List.contains (current sep1 (text cur)) sep2 = true by simpa using h2)]
        have hno : ∀ c ∈ current sep1 (text cur), c ∉ stripChars breaks [sep1, sep2] cur := by
          intro c hcm hcs
          rcases hstrip c hcs with rfl | rfl
          · exact hns hcm
          · exact h2 hcm
        have hbl : behindLast (stripChars breaks [sep1, sep2] cur) (text cur) =
            behindLast (stripChars breaks [sep1, sep2] cur) (before sep1 (text cur)) ++ current sep1 (text cur) := by
          conv => lhs; rw [hbc]
          exact behindLast_append _ _ _ hno
        rw [hbl, removeSuffix_append]
        refine keysCase _ _ h2 (fun k => ?_) ?_
        · rw [List.mem_filter, hrem, List.isPrefixOf_iff_prefix]
          constructor
          · rintro ⟨⟨a, b⟩, c⟩; exact ⟨a, c, b⟩
          · rintro ⟨a, b, c⟩; exact ⟨⟨a, c⟩, b⟩
        · rw [hbl, ← List.append_assoc] at hf
          have e : before sep1 (text cur) ++ current sep1 (text cur) =
              f ++ behindLast (stripChars breaks [sep1, sep2] cur) (before sep1 (text cur)) ++ current sep1 (text cur) := by
            rw [← hbc]; exact hf
          exact (List.append_cancel_right e).symm

/-- **C84.** For one pair: without the separator, the keys that start with the text are offered; behind a key and the
separator, the word that results is the key with one of its values. It is partial for the same reasons, and no key
may be an option of the helper function `values` (`C84_option_key`). -/
theorem C84_key_value_pair_partial (breaks : List Char) (run : Str → Str → List Str) (printfQ : Str → Str) (sep : Char)
    (es : List KeyArgs) (cur : Str) (hc : clean .bare cur = true) (hd : (es.map (·.key)).Nodup)
    (ho : ∀ e ∈ es, e.key ≠ S "-a" ∧ e.key ≠ S "--") (hp : PlainOrQuoted breaks [sep] cur)
    (hv : ∀ k v, text cur = k ++ sep :: v → sep ∉ k → sep ∈ breaks → sep ∉ v) :
    (sep ∉ text cur → ∀ r, r ∈ keyValuePairHelper breaks run printfQ sep es cur ↔
      ∃ e ∈ es, text cur <+: e.key ∧ r = printfQ e.key) ∧
    (sep ∈ text cur → ∀ word, word ∈ (keyValuePairHelper breaks run printfQ sep es cur).map (accept breaks cur) ↔
      ∃ e ∈ es, ∃ v, text cur = e.key ++ sep :: v ∧ sep ∉ e.key ∧ ∃ r ∈ run e.func v, word = e.key ++ sep :: r) := by
  obtain ⟨f, hf, ha⟩ := break_strip breaks [sep] cur hc hp
  unfold keyValuePairHelper
  rw [C80_dequote_partial breaks cur hc]
  simp only
  constructor
  · intro hs r
    rw [if_neg (by simpa using hs)]
    have hhead : ∀ o, (∀ e ∈ es, e.key ≠ o) → (keyNames es).head? ≠ some o := by
      intro o h e
      obtain ⟨x, hx, hxo⟩ := (keyNames_mem es o).mp (List.mem_of_mem_head? e)
      exact h x hx hxo
    unfold bashValues
    simp only [hhead _ (fun e h => (ho e h).1), hhead _ (fun e h => (ho e h).2), if_false, List.nil_append, List.mem_map,
      List.mem_filter, keyNames_mem]
    constructor
    · rintro ⟨k, ⟨⟨e, h1, rfl⟩, h2⟩, rfl⟩
      exact ⟨e, h1, by simpa [startsWith_isPrefix] using h2, rfl⟩
    · rintro ⟨e, h1, h2, rfl⟩
      exact ⟨e.key, ⟨⟨e, h1, rfl⟩, by simpa [startsWith_isPrefix] using h2⟩, rfl⟩
  · intro hs word
    rw [if_pos (by simpa using hs)]
    obtain ⟨hsp, hnk⟩ := split_at_first sep _ hs
    have hnv : ∀ c ∈ behindFirst sep (text cur), c ∉ stripChars breaks [sep] cur := by
      intro c hcm
      unfold stripChars
      split
      · simp
      · intro h
        obtain ⟨h1, h2⟩ := List.mem_filter.mp h
        simp only [List.mem_singleton] at h1
        subst h1
        exact hv _ _ hsp hnk (by simpa using h2) hcm
    cases hl : keyLookup es (beforeFirst sep (text cur)) with
    | none =>
      simp only [List.map_nil, List.not_mem_nil, false_iff]
      rintro ⟨e, he1, v, h3, h4, -⟩
      refine keyLookup_none es _ hl e he1 ?_
      rw [h3]
      exact (beforeFirst_append sep _ v h4).1.symm
    | some e =>
      obtain ⟨h3, h4⟩ := keyLookup_key es _ e hl
      simp only
      rw [accept_value breaks [sep] cur (beforeFirst sep (text cur) ++ [sep]) (behindFirst sep (text cur)) f hf ha
        (by conv => lhs; rw [hsp]
            simp) hnv]
      rw [List.mem_map]
      constructor
      · rintro ⟨r, hr, rfl⟩
        exact ⟨e, h4, behindFirst sep (text cur), by rw [h3]; exact hsp, by rw [h3]; exact hnk, r, hr, by rw [h3]; simp⟩
      · rintro ⟨e', he1, v, h5, h6, r, hr, rfl⟩
        obtain ⟨h7, h8⟩ := beforeFirst_append sep _ v h6
        rw [← h5] at h7 h8
        have hee : e' = e := by
          have := (keyLookup_some es hd e').mpr he1
          rw [h7.symm, hl] at this
          exact (Option.some.inj this).symm
        subst hee
        exact ⟨r, by rw [h8]; exact hr, by rw [h7]; simp⟩

/-! ## Examples and witnesses -/

/-- The commands of the examples: the name is what is offered. -/
def offerName (func _ : Str) : List Str := [func]

/-- The keys `ro` and `rw`, which exclude each other, and `size`. -/
def mountKeys : List KeyArgs := [⟨S "ro", S "false", S "ro rw"⟩, ⟨S "rw", S "false", S "rw ro"⟩, ⟨S "size", S "5G", S "size"⟩]

/-- The keys excluded by each of them. -/
def mountExcludes (e : KeyArgs) : List Str :=
  if e.key = S "ro" then [S "ro", S "rw"] else if e.key = S "rw" then [S "rw", S "ro"] else [S "size"]

theorem C84_example :
    (mountKeys.map (·.key)).Nodup ∧ (∀ e ∈ mountKeys, e.key ≠ []) ∧
    (∀ e ∈ mountKeys, e.excludes = joinWith [' '] (mountExcludes e) ∧ ∀ x ∈ mountExcludes e, x ≠ [] ∧ ' ' ∉ x ∧ '\n' ∉ x) ∧
    PlainOrQuoted ['='] [',', '='] (S "ro,s") ∧
    keyValueListHelper ['='] offerName ',' '=' mountKeys (S "ro,s") = [S "ro,size"] ∧
    keyValueListHelper ['='] offerName ',' '=' mountKeys (S "ro,") = [S "ro,size"] ∧
    keyValueListHelper ['='] offerName ',' '=' mountKeys (S "ro,size=") = [S "5G"] ∧
    keyValueListHelper [] offerName ',' '=' mountKeys (S "ro,size=") = [S "ro,size=5G"] ∧
    keyValueListHelper ['='] offerName ',' '=' mountKeys (S "'ro,size=") = [S "ro,size=5G"] ∧
    keyValuePairHelper ['='] offerName id '=' mountKeys (S "r") = [S "ro", S "rw"] ∧
    keyValuePairHelper ['='] offerName id '=' mountKeys (S "size=") = [S "5G"] := by
  refine ⟨by decide +kernel, by decide +kernel, by decide +kernel, Or.inl ?_, by decide +kernel, by decide +kernel,
    by decide +kernel, by decide +kernel, by decide +kernel, by decide +kernel, by decide +kernel⟩
  decide +kernel

/-- A key with a blank is never taken for excluded: `my key` is offered a second time, although it is not
repeatable. -/
theorem C84_blank_key : keyValueListHelper [] offerName ',' '=' [⟨S "my key", S "5G", S "my key"⟩] (S "'my key=5G,") =
    [S "my key=5G,my key"] := by decide +kernel

/-- A separator in a value that is also a break character: `k=a=` is completed to `k=a=a=b`. -/
theorem C84_value_break :
    keyValueListHelper ['='] offerName ',' '=' [⟨S "k", S "a=b", S "k"⟩] (S "k=a=") = [S "a=b"] ∧
    accept ['='] (S "k=a=") (S "a=b") = S "k=a=a=b" := by decide +kernel

/-- The pair that is being typed excludes too: with `foo` excluding `foobar`, the key `foobar` is not offered for
`foo`, but it is for `foob`. -/
theorem C84_current_excludes :
    keyValueListHelper [] offerName ',' '=' [⟨S "foo", S "false", S "foo foobar"⟩, ⟨S "foobar", S "false", S "foobar"⟩] (S "foo") = [] ∧
    keyValueListHelper [] offerName ',' '=' [⟨S "foo", S "false", S "foo foobar"⟩, ⟨S "foobar", S "false", S "foobar"⟩] (S "foob") =
      [S "foobar"] := by decide +kernel

/-- A repeatable key can only be named with its star in the list of excluded keys (the validator wants the key as it
is defined), and then it is not excluded. -/
theorem C84_star : keyValueListHelper [] offerName ',' '=' [⟨S "bar", S "false", S "bar *foo"⟩, ⟨S "foo", S "false", []⟩] (S "bar,") =
    [S "bar,foo"] := by decide +kernel

/-- A key that is an option of `values`. -/
theorem C84_option_key : keyValuePairHelper [] offerName id '=' [⟨S "-a", S "x", []⟩] [] = [] := by decide +kernel

end CC
