import Verif.Lemmas.YamlExport
import Verif.Lemmas.Dictionary
/-!
# The lines of the YAML export
-/

namespace CC
open YamlText

/-! ## Characters -/

/-- Printable ASCII. -/
def Ascii (s : Str) : Prop := ∀ c ∈ s, 32 ≤ c.toNat ∧ c.toNat ≤ 126

theorem Ascii.append {a b : Str} (ha : Ascii a) (hb : Ascii b) : Ascii (a ++ b) := by
  intro c hc
  rcases List.mem_append.1 hc with h | h
  · exact ha c h
  · exact hb c h

theorem Ascii.cons {c : Char} {b : Str} (hc : 32 ≤ c.toNat ∧ c.toNat ≤ 126) (hb : Ascii b) : Ascii (c :: b) := by
  intro x hx
  rcases List.mem_cons.1 hx with rfl | h
  · exact hc
  · exact hb x h

theorem ascii_nil : Ascii [] := by intro c hc; cases hc

theorem isPlain_ascii {c : Char} (h : isPlain c = true) : 32 ≤ c.toNat ∧ c.toNat ≤ 126 := by
  simp only [isPlain, Char.isAlphanum, Char.isAlpha, Char.isUpper, Char.isLower, Char.isDigit, Bool.or_eq_true,
    Bool.and_eq_true, decide_eq_true_eq, beq_iff_eq, ge_iff_le, UInt32.le_iff_toNat_le] at h
  have e : c.toNat = c.val.toNat := rfl
  rcases h with ((((h | h) | h) | rfl) | rfl) | rfl
  · rw [e]; exact ⟨by have := h.1; simp at this; omega, by have := h.2; simp at this; omega⟩
  · rw [e]; exact ⟨by have := h.1; simp at this; omega, by have := h.2; simp at this; omega⟩
  · rw [e]; exact ⟨by have := h.1; simp at this; omega, by have := h.2; simp at this; omega⟩
  · decide
  · decide
  · decide

theorem isKeyChar_plain {c : Char} (h : isKeyChar c = true) : (32 ≤ c.toNat ∧ c.toNat ≤ 126) := by
  simp only [isKeyChar, Bool.or_eq_true, beq_iff_eq] at h
  rcases h with h | rfl
  · exact isPlain_ascii (by simp [isPlain, Char.isAlphanum, h])
  · decide

theorem hexDigit_ascii (n : Nat) : 32 ≤ (hexDigit n).toNat ∧ (hexDigit n).toNat ≤ 126 := by
  have : ∀ k : Fin 16, 32 ≤ (Nat.digitChar k.1).toNat ∧ (Nat.digitChar k.1).toNat ≤ 126 := by decide
  exact this ⟨n % 16, Nat.mod_lt _ (by decide)⟩

theorem jsonEscape_ascii (n : Nat) : Ascii (jsonEscape n) :=
  .cons (by decide) (.cons (by decide) (.cons (hexDigit_ascii _) (.cons (hexDigit_ascii _)
    (.cons (hexDigit_ascii _) (.cons (hexDigit_ascii _) ascii_nil)))))

theorem jsonChar_ascii (c : Char) : Ascii (jsonChar c) := by
  unfold jsonChar
  repeat' split
  all_goals first
    | exact jsonEscape_ascii _
    | exact (jsonEscape_ascii _).append (jsonEscape_ascii _)
    | (intro x hx; revert x; decide)
    | (rename_i h; intro x hx; simp only [List.mem_singleton] at hx; subst hx; exact h)

theorem jsonStr_ascii (s : Str) : Ascii (jsonStr s) := by
  refine .cons (by decide) (.append ?_ (.cons (by decide) ascii_nil))
  intro c hc
  obtain ⟨x, _, hx⟩ := List.mem_flatMap.1 hc
  exact jsonChar_ascii x c hx

theorem jsonKey_ascii (k : Key) : Ascii (jsonKey k) := by
  cases k with
  | bool b => cases b <;> exact jsonStr_ascii _
  | _ => exact jsonStr_ascii _

mutual
theorem json_ascii : ∀ (v : Val), Portable v → Ascii (json v)
  | .none, _ => by intro c hc; revert c; decide
  | .bool true, _ => by intro c hc; revert c; decide
  | .bool false, _ => by intro c hc; revert c; decide
  | .int i, _ => fun c hc => isPlain_ascii ((intStr_plain i).1 c hc)
  | .float t, h => fun c hc => isPlain_ascii ((resolvePlain_float h).2.1 c hc)
  | .str s, _ => jsonStr_ascii s
  | .list l, h => by
    simp only [Portable] at h
    exact .cons (by decide) (.append (jsonItems_ascii l h) (.cons (by decide) ascii_nil))
  | .dict d, h => by
    simp only [Portable] at h
    exact .cons (by decide) (.append (jsonEntries_ascii d h.2) (.cons (by decide) ascii_nil))
theorem jsonItems_ascii : ∀ (l : List Val), PortableList l → Ascii (jsonItems l)
  | [], _ => ascii_nil
  | v :: l, h => by
    simp only [PortableList] at h
    rw [jsonItems_cons]
    refine (json_ascii v h.1).append ?_
    split
    · exact ascii_nil
    · exact .cons (by decide) (.cons (by decide) (jsonItems_ascii l h.2))
theorem jsonEntries_ascii : ∀ (l : List (Key × Val)), PortableDict l → Ascii (jsonEntries l)
  | [], _ => ascii_nil
  | (k, v) :: l, h => by
    simp only [PortableDict] at h
    rw [jsonEntries_cons]
    refine (jsonKey_ascii k).append (.cons (by decide) (.cons (by decide) ((json_ascii v h.2.1).append ?_)))
    split
    · exact ascii_nil
    · exact .cons (by decide) (.cons (by decide) (jsonEntries_ascii l h.2.2))
end

/-! ## The last character -/

/-- The text ends with a character that is no blank. -/
def LastFirm (s : Str) : Prop := ∃ u x, s = u ++ [x] ∧ pyIsSpace x = false

theorem LastFirm.append {b : Str} (h : LastFirm b) (a : Str) : LastFirm (a ++ b) := by
  obtain ⟨u, x, rfl, hx⟩ := h
  exact ⟨a ++ u, x, by simp, hx⟩

theorem isPlain_firm {c : Char} (h : isPlain c = true) : pyIsSpace c = false := by
  have h1 := isPlain_ascii h
  have h2 : c ≠ ' ' := by rintro rfl; revert h; decide
  have h3 : c.toNat ≠ 32 := by
    intro e; apply h2; rw [← Char.ofNat_toNat c, e]
  unfold pyIsSpace
  simp only [Bool.or_eq_false_iff, Bool.and_eq_false_iff, decide_eq_false_iff_not, beq_eq_false_iff_ne]
  omega

theorem plain_lastFirm {s : Str} (h : ∀ c ∈ s, isPlain c = true) (hne : s ≠ []) : LastFirm s :=
  ⟨s.dropLast, s.getLast hne, (List.dropLast_concat_getLast hne).symm, isPlain_firm (h _ (List.getLast_mem hne))⟩

theorem json_lastFirm (v : Val) (h : Portable v) : LastFirm (json v) := by
  cases v with
  | none => exact ⟨S "nul", 'l', rfl, rfl⟩
  | bool b => cases b
              · exact ⟨S "fals", 'e', rfl, rfl⟩
              · exact ⟨S "tru", 'e', rfl, rfl⟩
  | int i => exact plain_lastFirm (intStr_plain i).1 (intStr_plain i).2
  | float t => exact plain_lastFirm (resolvePlain_float h).2.1 (resolvePlain_float h).2.2
  | str s => exact ⟨'"' :: s.flatMap jsonChar, '"', by simp [json, jsonStr], rfl⟩
  | list l => exact ⟨'[' :: jsonItems l, ']', by simp [json], rfl⟩
  | dict d => exact ⟨'{' :: jsonEntries d, '}', by simp [json], rfl⟩

theorem rstrip_lastFirm {s : Str} (h : LastFirm s) (k : Nat) : rstrip (s ++ List.replicate k '\n') = s := by
  obtain ⟨u, x, rfl, hx⟩ := h
  unfold rstrip
  have : ∀ k, lstrip (List.replicate k '\n' ++ x :: u.reverse) = x :: u.reverse := by
    intro k
    induction k with
    | zero => simp [lstrip, hx]
    | succ k ih =>
      rw [List.replicate_succ, List.cons_append, lstrip, if_pos (by decide), ih]
  simp [this]

/-! ## Lines -/

theorem linesOf_ne_nil (s : Str) : linesOf s ≠ [] := by
  cases s with
  | nil => simp [linesOf]
  | cons c cs =>
    simp only [linesOf]
    split
    · simp
    · split <;> simp

theorem linesOf_append (a b : Str) : linesOf (a ++ '\n' :: b) = linesOf a ++ linesOf b := by
  induction a with
  | nil => simp [linesOf, isBreak]
  | cons c cs ih =>
    simp only [List.cons_append, linesOf, ih]
    split
    · rfl
    · have := linesOf_ne_nil cs
      cases h : linesOf cs with
      | nil => exact absurd h this
      | cons l ls => rfl

theorem linesOf_line {s : Str} (h : ∀ c ∈ s, isBreak c = false) : linesOf s = [s] := by
  induction s with
  | nil => rfl
  | cons c cs ih =>
    rw [linesOf, h c (by simp), ih (fun x hx => h x (by simp [hx]))]
    rfl

theorem ascii_noBreak {s : Str} (h : Ascii s) : ∀ c ∈ s, isBreak c = false := by
  intro c hc
  have := h c hc
  have h1 : c ≠ '\n' := by rintro rfl; revert this; decide
  have h2 : c ≠ '\r' := by rintro rfl; revert this; decide
  simp only [isBreak, Bool.or_eq_false_iff, beq_eq_false_iff_ne]
  refine ⟨⟨⟨⟨h1, h2⟩, ?_⟩, ?_⟩, ?_⟩ <;> omega

theorem ascii_noNewline {s : Str} (h : Ascii s) : '\n' ∉ s := by
  intro hm
  have := h _ hm
  revert this; decide

theorem linesOf_join {ws : List Str} (hne : ws ≠ []) (h : ∀ w ∈ ws, Ascii w) : linesOf (joinWith ['\n'] ws) = ws := by
  match ws with
  | [] => exact absurd rfl hne
  | [w] => exact linesOf_line (ascii_noBreak (h w (by simp)))
  | w :: v :: r =>
    have ih := linesOf_join (ws := v :: r) (by simp) (fun x hx => h x (by simp [hx]))
    simp only [joinWith, List.append_assoc, List.singleton_append]
    rw [linesOf_append, ih, linesOf_line (ascii_noBreak (h w (by simp)))]
    rfl

/-- The documents's state after some lines that belong to it. -/
def runLines (d : Doc) : List Str → Option Doc
  | [] => some d
  | l :: ls =>
    match readLine l with
    | none => none
    | some x =>
      match d.step x with
      | none => none
      | some d' => runLines d' ls

theorem runLines_append (d : Doc) (a b : List Str) :
    runLines d (a ++ b) = (runLines d a).bind (fun d' => runLines d' b) := by
  induction a generalizing d with
  | nil => rfl
  | cons l ls ih =>
    simp only [List.cons_append, runLines]
    cases readLine l with
    | none => rfl
    | some x =>
      simp only
      cases d.step x with
      | none => rfl
      | some d' => exact ih d'

theorem readLines_run {d d' : Doc} {ls : List Str} (h : runLines d ls = some d') (rest : List Str) :
    readLines d (ls ++ rest) = readLines d' rest := by
  induction ls generalizing d with
  | nil => cases h; rfl
  | cons l ls ih =>
    simp only [runLines] at h
    simp only [List.cons_append, readLines]
    cases hl : readLine l with
    | none => rw [hl] at h; cases h
    | some x =>
      rw [hl] at h
      simp only at h ⊢
      cases hs : d.step x with
      | none => rw [hs] at h; cases h
      | some d1 =>
        rw [hs] at h
        simp only at h
        cases x with
        | separator => simp [Doc.step] at hs
        | skip => simp only [hs]; exact ih h
        | entry => simp only [hs]; exact ih h

theorem runLines_blank (d : Doc) : runLines d [[]] = some d := by
  simp [runLines, readLine, skipSpaces, Doc.step]

theorem runLines_blanks (d : Doc) (k : Nat) : runLines d (List.replicate k []) = some d := by
  induction k with
  | zero => rfl
  | succ k ih =>
    rw [List.replicate_succ, ← List.singleton_append, runLines_append, runLines_blank]
    exact ih

theorem linesOf_newlines (t : Str) (k : Nat) :
    linesOf (t ++ List.replicate k '\n') = linesOf t ++ List.replicate k [] := by
  induction k generalizing t with
  | zero => simp
  | succ k ih =>
    rw [List.replicate_succ, linesOf_append]
    have : linesOf (List.replicate k '\n') = List.replicate (k + 1) [] := by
      clear ih
      induction k with
      | zero => rfl
      | succ k ih => rw [List.replicate_succ, linesOf, if_pos (by decide), ih, List.replicate_succ (n := k + 1)]
    rw [this]

/-- Trailing newlines do not matter. -/
theorem runLines_newlines {d d' : Doc} {t : Str} {k : Nat}
    (h : runLines d (linesOf (t ++ List.replicate k '\n')) = some d') : runLines d (linesOf t) = some d' := by
  rw [linesOf_newlines, runLines_append] at h
  cases hr : runLines d (linesOf t) with
  | none => rw [hr] at h; cases h
  | some d1 =>
    rw [hr] at h
    simp only [Option.bind_some, runLines_blanks] at h
    exact h

/-- The text of an entry. -/
def entryText (e : Str × Val) : Str := e.1 ++ S ": " ++ json e.2

/-- The key of an entry is a word of letters. -/
def KeyName (k : Str) : Prop := k ≠ [] ∧ ∀ c ∈ k, isKeyChar c = true

theorem readEntry_text {e : Str × Val} (hk : KeyName e.1) (hv : Portable e.2) (ind : Nat) (dash : Bool) :
    readEntry ind dash (entryText e) = some (.entry ind dash e.1 (some e.2)) := by
  have h := span_all (t := S ": " ++ json e.2) hk.2 (by intro c r e; cases e; rfl)
  have hf := readFlow_json e.2 hv [] stops_nil ((json e.2).length + 1) (by omega)
  rw [List.append_nil] at hf
  unfold readEntry entryText
  rw [List.append_assoc, h.1, h.2, if_neg hk.1]
  have : S ": " ++ json e.2 = ':' :: ' ' :: json e.2 := rfl
  rw [this]
  simp only [readValue, hf, Option.map_some]

theorem keyName_cons {k : Str} (hk : KeyName k) : ∃ c r, k = c :: r ∧ c ≠ ' ' ∧ c ≠ '-' ∧ c ≠ '#' := by
  obtain ⟨c, r, rfl⟩ := List.exists_cons_of_ne_nil hk.1
  have := hk.2 c (by simp)
  refine ⟨c, r, rfl, ?_, ?_, ?_⟩ <;> (rintro rfl; revert this; decide)

theorem skip_replicate (n : Nat) {t : Str} (h : ∀ r, t ≠ ' ' :: r) :
    skipSpaces (List.replicate n ' ' ++ t) = t ∧ (List.replicate n ' ' ++ t).takeWhile (· == ' ') = List.replicate n ' ' := by
  have := span_all (p := (· == ' ')) (s := List.replicate n ' ') (t := t)
    (by intro c hc; simp [(List.mem_replicate.1 hc).2])
    (by intro c r e; simp only [beq_eq_false_iff_ne]; rintro rfl; exact h r e)
  exact ⟨this.2, this.1⟩

theorem readLine_text {e : Str × Val} (hk : KeyName e.1) (hv : Portable e.2) (n : Nat) :
    readLine (List.replicate n ' ' ++ entryText e) = some (.entry n false e.1 (some e.2)) := by
  obtain ⟨c, r, he, h1, h2, h3⟩ := keyName_cons hk
  have ht : entryText e = c :: (r ++ (S ": " ++ json e.2)) := by unfold entryText; rw [he]; simp
  have hsk := skip_replicate n (t := entryText e) (by
    intro r' e'; rw [ht] at e'; exact h1 (List.cons.inj e').1)
  have hent := readEntry_text hk hv n false
  unfold readLine
  rw [if_neg]
  · rw [hsk.1, hsk.2, List.length_replicate]
    rw [ht] at hent ⊢
    split
    · simp_all
    · simp_all
    · simp_all
    · exact hent
  · intro e'
    cases n with
    | zero => rw [ht] at e'; exact h2 (List.cons.inj e').1
    | succ n => rw [List.replicate_succ] at e'; have := (List.cons.inj e').1; revert this; decide

theorem readLine_dash {e : Str × Val} (hk : KeyName e.1) (hv : Portable e.2) (n : Nat) :
    readLine (List.replicate n ' ' ++ '-' :: ' ' :: entryText e) = some (.entry n true e.1 (some e.2)) := by
  have hsk := skip_replicate n (t := '-' :: ' ' :: entryText e) (by intro r e; cases e)
  unfold readLine
  rw [if_neg]
  · rw [hsk.1, hsk.2, List.length_replicate]
    exact readEntry_text hk hv n true
  · intro e'
    cases n with
    | zero => have := (List.cons.inj (List.cons.inj e').2).1; revert this; decide
    | succ n => rw [List.replicate_succ] at e'; have := (List.cons.inj e').1; revert this; decide

theorem readLine_open {k : Str} (hk : KeyName k) : readLine (k ++ [':']) = some (.entry 0 false k none) := by
  obtain ⟨c, r, he, h1, h2, h3⟩ := keyName_cons hk
  have hs := span_all (t := [':']) hk.2 (by intro c r e; cases e; rfl)
  have hskip : skipSpaces (k ++ [':']) = k ++ [':'] :=
    skipSpaces_self (by rw [he]; intro r' e'; exact h1 (List.cons.inj e').1)
  have hent : readEntry 0 false (k ++ [':']) = some (.entry 0 false k none) := by
    unfold readEntry
    rw [hs.1, hs.2, if_neg hk.1]
    rfl
  have htw : (k ++ [':']).takeWhile (· == ' ') = [] := by rw [he]; simp [h1]
  unfold readLine
  rw [if_neg, hskip, htw]
  · rw [he] at hent ⊢
    simp only [List.cons_append] at hent ⊢
    split
    · simp_all
    · simp_all
    · simp_all
    · exact hent
  · rw [he]; intro e'; exact h2 (List.cons.inj e').1

/-! ## Documents -/

/-- Entries with string keys. -/
def named (es : List (Str × Val)) : List (Key × Val) := es.map (fun e => (.str e.1, e.2))

/-- Entries that can be written as lines. -/
def Fields (es : List (Str × Val)) : Prop := ∀ e ∈ es, KeyName e.1 ∧ Portable e.2

/-- Reading the text brings the document from one state to the other, whatever follows it. -/
def ReadsDoc (d : Doc) (s : Str) (d' : Doc) : Prop :=
  ∀ rest, runLines d (linesOf (s ++ rest)) = runLines d' (linesOf rest)

theorem ReadsDoc.trans {d1 d2 d3 : Doc} {a b : Str} (h1 : ReadsDoc d1 a d2) (h2 : ReadsDoc d2 b d3) : ReadsDoc d1 (a ++ b) d3 := by
  intro rest
  rw [List.append_assoc, h1, h2]

theorem ReadsDoc.nil (d : Doc) : ReadsDoc d [] d := fun _ => rfl

theorem ReadsDoc.lines {d d' : Doc} {ws : List Str} (hne : ws ≠ []) (ha : ∀ w ∈ ws, Ascii w)
    (h : runLines d ws = some d') : ReadsDoc d (joinWith ['\n'] ws ++ ['\n']) d' := by
  intro rest
  rw [List.append_assoc, List.singleton_append, linesOf_append, linesOf_join hne ha, runLines_append, h]
  rfl

theorem ReadsDoc.blank (d : Doc) : ReadsDoc d ['\n'] d := by
  intro rest
  have := linesOf_append [] rest
  rw [List.nil_append] at this
  rw [List.singleton_append, this, runLines_append]
  show Option.bind (runLines d [[]]) _ = _
  rw [runLines_blank]
  rfl

theorem runLines_one {d d' : Doc} {l : Str} {x : Line} (h : readLine l = some x) (hs : d.step x = some d') :
    runLines d [l] = some d' := by
  simp [runLines, h, hs]

theorem entryText_ascii {e : Str × Val} (hk : KeyName e.1) (hv : Portable e.2) : Ascii (entryText e) := by
  refine .append (.append (fun c hc => isKeyChar_plain (hk.2 c hc)) ?_) (json_ascii _ hv)
  intro c hc; revert c; decide

theorem entryText_lastFirm {e : Str × Val} (hv : Portable e.2) : LastFirm (entryText e) :=
  (json_lastFirm _ hv).append _

theorem blanks_ascii (n : Nat) : Ascii (List.replicate n ' ') := by
  intro c hc
  rw [(List.mem_replicate.1 hc).2]
  decide

/-- The sequence that is being read has the key `k` and so far the items `l`. -/
def Sec (o : Open) (k : Str) (l : List Val) : Prop :=
  o.key = k ∧ ((o.last = none ∧ o.items = [] ∧ l = []) ∨ ∃ es, o.last = some (2, es) ∧ l = o.items ++ [.dict es])

theorem Sec.value {o : Open} {k : Str} {l : List Val} (h : Sec o k l) (hne : l ≠ []) : o.value = .list l := by
  obtain ⟨_, ⟨_, _, h⟩ | ⟨es, h1, h2⟩⟩ := h
  · exact absurd h hne
  · unfold Open.value
    rw [h1]
    simp only
    rw [h2]

theorem run_fields {es : List (Str × Val)} (h : Fields es) : ∀ (acc : List (Key × Val)),
    ((acc ++ named es).map Prod.fst).Nodup → ∀ (D : Doc) (o : Open), D.seq = some o → o.last = some (2, acc) →
    runLines D (es.map (fun e => List.replicate 4 ' ' ++ entryText e)) =
      some { D with seq := some { o with last := some (2, acc ++ named es) } } := by
  induction es with
  | nil =>
    intro acc _ D o h1 h2
    simp only [named, List.map_nil, List.append_nil, runLines]
    rw [← h2, ← h1]
  | cons e es ih =>
    intro acc hnd D o h1 h2
    have he := h e (by simp)
    have hnew : Key.str e.1 ∉ acc.map Prod.fst := by
      rw [List.map_append, List.nodup_append] at hnd
      intro hm
      exact hnd.2.2 _ hm _ (by simp [named]) rfl
    simp only [List.map_cons, runLines, readLine_text he.1 he.2 4, Doc.step, h1, h2, if_true]
    rw [setKey_new acc _ _ hnew]
    rw [ih (fun x hx => h x (by simp [hx])) (acc ++ [(.str e.1, e.2)]) (by simpa [named] using hnd) _ _ rfl rfl]
    simp [named]

/-- The lines of an item. -/
def itemLines (e : Str × Val) (es : List (Str × Val)) : List Str :=
  (List.replicate 2 ' ' ++ '-' :: ' ' :: entryText e) :: es.map (fun e => List.replicate 4 ' ' ++ entryText e)

theorem itemLines_ascii {e : Str × Val} {es : List (Str × Val)} (h : Fields (e :: es)) :
    ∀ w ∈ itemLines e es, Ascii w := by
  intro w hw
  rcases List.mem_cons.1 hw with rfl | hw
  · have := h e (by simp)
    exact (blanks_ascii 2).append (.cons (by decide) (.cons (by decide) (entryText_ascii this.1 this.2)))
  · obtain ⟨x, hx, rfl⟩ := List.mem_map.1 hw
    have := h x (by simp [hx])
    exact (blanks_ascii 4).append (entryText_ascii this.1 this.2)

theorem reads_item {e : Str × Val} {es : List (Str × Val)} (h : Fields (e :: es))
    (hnd : ((named (e :: es)).map Prod.fst).Nodup) {D : Doc} {o : Open} {k : Str} {l : List Val}
    (hD : D.seq = some o) (ho : Sec o k l) :
    ∃ o', ReadsDoc D (joinWith ['\n'] (itemLines e es) ++ ['\n']) { D with seq := some o' } ∧
      Sec o' k (l ++ [.dict (named (e :: es))]) := by
  have he := h e (by simp)
  have hes : Fields es := fun x hx => h x (by simp [hx])
  have hrun : ∀ o1 : Open, o1.last = some (2, [(.str e.1, e.2)]) →
      runLines { D with seq := some o1 } (es.map (fun e => List.replicate 4 ' ' ++ entryText e)) =
        some { D with seq := some { o1 with last := some (2, named (e :: es)) } } := by
    intro o1 h1
    have := run_fields hes [(.str e.1, e.2)] (by simpa [named] using hnd) { D with seq := some o1 } o1 rfl h1
    rw [this]
    simp [named]
  obtain ⟨hk, ⟨h1, h2, h3⟩ | ⟨es0, h1, h2⟩⟩ := ho
  · refine ⟨{ o with last := some (2, named (e :: es)) }, ReadsDoc.lines (by simp [itemLines]) (itemLines_ascii h) ?_,
      hk, Or.inr ⟨_, rfl, by simp [h2, h3]⟩⟩
    simp only [itemLines, runLines, readLine_dash he.1 he.2 2, Doc.step, hD, h1]
    exact hrun _ rfl
  · refine ⟨{ o with items := o.items ++ [.dict es0], last := some (2, named (e :: es)) },
      ReadsDoc.lines (by simp [itemLines]) (itemLines_ascii h) ?_, hk, Or.inr ⟨_, rfl, by simp [h2]⟩⟩
    simp only [itemLines, runLines, readLine_dash he.1 he.2 2, Doc.step, hD, h1, if_true]
    exact hrun _ rfl

/-- The text of a list of items, each followed by an empty line. -/
def itemsText (items : List ((Str × Val) × List (Str × Val))) : Str :=
  (items.map (fun i => joinWith ['\n'] (itemLines i.1 i.2) ++ ['\n'] ++ ['\n'])).flatten

theorem reads_items {items : List ((Str × Val) × List (Str × Val))}
    (h : ∀ i ∈ items, Fields (i.1 :: i.2) ∧ ((named (i.1 :: i.2)).map Prod.fst).Nodup) :
    ∀ {D : Doc} {o : Open} {k : Str} {l : List Val}, D.seq = some o → Sec o k l →
    ∃ o', ReadsDoc D (itemsText items) { D with seq := some o' } ∧
      Sec o' k (l ++ items.map (fun i => .dict (named (i.1 :: i.2)))) := by
  induction items with
  | nil =>
    intro D o k l hD ho
    refine ⟨o, ?_, by simpa using ho⟩
    have : { D with seq := some o } = D := by rw [← hD]
    rw [this]
    exact ReadsDoc.nil D
  | cons i items ih =>
    intro D o k l hD ho
    have hi := h i (by simp)
    obtain ⟨o1, h1, h2⟩ := reads_item hi.1 hi.2 hD ho
    obtain ⟨o2, h3, h4⟩ := ih (fun x hx => h x (by simp [hx])) (D := { D with seq := some o1 }) rfl h2
    refine ⟨o2, ?_, by simpa using h4⟩
    have := (h1.trans (ReadsDoc.blank _)).trans h3
    simpa [itemsText] using this

/-- A section: its key and its items. -/
def sectionText (k : Str) (items : List ((Str × Val) × List (Str × Val))) : Str :=
  if items = [] then [] else k ++ S ":\n" ++ itemsText items

theorem reads_top {es : List (Str × Val)} (h : Fields es) : ∀ {D : Doc} {acc : List (Key × Val)},
    D.close = acc → ((acc ++ named es).map Prod.fst).Nodup → es ≠ [] →
    ReadsDoc D ((es.map (fun e => entryText e ++ ['\n'])).flatten) ⟨acc ++ named es, none⟩ := by
  induction es with
  | nil => intro D acc _ _ hne; exact absurd rfl hne
  | cons e es ih =>
    intro D acc hD hnd _
    have he := h e (by simp)
    have hnew : Key.str e.1 ∉ acc.map Prod.fst := by
      rw [List.map_append, List.nodup_append] at hnd
      intro hm
      exact hnd.2.2 _ hm _ (by simp [named]) rfl
    have h1 : ReadsDoc D (entryText e ++ ['\n']) ⟨acc ++ [(.str e.1, e.2)], none⟩ := by
      have hl := readLine_text he.1 he.2 0
      have := ReadsDoc.lines (d := D) (d' := ⟨acc ++ [(.str e.1, e.2)], none⟩) (ws := [entryText e]) (by simp)
        (by intro w hw; rw [List.mem_singleton.1 hw]; exact entryText_ascii he.1 he.2)
        (runLines_one (by simpa using hl) (by
          simp only [Doc.step, hD]
          rw [setKey_new acc _ _ hnew]))
      simpa [joinWith] using this
    cases es with
    | nil => simpa [named] using h1
    | cons e' es' =>
      have h2 := ih (fun x hx => h x (by simp [hx])) (D := ⟨acc ++ [(.str e.1, e.2)], none⟩)
        (acc := acc ++ [(.str e.1, e.2)]) rfl (by simpa [named] using hnd) (by simp)
      have := h1.trans h2
      simpa [named] using this

theorem reads_section {k : Str} (hk : KeyName k) {items : List ((Str × Val) × List (Str × Val))}
    (h : ∀ i ∈ items, Fields (i.1 :: i.2) ∧ ((named (i.1 :: i.2)).map Prod.fst).Nodup)
    {D : Doc} {acc : List (Key × Val)} (hD : D.close = acc) (hnew : Key.str k ∉ acc.map Prod.fst) :
    ∃ D', ReadsDoc D (sectionText k items) D' ∧
      D'.close = acc ++ entry? k (if items = [] then none
        else some (.list (items.map (fun i => .dict (named (i.1 :: i.2)))))) := by
  unfold sectionText
  by_cases hi : items = []
  · refine ⟨D, ?_, ?_⟩
    · rw [if_pos hi]; exact ReadsDoc.nil D
    · rw [if_pos hi]; simp [entry?, hD]
  · rw [if_neg hi, if_neg hi]
    have h1 : ReadsDoc D (k ++ S ":\n") ⟨acc, some ⟨k, [], none⟩⟩ := by
      have := ReadsDoc.lines (d := D) (d' := ⟨acc, some ⟨k, [], none⟩⟩) (ws := [k ++ [':']]) (by simp)
        (by
          intro w hw; rw [List.mem_singleton.1 hw]
          exact .append (fun c hc => isKeyChar_plain (hk.2 c hc)) (.cons (by decide) ascii_nil))
        (runLines_one (readLine_open hk) (by simp [Doc.step, hD]))
      simpa [joinWith, S] using this
    obtain ⟨o', h2, h3⟩ := reads_items h (D := ⟨acc, some ⟨k, [], none⟩⟩) (k := k) (l := []) rfl
      ⟨rfl, Or.inl ⟨rfl, rfl, rfl⟩⟩
    refine ⟨_, h1.trans h2, ?_⟩
    simp only [Doc.close]
    rw [h3.1, h3.value (by simpa using hi), setKey_new acc _ _ hnew]
    simp [entry?]

end CC
