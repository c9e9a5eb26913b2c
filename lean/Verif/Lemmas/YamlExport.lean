import Verif.Model.YamlExport
import Verif.Spec.YamlText
import Verif.Spec.YamlExportSpec
import Verif.Props.StrUtils
/-!
# Reading back what the YAML export writes
-/

namespace CC
open YamlText

/-! ## Strings -/

theorem hexValue_hexDigit (n : Nat) : hexValue (hexDigit n) = some (n % 16) := by
  have : ∀ k : Fin 16, hexValue (Nat.digitChar k.1) = some k.1 := by decide
  exact this ⟨n % 16, Nat.mod_lt _ (by decide)⟩

theorem charOf_toNat (c : Char) : charOf c.toNat = some c := by
  have h : c.toNat.isValidChar := c.valid
  unfold charOf
  rw [if_pos h, Char.ofNat_toNat]

theorem hexChar_escape {c : Char} (h : c.toNat < 65536) :
    hexChar (hexDigit (c.toNat / 4096)) (hexDigit (c.toNat / 256)) (hexDigit (c.toNat / 16)) (hexDigit c.toNat) =
      some c := by
  simp only [hexChar, hexValue_hexDigit]
  have : c.toNat / 4096 % 16 * 4096 + c.toNat / 256 % 16 * 256 + c.toNat / 16 % 16 * 16 + c.toNat % 16 = c.toNat := by
    omega
  rw [this, charOf_toNat]

theorem readQuoted_jsonChar {c : Char} (h : c.toNat < 65536) (t : Str) :
    readQuoted (jsonChar c ++ t) = consRead c (readQuoted t) := by
  unfold jsonChar
  by_cases h1 : c = '"'
  · subst h1; simp [readQuoted]
  by_cases h2 : c = '\\'
  · subst h2; simp [readQuoted]
  by_cases h3 : c = '\n'
  · subst h3; simp [readQuoted]
  by_cases h4 : c = '\r'
  · subst h4; simp [readQuoted]
  by_cases h5 : c = '\t'
  · subst h5; simp [readQuoted]
  by_cases h6 : c.toNat = 12
  · have : c = Char.ofNat 12 := by rw [← h6, Char.ofNat_toNat]
    subst this; simp [readQuoted]
  by_cases h7 : c.toNat = 8
  · have : c = Char.ofNat 8 := by rw [← h7, Char.ofNat_toNat]
    subst this; simp [readQuoted]
  rw [if_neg h1, if_neg h2, if_neg h3, if_neg h4, if_neg h5, if_neg h6, if_neg h7]
  by_cases h8 : 32 ≤ c.toNat ∧ c.toNat ≤ 126
  · rw [if_pos h8, List.singleton_append]
    rw [readQuoted.eq_def]
    split <;> simp_all
  · rw [if_neg h8, if_pos h]
    simp only [jsonEscape, List.cons_append, List.nil_append, readQuoted, hexChar_escape h]

theorem readQuoted_json {s : Str} (h : BasicText s) (t : Str) :
    readQuoted (s.flatMap jsonChar ++ '"' :: t) = some (s, t) := by
  induction s with
  | nil => simp [readQuoted]
  | cons c cs ih =>
    rw [List.flatMap_cons, List.append_assoc, readQuoted_jsonChar (h c (by simp)),
      ih (fun x hx => h x (by simp [hx]))]
    rfl

theorem jsonChar_length {c : Char} (h : c.toNat < 65536) : (jsonChar c).length = jsonWidth c := by
  unfold jsonChar jsonWidth
  repeat' split
  all_goals simp_all [jsonEscape]

theorem jsonStr_length {s : Str} (h : BasicText s) : (jsonStr s).length = (s.map jsonWidth).sum + 2 := by
  have : (s.flatMap jsonChar).length = (s.map jsonWidth).sum := by
    induction s with
    | nil => rfl
    | cons c cs ih =>
      simp only [List.flatMap_cons, List.length_append, List.map_cons, List.sum_cons,
        jsonChar_length (h c (by simp)), ih (fun x hx => h x (by simp [hx]))]
  simp [jsonStr, this]

/-! ## Plain scalars -/

/-- What may follow a value. -/
def Stops (t : Str) : Prop := ∀ c r, t = c :: r → isPlain c = false

theorem span_all {p : Char → Bool} {s t : Str} (h : ∀ c ∈ s, p c = true)
    (ht : ∀ c r, t = c :: r → p c = false) :
    (s ++ t).takeWhile p = s ∧ (s ++ t).dropWhile p = t := by
  induction s with
  | nil =>
    cases t with
    | nil => simp
    | cons c r => simp [ht c r rfl]
  | cons c cs ih =>
    have := ih (fun x hx => h x (by simp [hx]))
    simp [h c (by simp), this.1, this.2]

theorem takeWhile_same {p : Char → Bool} {s : Str} (h : ∀ c ∈ s, p c = true) : s.takeWhile p = s := by
  have := (span_all (t := []) h (by simp)).1
  simpa using this

theorem dropWhile_same {p : Char → Bool} {s : Str} (h : ∀ c ∈ s, p c = true) : s.dropWhile p = [] := by
  have := (span_all (t := []) h (by simp)).2
  simpa using this

theorem readFlow_plain {s : Str} {v : Val} (hs : ∀ c ∈ s, isPlain c = true) (hv : resolvePlain s = some v)
    (hne : s ≠ []) {t : Str} (ht : Stops t) (n : Nat) : readFlow (n + 1) (s ++ t) = some (v, t) := by
  have h := span_all hs ht
  obtain ⟨c, cs, rfl⟩ := List.exists_cons_of_ne_nil hne
  have hc := hs c (by simp)
  rw [readFlow.eq_def]
  simp only
  split
  · simp_all [isPlain]
  · simp_all [isPlain]
  · simp_all [isPlain]
  · simp_all [isPlain]
  · simp_all [isPlain]
  · rw [h.1, h.2, hv]; rfl

theorem natStr_nonempty (n : Nat) : natStr n ≠ [] := Nat.toDigits_ne_nil

theorem natStr_head_zero : ∀ n : Nat, (natStr n).head? = some '0' → n = 0 := by
  intro n
  induction n using Nat.strongRecOn with
  | _ n ih =>
    intro h
    unfold natStr at h
    by_cases hn : n < 10
    · rw [Nat.toDigits_of_lt_base hn] at h
      have : ∀ k : Fin 10, [Nat.digitChar k.1].head? = some '0' → k.1 = 0 := by decide
      exact this ⟨n, hn⟩ h
    · rw [Nat.toDigits_of_base_le (by decide) (by omega)] at h
      have h0 : Nat.toDigits 10 (n / 10) ≠ [] := Nat.toDigits_ne_nil
      obtain ⟨a, as, e⟩ := List.exists_cons_of_ne_nil h0
      have h : (Nat.toDigits 10 (n / 10)).head? = some '0' := by rw [e] at h ⊢; exact h
      have := ih (n / 10) (by omega) h
      omega

theorem natStr_no_zero (n : Nat) : ¬ ((natStr n).length > 1 ∧ (natStr n).head? = some '0') := by
  rintro ⟨h1, h2⟩
  have := natStr_head_zero n h2
  subst this
  simp [natStr] at h1

theorem digit_plain {c : Char} (h : c.isDigit = true) : isPlain c = true := by
  simp [isPlain, Char.isAlphanum, h]

theorem digits_ne {ds : Str} (hd : ∀ c ∈ ds, c.isDigit = true) (x : Char) (hx : x.isDigit = false) (r : Str) :
    ds ≠ x :: r := by
  rintro rfl
  have := hd x (by simp)
  simp [hx] at this

/-- A word that starts with digits, perhaps after a sign. -/
theorem resolvePlain_number {ds r : Str} (hne : ds ≠ []) (hd : ∀ c ∈ ds, c.isDigit = true)
    (hr : ∀ c t, r = c :: t → c.isDigit = false) :
    resolvePlain (ds ++ r) = resolveNumber (ds ++ r) ds r false ∧
    resolvePlain ('-' :: (ds ++ r)) = resolveNumber ('-' :: (ds ++ r)) ds r true := by
  have h := span_all hd hr
  obtain ⟨c, cs, rfl⟩ := List.exists_cons_of_ne_nil hne
  have hc := hd c (by simp)
  have hc1 : ∀ x : Char, x.isDigit = false → c ≠ x := by rintro x hx rfl; simp [hx] at hc
  have e1 : ∀ x : Char, ∀ s : Str, x.isDigit = false → (c :: cs ++ r) ≠ x :: s := by
    intro x s hx e
    exact hc1 x hx (List.cons.inj e).1
  constructor
  · unfold resolvePlain
    rw [if_neg (by intro e; exact e1 'n' _ rfl e), if_neg (by intro e; exact e1 't' _ rfl e),
      if_neg (by intro e; exact e1 'f' _ rfl e), if_neg (by
      rintro (e | e | e)
      · exact e1 'N' _ rfl e
      · exact e1 'I' _ rfl e
      · exact e1 '-' _ rfl e)]
    rw [h.1, h.2]
    split
    · rename_i e; exact absurd e (e1 '-' _ rfl)
    · rw [if_neg (by simp)]
  · unfold resolvePlain
    have e2 : ∀ s : Str, '-' :: (c :: cs ++ r) ≠ '-' :: 'I' :: s := by
      intro s e
      exact e1 'I' s rfl (List.cons.inj e).2
    rw [if_neg (by intro e; cases e), if_neg (by intro e; cases e), if_neg (by intro e; cases e), if_neg (by
      rintro (e | e | e)
      · cases e
      · cases e
      · exact e2 _ e)]
    simp only [h.1, h.2]
    rw [if_neg (by simp)]

theorem resolvePlain_int (i : Int) : resolvePlain (intStr i) = some (.int i) := by
  have hd : ∀ n, ∀ c ∈ natStr n, c.isDigit = true := fun n c hc => natStr_isDigit hc
  have key := resolvePlain_number (natStr_nonempty i.natAbs) (hd i.natAbs) (r := []) (by simp)
  rw [List.append_nil] at key
  have hv : Nat.ofDigitChars 10 (natStr i.natAbs) 0 = i.natAbs := Nat.ofDigitChars_toDigits (by decide) (by decide)
  unfold intStr
  by_cases hi : i < 0
  · rw [if_pos hi, key.2, resolveNumber, if_neg (natStr_no_zero _), hv]
    simp
    omega
  · rw [if_neg hi, key.1, resolveNumber, if_neg (natStr_no_zero _), hv]
    simp
    omega

theorem intStr_plain (i : Int) : (∀ c ∈ intStr i, isPlain c = true) ∧ intStr i ≠ [] := by
  unfold intStr
  split
  · refine ⟨?_, by simp⟩
    intro c hc
    rcases List.mem_cons.1 hc with rfl | hc
    · rfl
    · exact digit_plain (natStr_isDigit hc)
  · exact ⟨fun c hc => digit_plain (natStr_isDigit hc), natStr_nonempty _⟩

theorem isExponent_of {s : Char} {ds : Str} (hs : s = '+' ∨ s = '-') (hne : ds ≠ [])
    (hd : ∀ c ∈ ds, c.isDigit = true) : isExponent ('e' :: s :: ds) = true := by
  obtain ⟨d, ds, rfl⟩ := List.exists_cons_of_ne_nil hne
  simp only [isExponent, Bool.and_eq_true, List.all_eq_true, Bool.or_eq_true, beq_iff_eq]
  exact ⟨⟨Or.inl trivial, hs⟩, hd⟩

theorem resolvePlain_float {t : Str} (h : PointFloat t) :
    resolvePlain t = some (.float t) ∧ (∀ c ∈ t, isPlain c = true) ∧ t ≠ [] := by
  obtain ⟨sign, whole, frac, exp, rfl, hs, hne, hw, hf, he⟩ := h
  have hexp : (∀ c ∈ exp, isPlain c = true) ∧ (exp = [] ∨ isExponent exp = true) ∧
      (∀ c r, exp = c :: r → c.isDigit = false) := by
    rcases he with rfl | ⟨s, ds, rfl, h1, h2, h3⟩
    · simp
    · refine ⟨?_, Or.inr (isExponent_of h1 h2 h3), ?_⟩
      · intro c hc
        simp only [List.mem_cons] at hc
        rcases hc with rfl | rfl | hc
        · rfl
        · rcases h1 with rfl | rfl <;> rfl
        · exact digit_plain (h3 c hc)
      · intro c r e
        cases e
        rfl
  have hfe := span_all hf hexp.2.2
  have key := resolvePlain_number hne hw (r := '.' :: (frac ++ exp)) (by intro c t e; cases e; rfl)
  have hnum : ∀ s neg, resolveNumber s whole ('.' :: (frac ++ exp)) neg = some (.float s) := by
    intro s neg
    rw [resolveNumber, hfe.2]
    simp [hexp.2.1]
  have hplain : ∀ c ∈ whole ++ '.' :: (frac ++ exp), isPlain c = true := by
    intro c hc
    simp only [List.mem_append, List.mem_cons] at hc
    rcases hc with hc | rfl | hc | hc
    · exact digit_plain (hw c hc)
    · rfl
    · exact digit_plain (hf c hc)
    · exact hexp.1 c hc
  rcases hs with rfl | rfl
  · refine ⟨?_, hplain, by simp⟩
    rw [List.nil_append, key.1, hnum]
  · refine ⟨?_, ?_, by simp⟩
    · rw [List.singleton_append, key.2, hnum]
    · intro c hc
      rcases List.mem_cons.1 hc with rfl | hc
      · rfl
      · exact hplain c hc

/-! ## Flow values -/

theorem skipSpaces_self {t : Str} (h : ∀ r, t ≠ ' ' :: r) : skipSpaces t = t := by
  unfold skipSpaces
  cases t with
  | nil => rfl
  | cons c cs =>
    have : c ≠ ' ' := fun e => h cs (by rw [e])
    simp [this]

/-- A value does not start with a space or a closing bracket. -/
def Firm (s : Str) : Prop := ∃ c r, s = c :: r ∧ c ≠ ' ' ∧ c ≠ ']' ∧ c ≠ '}'

theorem plain_firm {s : Str} (hs : ∀ c ∈ s, isPlain c = true) (hne : s ≠ []) : Firm s := by
  obtain ⟨c, cs, rfl⟩ := List.exists_cons_of_ne_nil hne
  have := hs c (by simp)
  refine ⟨c, cs, rfl, ?_, ?_, ?_⟩ <;> (rintro rfl; revert this; decide)

theorem json_firm (v : Val) (h : Portable v) : Firm (json v) := by
  cases v with
  | none => exact ⟨'n', _, rfl, by decide, by decide, by decide⟩
  | bool b => cases b
              · exact ⟨'f', _, rfl, by decide, by decide, by decide⟩
              · exact ⟨'t', _, rfl, by decide, by decide, by decide⟩
  | int i => exact plain_firm (intStr_plain i).1 (intStr_plain i).2
  | float t => exact plain_firm (resolvePlain_float h).2.1 (resolvePlain_float h).2.2
  | str s => exact ⟨'"', s.flatMap jsonChar ++ ['"'], by simp only [json, jsonStr], by decide, by decide, by decide⟩
  | list l => exact ⟨'[', jsonItems l ++ [']'], by simp only [json], by decide, by decide, by decide⟩
  | dict d => exact ⟨'{', jsonEntries d ++ ['}'], by simp only [json], by decide, by decide, by decide⟩

theorem Firm.skip {s : Str} (h : Firm s) (t : Str) : skipSpaces (s ++ t) = s ++ t := by
  obtain ⟨c, r, rfl, h1, _⟩ := h
  exact skipSpaces_self (by intro r' e; exact h1 (List.cons.inj e).1)

theorem setKey_new : ∀ (acc : List (Key × Val)) (k : Key) (v : Val), k ∉ acc.map Prod.fst →
    setKey acc k v = acc ++ [(k, v)]
  | [], _, _, _ => rfl
  | (k', v') :: r, k, v, h => by
    simp only [List.map_cons, List.mem_cons, not_or] at h
    rw [setKey, if_neg (fun e => h.1 e.symm), setKey_new r k v h.2]
    rfl

theorem jsonItems_cons (v : Val) (l : List Val) :
    jsonItems (v :: l) = json v ++ (if l = [] then [] else ',' :: ' ' :: jsonItems l) := by
  cases l <;> simp [jsonItems]

theorem jsonEntries_cons (k : Key) (v : Val) (l : List (Key × Val)) :
    jsonEntries ((k, v) :: l) =
      jsonKey k ++ (':' :: ' ' :: (json v ++ (if l = [] then [] else ',' :: ' ' :: jsonEntries l))) := by
  cases l <;> simp [jsonEntries]

theorem stops_nil : Stops [] := by intro c r e; cases e
theorem stops_of {c : Char} {r : Str} (h : isPlain c = false) : Stops (c :: r) := by
  intro c' r' e; cases e; exact h

theorem jsonItems_firm (v : Val) (l : List Val) (h : Portable v) : Firm (jsonItems (v :: l)) := by
  rw [jsonItems_cons]
  obtain ⟨c, r, e, h1⟩ := json_firm v h
  exact ⟨c, _, by rw [e]; rfl, h1⟩

mutual
theorem readFlow_json : ∀ (v : Val), Portable v → ∀ (t : Str), Stops t → ∀ n, (json v).length ≤ n →
    readFlow n (json v ++ t) = some (v, t)
  | .none, _, t, ht, n, hn => by
    obtain ⟨n, rfl⟩ : ∃ m, n = m + 1 := ⟨n - 1, by simp [json, S] at hn; omega⟩
    exact readFlow_plain (by decide) (by decide) (by decide) ht n
  | .bool true, _, t, ht, n, hn => by
    obtain ⟨n, rfl⟩ : ∃ m, n = m + 1 := ⟨n - 1, by simp [json, S] at hn; omega⟩
    exact readFlow_plain (s := S "true") (by decide) (by decide) (by decide) ht n
  | .bool false, _, t, ht, n, hn => by
    obtain ⟨n, rfl⟩ : ∃ m, n = m + 1 := ⟨n - 1, by simp [json, S] at hn; omega⟩
    exact readFlow_plain (s := S "false") (by decide) (by decide) (by decide) ht n
  | .int i, _, t, ht, n, hn => by
    have h := intStr_plain i
    obtain ⟨n, rfl⟩ : ∃ m, n = m + 1 := ⟨n - 1, by
      have := List.length_pos_iff.2 h.2
      simp only [json] at hn; omega⟩
    exact readFlow_plain h.1 (resolvePlain_int i) h.2 ht n
  | .float s, hp, t, ht, n, hn => by
    have h := resolvePlain_float hp
    obtain ⟨n, rfl⟩ : ∃ m, n = m + 1 := ⟨n - 1, by
      have := List.length_pos_iff.2 h.2.2
      simp only [json] at hn; omega⟩
    exact readFlow_plain h.2.1 h.1 h.2.2 ht n
  | .str s, hp, t, ht, n, hn => by
    obtain ⟨n, rfl⟩ : ∃ m, n = m + 1 := ⟨n - 1, by simp [json, jsonStr] at hn; omega⟩
    simp only [json, jsonStr, List.cons_append, List.append_assoc, List.nil_append]
    rw [readFlow.eq_def]
    simp only [readQuoted_json hp, Option.map_some]
  | .list [], _, t, ht, n, hn => by
    obtain ⟨n, rfl⟩ : ∃ m, n = m + 1 := ⟨n - 1, by simp [json] at hn; omega⟩
    simp [json, jsonItems, readFlow]
  | .list (v :: l), hp, t, ht, n, hn => by
    obtain ⟨n, rfl⟩ : ∃ m, n = m + 1 := ⟨n - 1, by simp [json] at hn; omega⟩
    simp only [Portable] at hp
    have hi := readItems_json (v :: l) (by simp) hp t n (by
      simp only [json, List.length_cons, List.length_append, List.length_nil] at hn ⊢; omega)
    simp only [json, List.cons_append, List.append_assoc, List.nil_append]
    obtain ⟨c, r, e, h1, h2, h3⟩ := jsonItems_firm v l hp.1
    rw [e] at hi ⊢
    rw [readFlow.eq_def]
    simp only [List.cons_append]
    split
    · simp_all
    · simp_all
    · rename_i r' _ e'
      simp only [List.cons.injEq, true_and] at e'
      subst e'
      rw [List.cons_append] at hi
      rw [hi]; rfl
    · simp_all
    · simp_all
    · rename_i h4 _ _
      exact absurd rfl (h4 _)
  | .dict [], _, t, ht, n, hn => by
    obtain ⟨n, rfl⟩ : ∃ m, n = m + 1 := ⟨n - 1, by simp [json] at hn; omega⟩
    simp [json, jsonEntries, readFlow]
  | .dict ((k, v) :: l), hp, t, ht, n, hn => by
    obtain ⟨n, rfl⟩ : ∃ m, n = m + 1 := ⟨n - 1, by simp [json] at hn; omega⟩
    simp only [Portable] at hp
    have hi := readEntries_json ((k, v) :: l) (by simp) hp.2 [] (by simpa using hp.1) t n (by
      simp only [json, List.length_cons, List.length_append, List.length_nil] at hn ⊢; omega)
    simp only [json, List.cons_append, List.append_assoc, List.nil_append] at hi ⊢
    rw [jsonEntries_cons] at hi ⊢
    cases k with
    | str s =>
      simp only [jsonKey, jsonStr, List.cons_append] at hi ⊢
      rw [readFlow.eq_def]
      simp only
      split
      · simp_all
      · simp_all
      · simp_all
      · simp_all
      · rename_i e'
        simp only [List.cons.injEq, true_and] at e'
        subst e'
        rw [hi]; rfl
      · rename_i h4
        exact absurd rfl (h4 _)
    | _ => exact absurd hp.2.1 id
theorem readItems_json : ∀ (l : List Val), l ≠ [] → PortableList l → ∀ (t : Str) (n : Nat),
    (jsonItems l).length + 1 ≤ n → YamlText.readItems n (jsonItems l ++ ']' :: t) = some (l, t)
  | [], h, _, _, _, _ => absurd rfl h
  | v :: l, _, hp, t, n, hn => by
    obtain ⟨n, rfl⟩ : ∃ m, n = m + 1 := ⟨n - 1, by omega⟩
    rw [jsonItems_cons] at hn ⊢
    simp only [PortableList] at hp
    rw [YamlText.readItems.eq_def]
    simp only
    cases l with
    | nil =>
      simp only [if_true, List.append_nil] at hn ⊢
      rw [readFlow_json v hp.1 _ (stops_of (by decide)) n (by omega)]
      simp only
      rw [skipSpaces_self (by simp)]
      rfl
    | cons w l =>
      rw [if_neg (by simp)] at hn ⊢
      simp only [List.length_append, List.length_cons] at hn
      have hi := readItems_json (w :: l) (by simp) hp.2 t n (by omega)
      simp only [List.append_assoc, List.cons_append]
      rw [readFlow_json v hp.1 _ (stops_of (by decide)) n (by omega)]
      simp only
      rw [skipSpaces_self (by simp)]
      simp only
      have hsk : skipSpaces (' ' :: (jsonItems (w :: l) ++ ']' :: t)) = jsonItems (w :: l) ++ ']' :: t := by
        have := (jsonItems_firm w l hp.2.1).skip (']' :: t)
        unfold skipSpaces at this ⊢
        simpa using this
      rw [hsk, hi]
      rfl
theorem readEntries_json : ∀ (l : List (Key × Val)), l ≠ [] → PortableDict l → ∀ (acc : List (Key × Val)),
    ((acc ++ l).map Prod.fst).Nodup → ∀ (t : Str) (n : Nat), (jsonEntries l).length + 1 ≤ n →
    readEntries n acc (jsonEntries l ++ '}' :: t) = some (acc ++ l, t)
  | [], h, _, _, _, _, _, _ => absurd rfl h
  | (k, v) :: l, _, hp, acc, hnd, t, n, hn => by
    obtain ⟨n, rfl⟩ : ∃ m, n = m + 1 := ⟨n - 1, by omega⟩
    simp only [PortableDict] at hp
    obtain ⟨hk, hv, hl⟩ := hp
    cases k with
    | str s =>
      simp only [PortableKey] at hk
      have hnew : Key.str s ∉ acc.map Prod.fst := by
        rw [List.map_append, List.nodup_append] at hnd
        intro hm
        exact hnd.2.2 _ hm _ (by simp) rfl
      rw [jsonEntries_cons] at hn ⊢
      have hlen := jsonStr_length hk.1
      simp only [jsonKey, jsonStr] at hn hlen ⊢
      simp only [List.cons_append, List.append_assoc, List.nil_append]
      rw [readEntries.eq_def]
      simp only [readQuoted_json hk.1]
      rw [if_neg (by
        simp only [List.length_cons, List.length_append] at hlen ⊢
        omega)]
      have hf : ∀ u, Stops u → readFlow n (skipSpaces (json v ++ u)) = some (v, u) := by
        intro u hu
        rw [(json_firm v hv).skip]
        apply readFlow_json v hv u hu
        simp only [List.length_cons, List.length_append] at hn
        omega
      cases l with
      | nil =>
        simp only [if_true, List.nil_append]
        rw [hf _ (stops_of (by decide))]
        simp only
        rw [skipSpaces_self (by simp)]
        simp only [setKey_new acc _ v hnew]
      | cons e l =>
        rw [if_neg (by simp)] at hn ⊢
        simp only [List.cons_append]
        rw [hf _ (stops_of (by decide))]
        simp only
        rw [skipSpaces_self (by simp)]
        simp only [setKey_new acc _ v hnew]
        have hi := readEntries_json (e :: l) (by simp) hl (acc ++ [(.str s, v)]) (by simpa using hnd) t n (by
          simp only [List.length_cons, List.length_append] at hn
          omega)
        have hsk : skipSpaces (' ' :: (jsonEntries (e :: l) ++ '}' :: t)) = jsonEntries (e :: l) ++ '}' :: t := by
          obtain ⟨k', v'⟩ := e
          simp only [PortableDict] at hl
          cases k' with
          | str s' =>
            rw [jsonEntries_cons]
            simp [skipSpaces, jsonKey, jsonStr]
          | _ => exact absurd hl.1 id
        rw [hsk, hi]
        simp
    | _ => exact absurd hk id
end

end CC
