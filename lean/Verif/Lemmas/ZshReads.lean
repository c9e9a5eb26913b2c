import Verif.Spec.ZshCompleterSpec
import Verif.Model.ZshComplete
import Verif.Lemmas.BashReads
import Verif.Props.BashComplete
import Verif.Props.ZshUtils
/-!
# Lemmas about reading code and definitions in Zsh
-/

namespace CC
open BashCode

/-! ## Words that are kept -/

theorem zread_of {t : Str} {ss : List Stmt} (h : ReadsAs t ss) (hk : ∀ s ∈ ss, ∀ w ∈ ZshCode.words s, ZshCode.keeps w = true) :
    ZshCode.read t = some ss := by
  unfold ZshCode.read
  rw [h.read, Option.bind_some, if_pos]
  simp only [List.all_eq_true]
  exact hk

theorem zread_call {f : Str} {ws : List Str} (hf : f ≠ "local".toList) (hk : ∀ w ∈ f :: ws, ZshCode.keeps w = true) :
    ZshCode.read (joinQuoted (f :: ws)) = some [.call (f :: ws)] :=
  zread_of (reads_call f ws hf) (by simpa [ZshCode.words] using hk)

theorem keeps_head {w : Str} (h : w.head? ≠ some '=') : ZshCode.keeps w = true := by
  simp [ZshCode.keeps, h]

theorem keeps_cons {c : Char} {r : Str} (h : c ≠ '=') : ZshCode.keeps (c :: r) = true := keeps_head (by simpa using h)

/-! ## Backslashes -/

/-- Every backslash is followed by a character other than a colon. -/
def bsOk : Str → Bool
  | [] => true
  | ['\\'] => false
  | '\\' :: c :: r => c != ':' && bsOk (c :: r)
  | _ :: r => bsOk r

theorem bsOk_other {c : Char} {r : Str} (h : c ≠ '\\') : bsOk (c :: r) = bsOk r := by
  rw [bsOk.eq_def]
  split <;> simp_all

theorem bsOk_back (c : Char) (r : Str) : bsOk ('\\' :: c :: r) = (c != ':' && bsOk (c :: r)) := by
  simp [bsOk]

theorem bsOk_append : ∀ (a b : Str), bsOk a = true → bsOk (a ++ b) = bsOk b
  | [], b, _ => rfl
  | c :: r, b, h => by
    by_cases hc : c = '\\'
    · subst hc
      match r, h with
      | [], h => simp [bsOk] at h
      | d :: r', h =>
        rw [bsOk_back, Bool.and_eq_true] at h
        rw [List.cons_append, List.cons_append, bsOk_back, h.1, Bool.true_and, ← List.cons_append]
        exact bsOk_append (d :: r') b h.2
    · rw [bsOk_other hc] at h
      rw [List.cons_append, bsOk_other hc]
      exact bsOk_append r b h

theorem bsOk_none {s : Str} (h : '\\' ∉ s) : bsOk s = true := by
  induction s with
  | nil => rfl
  | cons c r ih =>
    rw [bsOk_other (by rintro rfl; simp at h)]
    exact ih (fun hm => h (by simp [hm]))

theorem bsOk_escapeDouble : ∀ {s : Str}, bsOk s = true → bsOk (escapeDouble s) = true
  | [], _ => rfl
  | c :: r, h => by
    rw [escapeDouble_cons]
    by_cases hc : c = '\\'
    · subst hc
      match r, h with
      | [], h => simp [bsOk] at h
      | d :: r', h =>
        rw [bsOk_back, Bool.and_eq_true] at h
        have ih := bsOk_escapeDouble h.2
        rw [escapeDouble_cons] at ih ⊢
        have hd : d ≠ ':' := by simpa using h.1
        simp only [true_or, if_true, List.cons_append, List.nil_append]
        rw [bsOk_back]
        by_cases h1 : d = '\\' ∨ d = '$' ∨ d = '`'
        · rw [if_pos h1] at ih ⊢
          simp only [List.cons_append, List.nil_append] at ih ⊢
          rw [bsOk_back, ih]; rfl
        · rw [if_neg h1] at ih ⊢
          simp only [List.cons_append, List.nil_append] at ih ⊢
          rw [bsOk_back, ih]; simp [hd]
    · rw [bsOk_other hc] at h
      have ih := bsOk_escapeDouble h
      by_cases h1 : c = '\\' ∨ c = '$' ∨ c = '`'
      · rw [if_pos h1]
        have h2 : c = '$' ∨ c = '`' := by rcases h1 with h | h | h <;> simp_all
        simp only [List.cons_append, List.nil_append]
        rw [bsOk_back, bsOk_other hc, ih]
        rcases h2 with rfl | rfl <;> decide
      · rw [if_neg h1]
        simp only [List.cons_append, List.nil_append]
        rw [bsOk_other hc]; exact ih

theorem bsOk_mixed : ∀ {s : Str}, bsOk s = true → bsOk (replaceChar '\'' ['\'', '"', '\'', '"', '\''] s) = true
  | [], _ => rfl
  | c :: r, h => by
    by_cases hc : c = '\\'
    · subst hc
      match r, h with
      | [], h => simp [bsOk] at h
      | d :: r', h =>
        rw [bsOk_back, Bool.and_eq_true] at h
        have ih := bsOk_mixed h.2
        have hd : d ≠ ':' := by simpa using h.1
        by_cases h1 : d = '\''
        · subst h1
          simp only [replaceChar, show ('\\' = '\'') = False by decide, if_false, if_true, List.cons_append] at ih ⊢
          rw [bsOk_back, ih]; decide
        · simp only [replaceChar, show ('\\' = '\'') = False by decide, if_false, if_true, h1] at ih ⊢
          rw [bsOk_back, ih]; simp [hd]
    · rw [bsOk_other hc] at h
      have ih := bsOk_mixed h
      by_cases h1 : c = '\''
      · subst h1
        simp only [replaceChar, if_true]
        rw [bsOk_append _ _ (by decide)]; exact ih
      · simp only [replaceChar, if_neg h1]
        rw [bsOk_other hc]; exact ih

theorem not_mem_replaceChar {x c : Char} {r s : Str} (h1 : x ∉ s) (h2 : x ∉ r) : x ∉ replaceChar c r s := by
  intro hm
  rcases mem_replaceChar hm with q | q
  · exact h1 q
  · exact h2 q

theorem bsOk_quote {s : Str} (h : bsOk s = true) : bsOk (quote s) = true := by
  unfold quote
  simp only [Bool.not_true, Bool.and_false, Bool.false_eq_true, if_false]
  split
  · exact h
  · split
    · rw [List.append_assoc, bsOk_append _ _ (by decide), bsOk_append _ _ h]; decide
    · split
      · rw [List.append_assoc, bsOk_append _ _ (by decide), bsOk_append _ _ (bsOk_escapeDouble h)]; decide
      · rw [List.append_assoc, bsOk_append _ _ (by decide), bsOk_append _ _ (bsOk_mixed h)]; decide

theorem bsOk_brackets {s : Str} (h : '\\' ∉ s) : bsOk (escapeSquareBrackets s) = true := by
  induction s with
  | nil => rfl
  | cons c r ih =>
    have ih := ih (fun hm => h (by simp [hm]))
    have hc : c ≠ '\\' := by rintro rfl; simp at h
    have e : escapeSquareBrackets (c :: r) = (if c = '[' then ['\\', '['] else if c = ']' then ['\\', ']'] else [c]) ++
        escapeSquareBrackets r := by
      unfold escapeSquareBrackets
      by_cases h1 : c = '['
      · subst h1; simp [replaceChar]
      · by_cases h2 : c = ']'
        · subst h2; simp [replaceChar]
        · simp [replaceChar, h1, h2]
    rw [e, bsOk_append _ _ (by
      split
      · decide
      · split
        · decide
        · rw [bsOk_other hc]; rfl)]
    exact ih

theorem nl_brackets {s : Str} (h : '\n' ∉ s) : '\n' ∉ escapeSquareBrackets s := by
  unfold escapeSquareBrackets
  exact not_mem_replaceChar (not_mem_replaceChar h (by decide)) (by decide)

theorem nl_escapeDouble {s : Str} (h : '\n' ∉ s) : '\n' ∉ escapeDouble s := by
  unfold escapeDouble
  exact not_mem_replaceChar (not_mem_replaceChar (not_mem_replaceChar h (by decide)) (by decide)) (by decide)

theorem nl_quote {s : Str} (h : '\n' ∉ s) : '\n' ∉ quote s := by
  unfold quote
  simp only [Bool.not_true, Bool.and_false, Bool.false_eq_true, if_false]
  split
  · exact h
  · split
    · simp [h]
    · split
      · have := nl_escapeDouble h
        simp [this]
      · have := not_mem_replaceChar (c := '\'') (r := ['\'', '"', '\'', '"', '\'']) h (by decide)
        simp [this]

theorem joinWith_bsOk {sep : Str} (hs : bsOk sep = true) : ∀ {l : List Str}, (∀ w ∈ l, bsOk w = true) → bsOk (joinWith sep l) = true
  | [], _ => rfl
  | [w], h => h w (by simp)
  | w :: x :: r, h => by
    simp only [joinWith]
    rw [List.append_assoc, bsOk_append _ _ (h w (by simp)), bsOk_append _ _ hs]
    exact joinWith_bsOk hs (fun y hy => h y (by simp [hy]))

theorem joinWith_not_mem {sep : Str} {c : Char} (hs : c ∉ sep) : ∀ {l : List Str}, (∀ w ∈ l, c ∉ w) → c ∉ joinWith sep l
  | [], _ => by simp [joinWith]
  | [w], h => h w (by simp)
  | w :: x :: r, h => by
    simp only [joinWith, List.mem_append, not_or]
    exact ⟨⟨h w (by simp), hs⟩, joinWith_not_mem hs (fun y hy => h y (by simp [hy]))⟩

theorem joinQuoted_bsOk {l : List Str} (h : ∀ w ∈ l, bsOk w = true) : bsOk (joinQuoted l) = true := by
  unfold joinQuoted
  refine joinWith_bsOk (by decide) ?_
  intro w hw
  obtain ⟨x, hx, rfl⟩ := List.mem_map.mp hw
  exact bsOk_quote (h x hx)

theorem joinQuoted_nl {l : List Str} (h : ∀ w ∈ l, '\n' ∉ w) : '\n' ∉ joinQuoted l := by
  unfold joinQuoted
  refine joinWith_not_mem (by decide) ?_
  intro w hw
  obtain ⟨x, hx, rfl⟩ := List.mem_map.mp hw
  exact nl_quote (h x hx)

theorem plainColons_bsOk : ∀ (t : Str), bsOk t = true → ZshCode.plainColons t = t
  | [], _ => rfl
  | c :: r, h => by
    by_cases hc : c = '\\'
    · subst hc
      match r, h with
      | [], h => simp [bsOk] at h
      | d :: r', h =>
        rw [bsOk_back, Bool.and_eq_true] at h
        have hd : d ≠ ':' := by simpa using h.1
        have e1 : ZshCode.plainColons ('\\' :: d :: r') = '\\' :: ZshCode.plainColons (d :: r') := by
          rw [ZshCode.plainColons.eq_def]
          split
          · simp_all
          · simp_all
          · rename_i e; cases e; rfl
        rw [e1, plainColons_bsOk (d :: r') h.2]
    · rw [bsOk_other hc] at h
      have e1 : ZshCode.plainColons (c :: r) = c :: ZshCode.plainColons r := by
        rw [ZshCode.plainColons.eq_def]
        split <;> simp_all
      rw [e1, plainColons_bsOk r h]

/-! ## Definitions of `_values` -/

theorem readName_plain {n rest : Str} (h : ∀ c ∈ n, c ≠ '\\' ∧ c ≠ '[' ∧ c ≠ ':')
    (hr : rest = [] ∨ rest.head? = some '[' ∨ rest.head? = some ':') : ZshCode.readName (n ++ rest) = (n, rest) := by
  induction n with
  | nil =>
    rcases hr with rfl | hr | hr
    · rfl
    all_goals
      match rest, hr with
      | c :: r, hr =>
        simp at hr; subst hr
        simp [ZshCode.readName]
  | cons c cs ih =>
    obtain ⟨h1, h2, h3⟩ := h c (by simp)
    have ih := ih (fun x hx => h x (by simp [hx]))
    rw [List.cons_append, ZshCode.readName.eq_def]
    split
    · simp_all
    · rename_i e; simp at e; exact absurd e.1 h1
    · rename_i e
      simp at e; obtain ⟨rfl, rfl⟩ := e
      simp [h2, h3, ih]

theorem escapeSquareBrackets_cons (c : Char) (cs : Str) :
    escapeSquareBrackets (c :: cs) = (if c = '[' then ['\\', '['] else if c = ']' then ['\\', ']'] else [c]) ++
      escapeSquareBrackets cs := by
  unfold escapeSquareBrackets
  by_cases h1 : c = '['
  · subst h1; simp [replaceChar]
  · by_cases h2 : c = ']'
    · subst h2; simp [replaceChar]
    · simp [replaceChar, h1, h2]

theorem readName_escaped {n rest : Str} (h : '\\' ∉ n ∧ ':' ∉ n)
    (hr : rest = [] ∨ rest.head? = some '[' ∨ rest.head? = some ':') :
    ZshCode.readName (escapeSquareBrackets n ++ rest) = (n, rest) := by
  induction n with
  | nil => exact readName_plain (n := []) (by simp) hr
  | cons c cs ih =>
    have ih := ih ⟨fun hm => h.1 (by simp [hm]), fun hm => h.2 (by simp [hm])⟩
    have h1 : c ≠ '\\' := by rintro rfl; simp at h
    have h2 : c ≠ ':' := by rintro rfl; simp at h
    rw [escapeSquareBrackets_cons]
    by_cases h3 : c = '['
    · subst h3; simp [ZshCode.readName, ih]
    · by_cases h4 : c = ']'
      · subst h4; simp [ZshCode.readName, ih]
      · simp only [if_neg h3, if_neg h4, List.cons_append, List.nil_append]
        rw [ZshCode.readName.eq_def]
        split
        · simp_all
        · rename_i e; simp at e; exact absurd e.1 h1
        · rename_i e
          simp at e; obtain ⟨rfl, rfl⟩ := e
          simp [h2, h3, ih]

theorem readExplanation_escaped {d rest : Str} (h : '\\' ∉ d) :
    ZshArgs.readExplanation (escapeSquareBrackets d ++ ']' :: rest) = some (d, rest) := by
  induction d with
  | nil => simp [escapeSquareBrackets, replaceChar, ZshArgs.readExplanation]
  | cons c cs ih =>
    have ih := ih (fun hm => h (by simp [hm]))
    have h1 : c ≠ '\\' := by rintro rfl; simp at h
    rw [escapeSquareBrackets_cons]
    by_cases h3 : c = '['
    · subst h3; simp [ZshArgs.readExplanation, ih]
    · by_cases h4 : c = ']'
      · subst h4; simp [ZshArgs.readExplanation, ih]
      · simp only [if_neg h3, if_neg h4, List.cons_append, List.nil_append]
        rw [readExplanation_other _ h4 h1, ih]; rfl

theorem readDef_value {n rest : Str} (h1 : n.head? ≠ some '(') (h0 : n ≠ []) :
    ZshCode.readDef (n ++ rest) = ZshCode.readValue [] (n ++ rest) := by
  match n with
  | c :: cs =>
    have hc : c ≠ '(' := by simpa using h1
    rw [ZshCode.readDef.eq_def]
    split
    · rename_i e; simp at e; exact absurd e.1 hc
    · rfl

theorem readValue_plain {s : Str} (ex : List Str) (h : s.head? ≠ some '*') :
    ZshCode.readValue ex s = (ZshCode.readRest (ZshCode.readName s).2).map
      (fun x => ⟨ex, false, (ZshCode.readName s).1, x.1, x.2⟩) := by
  unfold ZshCode.readValue
  split
  rename_i e
  split at e
  · rename_i r; simp at h
  · cases e; rfl

theorem escaped_head (n : Str) : (escapeSquareBrackets n).head? ≠ some '(' ∧ (escapeSquareBrackets n).head? ≠ some '*' ∧
    (escapeSquareBrackets n).head? ≠ some '=' ∨ n.head? = some '(' ∨ n.head? = some '*' ∨ n.head? = some '=' := by
  match n with
  | [] => left; decide
  | c :: cs =>
    rw [escapeSquareBrackets_cons]
    by_cases h3 : c = '['
    · subst h3; left; simp
    · by_cases h4 : c = ']'
      · subst h4; left; simp
      · simp only [if_neg h3, if_neg h4, List.cons_append, List.nil_append, List.head?_cons]
        by_cases h5 : c = '(' <;> by_cases h6 : c = '*' <;> by_cases h7 : c = '=' <;> simp_all

theorem escaped_ne {n : Str} (h : n ≠ []) : escapeSquareBrackets n ≠ [] := by
  match n with
  | c :: cs =>
    rw [escapeSquareBrackets_cons]
    split
    · simp
    · split <;> simp

/-- A definition of a value. -/
theorem readDef_item {n : Str} {d : Option Str} (h0 : n ≠ []) (hb : '\\' ∉ n) (hc : ':' ∉ n) (h1 : n.head? ≠ some '(')
    (h2 : n.head? ≠ some '*') (hd : ∀ x, d = some x → '\\' ∉ x) :
    ZshCode.readDef (escapeSquareBrackets n ++ (match d with
      | some x => S "[" ++ escapeSquareBrackets x ++ S "]"
      | none => [])) = some ⟨[], false, n, d, none⟩ := by
  have hh : (escapeSquareBrackets n).head? ≠ some '(' ∧ (escapeSquareBrackets n).head? ≠ some '*' := by
    match n, h0 with
    | c :: cs, _ =>
      rw [escapeSquareBrackets_cons]
      simp at h1 h2
      split
      · simp
      · split <;> simp [h1, h2]
  have hne := escaped_ne h0
  have hhead : ∀ rest : Str, (escapeSquareBrackets n ++ rest).head? = (escapeSquareBrackets n).head? := by
    intro rest
    cases he : escapeSquareBrackets n with
    | nil => exact absurd he hne
    | cons a b => rfl
  rw [readDef_value hh.1 hne, readValue_plain _ (by rw [hhead]; exact hh.2)]
  cases d with
  | none =>
    rw [readName_escaped ⟨hb, hc⟩ (Or.inl rfl)]
    rfl
  | some x =>
    rw [readName_escaped ⟨hb, hc⟩ (Or.inr (Or.inl rfl))]
    have e : S "[" ++ escapeSquareBrackets x ++ S "]" = '[' :: (escapeSquareBrackets x ++ ']' :: []) := by simp [S]
    simp only [e, ZshCode.readRest]
    rw [readExplanation_escaped (hd x rfl)]
    rfl

end CC
