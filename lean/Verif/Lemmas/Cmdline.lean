import Verif.Model.ZshQuery
import Verif.Props.StrUtils
/-! # Lemmas about option tables and words of a command line -/

namespace CC

/-- An entry of an option table that can be written down: it starts with a dash, is not `--`, and
contains neither a space nor `=`. -/
def PlainOption (s : Str) : Prop :=
  (∃ c cs, s = '-' :: c :: cs) ∧ s ≠ ['-', '-'] ∧ '=' ∉ s ∧ ' ' ∉ s

/-- The entries of an option table. -/
def tableOf (options : List Opt) : List (Str × ArgKind) :=
  options.flatMap (fun o => o.strings.map (fun s => (s, o.kind)))

/-- The argument kind of an option string. -/
def kindIn (t : List (Str × ArgKind)) (s : Str) : Option ArgKind :=
  (t.find? (fun e => e.1 == s)).map (·.2)

/-- A table of plain options in which no option string has two argument kinds. -/
structure TableOk (t : List (Str × ArgKind)) : Prop where
  plain : ∀ e ∈ t, PlainOption e.1
  single : ∀ s k k', (s, k) ∈ t → (s, k') ∈ t → k = k'

theorem kindIn_iff {t : List (Str × ArgKind)} (h : TableOk t) (s : Str) (k : ArgKind) :
    kindIn t s = some k ↔ (s, k) ∈ t := by
  unfold kindIn
  constructor
  · intro hk
    cases hf : t.find? (fun e => e.1 == s) with
    | none => rw [hf] at hk; simp at hk
    | some e =>
      rw [hf] at hk
      have h1 := List.find?_some hf
      have h2 := List.mem_of_find?_eq_some hf
      simp at h1 hk
      rw [← h1, ← hk]; exact h2
  · intro hm
    cases hf : t.find? (fun e => e.1 == s) with
    | none =>
      have := List.find?_eq_none.mp hf _ hm
      simp at this
    | some e =>
      have h1 := List.find?_some hf
      have h2 := List.mem_of_find?_eq_some hf
      simp at h1
      have : (s, e.2) ∈ t := by rw [← h1]; exact h2
      simp [h.single _ _ _ this hm]

inductive QStyle where
  | long | short | old
  deriving DecidableEq

def qstyle (s : Str) : QStyle :=
  if startsWith s ['-', '-'] then .long else if s.length = 2 then .short else .old

def ZshArrays.sel : QStyle → ArgKind → ZshArrays → List Str
  | .long, .required, a => a.longArg
  | .long, .optional, a => a.longOpt
  | .long, .flag, a => a.longFlag
  | .short, .required, a => a.shortArg
  | .short, .optional, a => a.shortOpt
  | .short, .flag, a => a.shortFlag
  | .old, .required, a => a.oldArg
  | .old, .optional, a => a.oldOpt
  | .old, .flag, a => a.oldFlag

def enabled (long short old : Bool) : QStyle → Bool
  | .long => long
  | .short => short
  | .old => old

theorem endsEq_append (s : Str) : endsEq (s ++ ['=']) = true := by simp [endsEq]
theorem endsEq_appendQ (s : Str) : endsEq (s ++ ['=', '?']) = false := by
  have : s ++ ['=', '?'] = (s ++ ['=']) ++ ['?'] := by simp
  rw [this]; simp [endsEq]
theorem endsEqQ_appendQ (s : Str) : endsEqQ (s ++ ['=', '?']) = true := by
  have : s ++ ['=', '?'] = (s ++ ['=']) ++ ['?'] := by simp
  rw [this]; simp [endsEqQ]
theorem endsEq_plain {s : Str} (h : '=' ∉ s) : endsEq s = false := by
  unfold endsEq
  cases hl : s.getLast? with
  | none => rfl
  | some c =>
    have := List.mem_of_getLast? hl
    have hc : c ≠ '=' := fun e => h (e ▸ this)
    simp [hc]
theorem endsEqQ_plain {s : Str} (h : '=' ∉ s) : endsEqQ s = false := by
  unfold endsEqQ
  cases hl : s.dropLast.getLast? with
  | none => simp
  | some c =>
    have := List.mem_of_getLast? hl
    have hc : c ≠ '=' := fun e => h (e ▸ List.dropLast_subset _ this)
    simp [hc]

theorem dropLast_append1 (s : Str) (c : Char) : (s ++ [c]).dropLast = s := by simp
theorem dropLast_append2 (s : Str) (c d : Char) : (s ++ [c, d]).dropLast.dropLast = s := by
  have : s ++ [c, d] = (s ++ [c]) ++ [d] := by simp
  rw [this, dropLast_append1, dropLast_append1]

/-- The forms of plain options. -/
theorem plain_cases {s : Str} (h : PlainOption s) :
    (∃ c cs, s = '-' :: '-' :: c :: cs) ∨ (∃ c, s = ['-', c] ∧ c ≠ '-') ∨
    (∃ c d cs, s = '-' :: c :: d :: cs ∧ c ≠ '-') := by
  obtain ⟨⟨c, cs, rfl⟩, hne, -, -⟩ := h
  by_cases hc : c = '-'
  · subst hc
    cases cs with
    | nil => exact absurd rfl hne
    | cons d cs => exact Or.inl ⟨d, cs, rfl⟩
  · cases cs with
    | nil => exact Or.inr (Or.inl ⟨c, rfl, hc⟩)
    | cons d cs => exact Or.inr (Or.inr ⟨c, d, cs, rfl, hc⟩)

theorem qstyle_long (c : Char) (cs : Str) : qstyle ('-' :: '-' :: c :: cs) = .long := by
  simp [qstyle, startsWith]
theorem qstyle_short {c : Char} (h : c ≠ '-') : qstyle ['-', c] = .short := by
  simp [qstyle, startsWith, h]
theorem qstyle_old {c : Char} (d : Char) (cs : Str) (h : c ≠ '-') : qstyle ('-' :: c :: d :: cs) = .old := by
  simp [qstyle, startsWith, h]

theorem sel_classify {s : Str} (h : PlainOption s) (k : ArgKind) (long short old : Bool)
    (he : enabled long short old (qstyle s) = true) (a : ZshArrays) (st : QStyle) (k' : ArgKind) :
    (zshClassify long short old a (queryField k s)).sel st k' =
      a.sel st k' ++ (if qstyle s = st ∧ k = k' then [s] else []) := by
  have heq := h.2.2.1
  have e1 := endsEq_append s
  have e2 := endsEq_appendQ s
  have e3 := endsEqQ_appendQ s
  have e4 := endsEq_plain heq
  have e5 := endsEqQ_plain heq
  have e6 : endsEqQ (s ++ ['=']) = false := by simp [endsEqQ]
  have d1 := dropLast_append1 s '='
  have d2 := dropLast_append2 s '=' '?'
  rcases plain_cases h with ⟨c, cs, rfl⟩ | ⟨c, rfl, hc⟩ | ⟨c, d, cs, rfl, hc⟩
  · rw [qstyle_long] at he ⊢
    simp only [enabled] at he
    subst he
    cases k <;>
      simp only [zshClassify, queryField, e1, e2, e3, e4, e5, e6, d1, d2] <;>
      simp [startsWith] <;> cases st <;> cases k' <;> simp [ZshArrays.sel]
  · rw [qstyle_short hc] at he ⊢
    simp only [enabled] at he
    subst he
    cases k <;>
      simp only [zshClassify, queryField, e1, e2, e3, e4, e5, e6, d1, d2] <;>
      simp [startsWith, hc] <;> cases st <;> cases k' <;> simp [ZshArrays.sel]
  · rw [qstyle_old _ _ hc] at he ⊢
    simp only [enabled] at he
    subst he
    cases k <;>
      simp only [zshClassify, queryField, e1, e2, e3, e4, e5, e6, d1, d2] <;>
      simp [startsWith, hc] <;> cases st <;> cases k' <;> simp [ZshArrays.sel]

theorem sel_foldl (long short old : Bool) (t : List (Str × ArgKind)) (a : ZshArrays)
    (hp : ∀ e ∈ t, PlainOption e.1) (he : ∀ e ∈ t, enabled long short old (qstyle e.1) = true)
    (st : QStyle) (k : ArgKind) (s : Str) :
    s ∈ ((t.map (fun e => queryField e.2 e.1)).foldl (zshClassify long short old) a).sel st k ↔
      s ∈ a.sel st k ∨ ((s, k) ∈ t ∧ qstyle s = st) := by
  induction t generalizing a with
  | nil => simp
  | cons e t ih =>
    simp only [List.map_cons, List.foldl_cons]
    rw [ih _ (fun x hx => hp x (by simp [hx])) (fun x hx => he x (by simp [hx])),
      sel_classify (hp e (by simp)) _ _ _ _ (he e (by simp))]
    obtain ⟨s', k'⟩ := e
    simp only [List.mem_append, List.mem_cons, Prod.mk.injEq]
    by_cases hc : qstyle s' = st ∧ k' = k
    · rw [if_pos hc]
      obtain ⟨h1, h2⟩ := hc
      simp only [List.mem_singleton]
      constructor
      · rintro ((h | h) | h)
        · exact Or.inl h
        · subst h; exact Or.inr ⟨Or.inl ⟨rfl, h2.symm⟩, h1⟩
        · exact Or.inr ⟨Or.inr h.1, h.2⟩
      · rintro (h | ⟨⟨h, -⟩ | h, h3⟩)
        · exact Or.inl (Or.inl h)
        · exact Or.inl (Or.inr h)
        · exact Or.inr ⟨h, h3⟩
    · rw [if_neg hc]
      simp only [List.not_mem_nil, or_false]
      constructor
      · rintro (h | h)
        · exact Or.inl h
        · exact Or.inr ⟨Or.inr h.1, h.2⟩
      · rintro (h | ⟨⟨h, h2⟩ | h, h3⟩)
        · exact Or.inl h
        · subst h; exact absurd ⟨h3, h2.symm⟩ hc
        · exact Or.inr ⟨h, h3⟩

theorem queryField_nospace {s : Str} (h : PlainOption s) (k : ArgKind) : ' ' ∉ queryField k s := by
  have := h.2.2.2
  cases k <;> simp [queryField, this]

theorem queryField_ne_nil {s : Str} (h : PlainOption s) (k : ArgKind) : queryField k s ≠ [] := by
  obtain ⟨⟨c, cs, rfl⟩, -⟩ := h
  cases k <;> simp [queryField]

/-- Splitting the table string gives the entries. -/
theorem zshFields_join (t : List (Str × ArgKind)) (hp : ∀ e ∈ t, PlainOption e.1) :
    zshFields (joinWith [' '] (t.map (fun e => queryField e.2 e.1))) = t.map (fun e => queryField e.2 e.1) := by
  cases t with
  | nil => rfl
  | cons e t =>
    unfold zshFields
    rw [splitOn_join ' ' _ (by simp)]
    · apply List.filter_eq_self.mpr
      intro x hx
      obtain ⟨y, hy, rfl⟩ := List.mem_map.mp hx
      have := queryField_ne_nil (hp y hy) y.2
      simp [this]
    · intro x hx
      obtain ⟨y, hy, rfl⟩ := List.mem_map.mp hx
      exact queryField_nospace (hp y hy) y.2

theorem queryOptionStrings_eq (options : List Opt) :
    queryOptionStrings options = joinWith [' '] ((tableOf options).map (fun e => queryField e.2 e.1)) := by
  unfold queryOptionStrings tableOf
  congr 1
  rw [List.map_flatMap]
  simp only [List.map_map]
  rfl

theorem beforeEq_append {n : Str} (h : '=' ∉ n) (v : Str) : beforeEq (n ++ '=' :: v) = n := by
  unfold beforeEq
  rw [List.takeWhile_append_of_pos]
  · simp
  · intro c hc
    have : c ≠ '=' := fun e => h (e ▸ hc)
    simp [this]

theorem afterEq_append {n : Str} (h : '=' ∉ n) (v : Str) : afterEq (n ++ '=' :: v) = v := by
  unfold afterEq
  rw [List.dropWhile_append_of_pos]
  · simp
  · intro c hc
    have : c ≠ '=' := fun e => h (e ▸ hc)
    simp [this]

theorem split_first_eq {w : Str} (h : '=' ∈ w) : ∃ p r, w = p ++ '=' :: r ∧ '=' ∉ p := by
  induction w with
  | nil => simp at h
  | cons c w ih =>
    by_cases hc : c = '='
    · exact ⟨[], w, by simp [hc], by simp⟩
    · obtain ⟨p, r, h1, h2⟩ := ih (by simpa [Ne.symm hc] using h)
      exact ⟨c :: p, r, by simp [h1], by simp [h2, Ne.symm hc]⟩

end CC
