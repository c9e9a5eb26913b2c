import Verif.Model.BashPatterns
import Verif.Lemmas.Glob
import Verif.Props.Algo
import Verif.Props.Quoting
/-!
# C11: compact Bash patterns
-/

namespace CC

theorem Trie.ind {P : Trie → Prop} (h : ∀ t ch, (∀ x ∈ ch, P x.2) → P (.node t ch)) (t : Trie) : P t :=
  Trie.rec (motive_1 := P) (motive_2 := fun ch => ∀ x ∈ ch, P x.2) (motive_3 := fun x => P x.2)
    (fun t ch ih => h t ch ih) (by simp)
    (fun x xs hx hxs => by
      intro y hy; simp at hy; rcases hy with rfl | hy; exact hx; exact hxs y hy)
    (fun _ _ hx => hx) t

/-- ASCII characters without a meaning of their own. -/
def PlainChar (c : Char) : Prop := c.toNat < 128 ∧ c ∉ S "\\'\"[]()|?*$`&;<>#~ \t\n"

theorem PlainChar.lit {c : Char} (h : PlainChar c) : LitChar caseCtx c := by
  have hm := h.2
  simp only [S, String.reduceToList, List.mem_cons, List.not_mem_nil, or_false, not_or] at hm
  constructor
  · simp [S, hm]
  · simp [caseCtx, S, hm]

/-- The word is stored in the trie. -/
def Trie.Has : Str → Trie → Prop
  | [], .node t _ => t = true
  | c :: s, .node _ ch => ∃ u, (c, u) ∈ ch ∧ Trie.Has s u

/-- Tries made by insertions of words of the given characters. -/
inductive Trie.Good (P : Char → Prop) : Trie → Prop where
  | mk {t : Bool} {ch : List (Char × Trie)} : (ch = [] → t = true) → (ch.map (fun x => x.1)).Nodup →
    (∀ x ∈ ch, P x.1) → (∀ x ∈ ch, Trie.Good P x.2) → Trie.Good P (.node t ch)

theorem mem_updateChild (f : Trie → Trie) (c : Char) (ch : List (Char × Trie))
    (hn : (ch.map (fun x => x.1)).Nodup) (d : Char) (u : Trie) :
    (d, u) ∈ updateChild f c ch ↔
      (d ≠ c ∧ (d, u) ∈ ch) ∨ (d = c ∧ ((∃ t, (c, t) ∈ ch ∧ u = f t) ∨ (c ∉ ch.map (fun x => x.1) ∧ u = f (.node false [])))) := by
  induction ch with
  | nil => simp [updateChild]
  | cons x r ih =>
    obtain ⟨e, t⟩ := x
    simp only [List.map_cons, List.nodup_cons] at hn
    simp only [updateChild]
    by_cases he : e = c
    · subst he
      simp only [if_true, List.mem_cons, Prod.mk.injEq, List.map_cons, true_or, not_true_eq_false, false_and,
        or_false, ne_eq, true_and]
      have hnot : ∀ t, (e, t) ∉ r := fun t ht => hn.1 (List.mem_map.2 ⟨_, ht, rfl⟩)
      constructor
      · rintro (⟨rfl, rfl⟩ | h)
        · exact Or.inr ⟨rfl, t, Or.inl rfl, rfl⟩
        · by_cases hd : d = e
          · subst hd; exact absurd h (hnot u)
          · exact Or.inl ⟨hd, Or.inr h⟩
      · rintro (⟨hd, h⟩ | ⟨rfl, t', h, rfl⟩)
        · rcases h with ⟨h, _⟩ | h
          · exact absurd h hd
          · exact Or.inr h
        · rcases h with rfl | h
          · exact Or.inl ⟨rfl, rfl⟩
          · exact absurd h (hnot t')
    · rw [if_neg he]
      simp only [List.mem_cons, Prod.mk.injEq, ih hn.2, List.map_cons, not_or]
      constructor
      · rintro (⟨rfl, rfl⟩ | ⟨hd, h⟩ | ⟨rfl, h⟩)
        · exact Or.inl ⟨he, Or.inl ⟨rfl, rfl⟩⟩
        · exact Or.inl ⟨hd, Or.inr h⟩
        · refine Or.inr ⟨rfl, ?_⟩
          rcases h with ⟨t', h, rfl⟩ | ⟨h, rfl⟩
          · exact Or.inl ⟨t', Or.inr h, rfl⟩
          · exact Or.inr ⟨⟨fun e2 => he e2.symm, h⟩, rfl⟩
      · rintro (⟨hd, h⟩ | ⟨rfl, h⟩)
        · rcases h with h | h
          · exact Or.inl h
          · exact Or.inr (Or.inl ⟨hd, h⟩)
        · refine Or.inr (Or.inr ⟨rfl, ?_⟩)
          rcases h with ⟨t', h, rfl⟩ | ⟨⟨_, h⟩, rfl⟩
          · rcases h with ⟨h, _⟩ | h
            · exact absurd h.symm he
            · exact Or.inl ⟨t', h, rfl⟩
          · exact Or.inr ⟨h, rfl⟩

theorem updateChild_keys (f : Trie → Trie) (c : Char) (ch : List (Char × Trie)) :
    (updateChild f c ch).map (fun x => x.1) =
      if c ∈ ch.map (fun x => x.1) then ch.map (fun x => x.1) else ch.map (fun x => x.1) ++ [c] := by
  induction ch with
  | nil => simp [updateChild]
  | cons x r ih =>
    obtain ⟨e, t⟩ := x
    simp only [updateChild]
    by_cases he : e = c
    · subst he; simp
    · rw [if_neg he]
      simp only [List.map_cons, ih, List.mem_cons]
      have hce : ¬ c = e := fun h => he h.symm
      simp only [hce, false_or]
      split <;> rfl

theorem Good.nodup {P : Char → Prop} {t : Bool} {ch : List (Char × Trie)} (h : Trie.Good P (.node t ch)) :
    (ch.map (fun x => x.1)).Nodup := by cases h; assumption

theorem has_empty (s : Str) : ¬ Trie.Has s (.node false []) := by
  cases s <;> simp [Trie.Has]

/-- Inserting a word adds exactly that word. -/
theorem has_insert {P : Char → Prop} (s : Str) : ∀ (t : Trie), (Trie.Good P t ∨ t = .node false []) → ∀ w,
    Trie.Has w (Trie.insert s t) ↔ w = s ∨ Trie.Has w t := by
  induction s with
  | nil =>
    intro t _ w
    cases t with
    | node b ch =>
      simp only [Trie.insert]
      cases w with
      | nil => simp [Trie.Has]
      | cons c w => simp [Trie.Has]
  | cons c s ih =>
    intro t ht w
    cases t with
    | node b ch =>
      have hn : (ch.map (fun x => x.1)).Nodup := by
        rcases ht with h | h
        · exact Good.nodup h
        · cases h; simp
      simp only [Trie.insert]
      cases w with
      | nil => simp [Trie.Has]
      | cons d w =>
        simp only [Trie.Has, mem_updateChild _ _ _ hn, List.cons.injEq]
        have hgood : ∀ x ∈ ch, Trie.Good P x.2 := by
          intro x hx
          rcases ht with h | h
          · cases h with | mk _ _ _ h4 => exact h4 x hx
          · cases h; simp at hx
        constructor
        · rintro ⟨u, (⟨hd, hm⟩ | ⟨rfl, (⟨t', hm, rfl⟩ | ⟨hm, rfl⟩)⟩), hu⟩
          · exact Or.inr ⟨u, hm, hu⟩
          · rcases (ih t' (Or.inl (hgood _ hm)) w).1 hu with rfl | h
            · exact Or.inl ⟨rfl, rfl⟩
            · exact Or.inr ⟨t', hm, h⟩
          · rcases (ih _ (Or.inr rfl) w).1 hu with rfl | h
            · exact Or.inl ⟨rfl, rfl⟩
            · exact absurd h (has_empty w)
        · rintro (⟨rfl, rfl⟩ | ⟨u, hm, hu⟩)
          · by_cases hc : d ∈ ch.map (fun x => x.1)
            · obtain ⟨x, hx, e⟩ := List.mem_map.1 hc
              obtain ⟨d', t'⟩ := x
              simp only at e
              subst e
              exact ⟨_, Or.inr ⟨rfl, Or.inl ⟨t', hx, rfl⟩⟩, (ih t' (Or.inl (hgood _ hx)) w).2 (Or.inl rfl)⟩
            · exact ⟨_, Or.inr ⟨rfl, Or.inr ⟨hc, rfl⟩⟩, (ih _ (Or.inr rfl) w).2 (Or.inl rfl)⟩
          · by_cases hd : d = c
            · subst hd
              exact ⟨_, Or.inr ⟨rfl, Or.inl ⟨u, hm, rfl⟩⟩, (ih u (Or.inl (hgood _ hm)) w).2 (Or.inr hu)⟩
            · exact ⟨u, Or.inl ⟨hd, hm⟩, hu⟩

theorem good_insert {P : Char → Prop} (s : Str) (hs : ∀ c ∈ s, P c) : ∀ (t : Trie),
    (Trie.Good P t ∨ t = .node false []) → Trie.Good P (Trie.insert s t) := by
  induction s with
  | nil =>
    intro t ht
    rcases ht with h | rfl
    · cases h with | mk h1 h2 h3 h4 => exact .mk (fun _ => rfl) h2 h3 h4
    · exact .mk (fun _ => rfl) (by simp) (by simp) (by simp)
  | cons c s ih =>
    intro t ht
    have hs' : ∀ c ∈ s, P c := fun x hx => hs x (by simp [hx])
    cases t with
    | node b ch =>
      have hn : (ch.map (fun x => x.1)).Nodup := by
        rcases ht with h | h
        · exact Good.nodup h
        · cases h; simp
      have hg : ∀ x ∈ ch, P x.1 ∧ Trie.Good P x.2 := by
        intro x hx
        rcases ht with h | h
        · cases h with | mk _ _ h3 h4 => exact ⟨h3 x hx, h4 x hx⟩
        · cases h; simp at hx
      simp only [Trie.insert]
      have hall : ∀ x ∈ updateChild (Trie.insert s) c ch, P x.1 ∧ Trie.Good P x.2 := by
        rintro ⟨d, u⟩ hx
        rw [mem_updateChild _ _ _ hn] at hx
        rcases hx with ⟨hd, hm⟩ | ⟨rfl, (⟨t', hm, rfl⟩ | ⟨hm, rfl⟩)⟩
        · exact hg _ hm
        · exact ⟨hs d (by simp), ih hs' _ (Or.inl (hg _ hm).2)⟩
        · exact ⟨hs d (by simp), ih hs' _ (Or.inr rfl)⟩
      refine .mk ?_ ?_ (fun x hx => (hall x hx).1) (fun x hx => (hall x hx).2)
      · intro h
        have := congrArg (List.map (fun x => x.1)) h
        rw [updateChild_keys] at this
        split at this
        · rename_i hc
          simp only [List.map_nil] at this
          rw [this] at hc
          simp at hc
        · simp at this
      · rw [updateChild_keys]
        split
        · exact hn
        · rename_i hc
          rw [List.nodup_append]
          refine ⟨hn, by simp, ?_⟩
          intro a ha b hb
          simp only [List.mem_singleton] at hb
          subst hb
          intro e
          subst e
          exact hc ha

theorem insertAll {P : Char → Prop} (l : List Str) (hl : ∀ s ∈ l, ∀ c ∈ s, P c) : ∀ (t : Trie),
    (Trie.Good P t ∨ t = .node false []) →
    (l ≠ [] ∨ Trie.Good P t → Trie.Good P (l.foldl (fun (t : Trie) s => Trie.insert s t) t)) ∧
    ∀ w, Trie.Has w (l.foldl (fun (t : Trie) s => Trie.insert s t) t) ↔ w ∈ l ∨ Trie.Has w t := by
  induction l with
  | nil => intro t ht; exact ⟨fun h => by simpa using h, by simp⟩
  | cons s l ih =>
    intro t ht
    have hg := good_insert s (hl s (by simp)) t ht
    have := ih (fun x hx => hl x (by simp [hx])) (Trie.insert s t) (Or.inl hg)
    simp only [List.foldl_cons]
    refine ⟨fun _ => this.1 (Or.inr hg), ?_⟩
    intro w
    rw [this.2 w, has_insert (P := P) s t ht w]
    simp only [List.mem_cons]
    constructor
    · rintro (h | h | h)
      · exact Or.inl (Or.inr h)
      · exact Or.inl (Or.inl h)
      · exact Or.inr h
    · rintro ((h | h) | h)
      · exact Or.inr (Or.inl h)
      · exact Or.inl h
      · exact Or.inr (Or.inr h)

theorem parts_eq (ch : List (Char × Trie)) : Trie.parts ch = ch.map (fun x => x.1 :: x.2.toPattern) := by
  induction ch with
  | nil => rfl
  | cons x r ih => obtain ⟨c, t⟩ := x; simp [Trie.parts, ih]

/-- The cases of `buildPattern`. -/
theorem buildPattern_cases (parts : List Str) (hne : parts ≠ []) :
    (∃ p, parts = [p] ∧ buildPattern parts = p) ∨
    (2 ≤ parts.length ∧ buildPattern parts = altPattern parts) ∨
    (2 ≤ parts.length ∧ ∃ ints, partInts parts = some ints ∧ numbersAreContiguous ints = true ∧
      buildPattern parts = ['['] ++ intStr (ints.head?.getD 0) ++ ['-'] ++ intStr (ints.getLast?.getD 0) ++ [']']) := by
  cases parts with
  | nil => exact absurd rfl hne
  | cons p r =>
    cases r with
    | nil => exact Or.inl ⟨p, rfl, rfl⟩
    | cons q r =>
      right
      unfold buildPattern
      cases hi : partInts (p :: q :: r) with
      | none => left; exact ⟨by simp, rfl⟩
      | some ints =>
        by_cases hc : numbersAreContiguous ints = true
        · right
          refine ⟨by simp, ints, rfl, hc, ?_⟩
          simp only [hc, if_true]
        · left
          refine ⟨by simp, ?_⟩
          simp only [hc, Bool.false_eq_true, if_false]

/-- No characters that only an extended glob or brackets bring in. -/
def NoMeta (s : Str) : Prop := ∀ c ∈ s, c ≠ '(' ∧ c ≠ '['

theorem has_literal {P : Char → Prop} (t : Trie) : Trie.Good P t → NoMeta t.toPattern → Trie.Has t.toPattern t := by
  induction t using Trie.ind with
  | h b ch ih =>
    intro hg hm
    cases hg with
    | mk h1 h2 h3 h4 =>
      simp only [Trie.toPattern] at hm ⊢
      cases ch with
      | nil => simp [Trie.Has, h1 rfl]
      | cons x r =>
        simp only [List.isEmpty_cons, Bool.false_eq_true, if_false] at hm ⊢
        rcases buildPattern_cases (Trie.parts (x :: r) ++ if b = true then [[]] else []) (by simp [parts_eq]) with
          ⟨p, e, hp⟩ | ⟨_, hp⟩ | ⟨_, ints, _, _, hp⟩
        · rw [hp] at hm ⊢
          rw [parts_eq] at e
          simp only [List.map_cons, List.cons_append, List.cons.injEq] at e
          obtain ⟨e, _⟩ := e
          subst e
          exact ⟨x.2, by simp, ih x (by simp) (h4 x (by simp)) (fun c hc => hm c (by simp [hc]))⟩
        · rw [hp] at hm
          exact absurd rfl (hm '(' (by simp [altPattern])).1
        · rw [hp] at hm
          exact absurd rfl (hm '[' (by simp)).2

theorem mem_lstrip (s : Str) (c : Char) (h : c ∈ s) : pyIsSpace c = true ∨ c ∈ lstrip s := by
  induction s with
  | nil => simp at h
  | cons x xs ih =>
    simp only [lstrip]
    by_cases hx : pyIsSpace x = true
    · rw [if_pos hx]
      simp only [List.mem_cons] at h
      rcases h with rfl | h
      · exact Or.inl hx
      · exact ih h
    · rw [if_neg hx]; exact Or.inr h

theorem mem_strip (s : Str) (c : Char) (h : c ∈ s) : pyIsSpace c = true ∨ c ∈ strip s := by
  rcases mem_lstrip s c h with h | h
  · exact Or.inl h
  · rcases mem_lstrip (lstrip s).reverse c (by simpa using h) with h | h
    · exact Or.inl h
    · right; simp [strip, rstrip, h]

theorem intDigits_chars (s : Str) : ∀ acc n, intDigits acc s = some n → ∀ c ∈ s, c.isDigit = true ∨ c = '_' := by
  intro acc
  fun_induction intDigits acc s with
  | case1 => intro n _ c hc; simp at hc
  | case2 acc c h => intro n hn d hd; simp only [List.mem_singleton] at hd; subst hd; exact Or.inl h
  | case3 acc c h => intro n hn; simp at hn
  | case4 acc c d ds h ih =>
    intro n hn x hx
    simp only [List.mem_cons] at hx
    rcases hx with rfl | hx
    · exact Or.inl h
    · exact ih n hn x (by simpa using hx)
  | case5 acc c d ds h1 h2 ih =>
    intro n hn x hx
    simp only [Bool.and_eq_true, decide_eq_true_eq] at h2
    simp only [List.mem_cons] at hx
    rcases hx with rfl | rfl | hx
    · exact Or.inr h2.1
    · exact Or.inl h2.2
    · exact ih n hn x hx
  | case6 acc c d ds h1 h2 => intro n hn; simp at hn

theorem pyInt_chars {s : Str} {n : Int} (h : pyInt s = some n) (c : Char) (hc : c ∈ s) :
    pyIsSpace c = true ∨ c.isDigit = true ∨ c = '_' ∨ c = '-' ∨ c = '+' := by
  have body : ∀ (t : Str) (k : Nat) (x : Char), intBody t = some k → x ∈ t →
      x.isDigit = true ∨ x = '_' := by
    intro t k x hk hx
    cases t with
    | nil => simp at hx
    | cons y ys =>
      simp only [intBody] at hk
      by_cases hy : y.isDigit = true
      · rw [if_pos hy] at hk
        simp only [List.mem_cons] at hx
        rcases hx with rfl | hx
        · exact Or.inl hy
        · exact intDigits_chars ys _ _ hk x hx
      · rw [if_neg hy] at hk; simp at hk
  rcases mem_strip s c hc with h1 | h1
  · exact Or.inl h1
  · right
    unfold pyInt at h
    split at h
    · rename_i t e
      rw [e] at h1
      simp only [Option.map_eq_some_iff] at h
      obtain ⟨k, hk, _⟩ := h
      simp only [List.mem_cons] at h1
      rcases h1 with rfl | h1
      · simp
      · rcases body t k c hk h1 with h | h <;> simp [h]
    · rename_i t e
      rw [e] at h1
      simp only [Option.map_eq_some_iff] at h
      obtain ⟨k, hk, _⟩ := h
      simp only [List.mem_cons] at h1
      rcases h1 with rfl | h1
      · simp
      · rcases body t k c hk h1 with h | h <;> simp [h]
    · simp only [Option.map_eq_some_iff] at h
      obtain ⟨k, hk, _⟩ := h
      rcases body _ k c hk h1 with h | h <;> simp [h]

theorem pyInt_noMeta {s : Str} {n : Int} (h : pyInt s = some n) : NoMeta s := by
  intro c hc
  have := pyInt_chars h c hc
  constructor <;>
  · rintro rfl
    revert this
    decide

theorem pyInt_nil : pyInt [] = none := rfl

theorem pyInt_single {c : Char} {n : Int} (h : pyInt [c] = some n) : c.isDigit = true ∧ n = ((c.toNat - 48 : Nat) : Int) := by
  unfold pyInt at h
  by_cases hs : pyIsSpace c = true
  · have : strip [c] = [] := by simp [strip, rstrip, lstrip, hs]
    rw [this] at h
    simp [intBody] at h
  · have hst : strip [c] = [c] := by simp [strip, rstrip, lstrip, hs]
    rw [hst] at h
    split at h
    · rename_i t e
      cases e
      simp [intBody] at h
    · rename_i t e
      cases e
      simp [intBody] at h
    · simp only [intBody] at h
      by_cases hd : c.isDigit = true
      · rw [if_pos hd] at h
        simp only [intDigits, Option.map_some, Option.some.injEq] at h
        exact ⟨hd, h.symm⟩
      · rw [if_neg hd] at h; simp at h

/-- A set of strings in which the compact form of numbers cannot go wrong: where two strings go
different ways, the rests are not both numbers unless both are single characters. -/
def NoNumericClash (L : Str → Prop) : Prop :=
  ∀ a x y, L (a ++ x) → L (a ++ y) → x.head? ≠ y.head? → (pyInt x).isSome → (pyInt y).isSome →
    x.length = 1 ∧ y.length = 1

theorem mapM_some {α β : Type} (f : α → Option β) (l : List α) (r : List β) (h : l.mapM f = some r) :
    (∀ b, b ∈ r ↔ ∃ a ∈ l, f a = some b) ∧ ∀ a ∈ l, (f a).isSome := by
  induction l generalizing r with
  | nil => simp only [List.mapM_nil, pure, Option.some.injEq] at h; subst h; simp
  | cons a l ih =>
    rw [List.mapM_cons] at h
    simp only [bind, Option.bind_eq_some_iff, pure, Option.some.injEq] at h
    obtain ⟨b, hb, bs, hbs, rfl⟩ := h
    have := ih bs hbs
    refine ⟨?_, ?_⟩
    · intro x
      simp only [List.mem_cons, this.1 x, exists_eq_or_imp, hb, Option.some.injEq]
      constructor
      · rintro (rfl | h)
        · exact Or.inl rfl
        · exact Or.inr h
      · rintro (rfl | h)
        · exact Or.inl rfl
        · exact Or.inr h
    · intro x hx
      simp only [List.mem_cons] at hx
      rcases hx with rfl | hx
      · simp [hb]
      · exact this.2 x hx

theorem digit_facts {c : Char} (h : c.isDigit = true) : 48 ≤ c.toNat ∧ c.toNat ≤ 57 := by
  unfold Char.isDigit at h
  simp only [Bool.and_eq_true, decide_eq_true_eq] at h
  obtain ⟨h1, h2⟩ := h
  rw [ge_iff_le, UInt32.le_iff_toNat_le] at h1
  rw [UInt32.le_iff_toNat_le] at h2
  exact ⟨h1, h2⟩

theorem char_eq_of_toNat {a b : Char} (h : a.toNat = b.toNat) : a = b := by
  apply Char.ext
  exact UInt32.toNat_inj.1 h

theorem intStr_digit {c : Char} (h : c.isDigit = true) : intStr ((c.toNat - 48 : Nat) : Int) = [c] := by
  obtain ⟨h1, h2⟩ := digit_facts h
  have key : ∀ k : Fin 10, ∀ c : Char, c.toNat = 48 + k.val → intStr ((c.toNat - 48 : Nat) : Int) = [c] := by
    intro k c hc
    have hck : c = Char.ofNat (48 + k.val) := by
      apply char_eq_of_toNat
      rw [hc]
      clear hc
      revert k; decide
    rw [hc, hck]
    have : 48 + k.val - 48 = k.val := by omega
    rw [this]
    clear hck hc this
    revert k
    decide
  exact key ⟨c.toNat - 48, by omega⟩ c (by simp only; omega)

theorem digit_cls {c : Char} (h : c.isDigit = true) : ClsChar caseCtx c ∧ c ≠ '!' ∧ c ≠ '^' := by
  obtain ⟨h1, h2⟩ := digit_facts h
  have hne : ∀ d : Char, (d.toNat < 48 ∨ 57 < d.toNat) → ¬ c = d := by
    rintro d hd rfl; omega
  refine ⟨⟨?_, ?_⟩, hne _ (by decide), hne _ (by decide)⟩
  · simp only [S, String.reduceToList, List.mem_cons, List.not_mem_nil, or_false, not_or]
    exact ⟨hne _ (by decide), hne _ (by decide), hne _ (by decide), hne _ (by decide)⟩
  · simp only [caseCtx, S, String.reduceToList, List.contains_eq_mem, List.mem_cons, List.not_mem_nil, or_false,
      decide_eq_false_iff_not, not_or]
    refine ⟨hne _ (by decide), hne _ (by decide), hne _ (by decide), hne _ (by decide), hne _ (by decide),
      hne _ (by decide), hne _ (by decide), hne _ (by decide), hne _ (by decide), hne _ (by decide),
      hne _ (by decide), hne _ (by decide), hne _ (by decide), hne _ (by decide), hne _ (by decide)⟩

theorem toPattern_nil {P : Char → Prop} {t : Trie} (hg : Trie.Good P t) (h : t.toPattern = []) :
    ∃ ch, t = .node true ch ∧ ch = [] := by
  cases hg with
  | @mk b ch h1 h2 h3 h4 =>
    cases ch with
    | nil => exact ⟨[], by rw [h1 rfl], rfl⟩
    | cons x r =>
      exfalso
      simp only [Trie.toPattern, List.isEmpty_cons, Bool.false_eq_true, if_false] at h
      rcases buildPattern_cases (Trie.parts (x :: r) ++ if b = true then [[]] else []) (by simp [parts_eq]) with
          ⟨p, e, hp⟩ | ⟨_, hp⟩ | ⟨_, ints, _, _, hp⟩
      · rw [hp] at h
        rw [h, parts_eq] at e
        simp at e
      · rw [hp] at h; simp [altPattern] at h
      · rw [hp] at h; simp at h

/-- A sorted contiguous list holds the numbers between its ends. -/
theorem contiguous_ends (l : List Int) (hs : sortInts l = l) (h : numbersAreContiguous l = true) (i : Int) :
    i ∈ l ↔ l.head?.getD 0 ≤ i ∧ i ≤ l.getLast?.getD 0 := by
  simp only [numbersAreContiguous, Bool.and_eq_true, Bool.not_eq_true', List.isEmpty_eq_false_iff, hs] at h
  obtain ⟨hne, h⟩ := h
  rw [stepsOfOne_iff l hne] at h
  have hn : 0 < l.length := List.length_pos_iff.2 hne
  generalize l.head hne = a at h
  generalize l.length = n at h hn
  subst h
  obtain ⟨m, rfl⟩ : ∃ m, n = m + 1 := ⟨n - 1, by omega⟩
  have h1 : (run1 a (m + 1)).head? = some a := by rw [run1_succ]; rfl
  have h2 : (run1 a (m + 1)).getLast? = some (a + (m : Int)) := by
    simp [run1, List.range_succ]
  rw [h1, h2]
  simp only [run1, List.mem_map, List.mem_range, Option.getD_some]
  constructor
  · rintro ⟨k, hk, rfl⟩; omega
  · rintro ⟨ha, hb⟩; exact ⟨(i - a).toNat, by omega, by omega⟩

theorem sortInts_idem (l : List Int) : sortInts (sortInts l) = sortInts l :=
  List.Perm.eq_of_pairwise (fun _ _ _ _ h1 h2 => Int.le_antisymm h1 h2) (sortInts_sorted _) (sortInts_sorted _)
    (sortInts_perm _)

/-- The pattern of a trie matches exactly the words of the trie. -/
theorem trie_pattern (t : Trie) : Trie.Good PlainChar t → NoNumericClash (fun w => Trie.Has w t) →
    Readable caseCtx t.toPattern ∧ ∀ w, Matches caseCtx t.toPattern w ↔ Trie.Has w t := by
  induction t using Trie.ind with
  | h b ch ih =>
    intro hg hcl
    have hg' := hg
    cases hg with
    | mk h1 h2 h3 h4 =>
      cases ch with
      | nil =>
        refine ⟨⟨_, reads_nil⟩, ?_⟩
        intro w
        simp only [Trie.toPattern, List.isEmpty_nil, if_true]
        rw [matches_nil]
        cases w with
        | nil => simp [Trie.Has, h1 rfl]
        | cons c w => simp [Trie.Has]
      | cons x0 r0 =>
        generalize hch : x0 :: r0 = ch at *
        have hne : ch ≠ [] := by rw [← hch]; simp
        have htp : Trie.toPattern (.node b ch) = buildPattern (Trie.parts ch ++ if b = true then [[]] else []) := by
          simp only [Trie.toPattern]
          rw [if_neg (by simpa using hne)]
        -- the patterns of the children
        have hchild : ∀ x ∈ ch, Readable caseCtx x.2.toPattern ∧ ∀ w, Matches caseCtx x.2.toPattern w ↔ Trie.Has w x.2 := by
          intro x hx
          apply ih x hx (h4 x hx)
          intro a y z hy hz
          exact hcl (x.1 :: a) y z ⟨x.2, hx, hy⟩ ⟨x.2, hx, hz⟩
        have hparts : ∀ x ∈ ch, Readable caseCtx (x.1 :: x.2.toPattern) ∧
            ∀ w, Matches caseCtx (x.1 :: x.2.toPattern) w ↔ ∃ v, w = x.1 :: v ∧ Trie.Has v x.2 := by
          intro x hx
          have hc := hchild x hx
          refine ⟨readable_lit_cons (h3 x hx).lit hc.1, ?_⟩
          intro w
          rw [matches_lit_cons (h3 x hx).lit hc.1]
          simp only [hc.2]
        have hread : ∀ p ∈ Trie.parts ch ++ (if b = true then [[]] else []), Readable caseCtx p := by
          intro p hp
          rw [parts_eq, List.mem_append, List.mem_map] at hp
          rcases hp with ⟨x, hx, rfl⟩ | hp
          · exact (hparts x hx).1
          · split at hp
            · simp only [List.mem_singleton] at hp; subst hp; exact ⟨_, reads_nil⟩
            · simp at hp
        have hmatch : ∀ w, (∃ p ∈ Trie.parts ch ++ (if b = true then [[]] else []), Matches caseCtx p w) ↔ Trie.Has w (.node b ch) := by
          intro w
          rw [parts_eq]
          constructor
          · rintro ⟨p, hp, hm⟩
            rw [List.mem_append, List.mem_map] at hp
            rcases hp with ⟨x, hx, rfl⟩ | hp
            · obtain ⟨v, rfl, hv⟩ := ((hparts x hx).2 w).1 hm
              exact ⟨x.2, hx, hv⟩
            · split at hp
              · rename_i hb
                simp only [List.mem_singleton] at hp
                subst hp
                rw [matches_nil] at hm
                subst hm
                simpa [Trie.Has] using hb
              · simp at hp
          · intro hw
            cases w with
            | nil =>
              simp only [Trie.Has] at hw
              exact ⟨[], by simp [hw], (matches_nil _).2 rfl⟩
            | cons c w =>
              obtain ⟨u, hu, hv⟩ := hw
              exact ⟨c :: u.toPattern, by simp only [List.mem_append, List.mem_map]; exact Or.inl ⟨_, hu, rfl⟩,
                ((hparts _ hu).2 _).2 ⟨w, rfl, hv⟩⟩
        have hpne : Trie.parts ch ++ (if b = true then [[]] else []) ≠ [] := by
          rw [parts_eq, ← hch]; simp
        rw [htp]
        rcases buildPattern_cases _ hpne with ⟨p, e, hp⟩ | ⟨_, hp⟩ | ⟨hlen, ints, hints, hcont, hp⟩
        · rw [hp]
          rw [e] at hread hmatch
          refine ⟨hread p (by simp), ?_⟩
          intro w
          rw [← hmatch w]
          simp
        · rw [hp]
          unfold altPattern
          have hperm := sortStrs_perm (Trie.parts ch ++ (if b = true then [[]] else []))
          have hm := matches_at (x := caseCtx) rfl (ts := sortStrs (Trie.parts ch ++ (if b = true then [[]] else [])))
            (by
              intro h0
              rw [h0] at hperm
              exact hpne (List.nil_perm.1 hperm))
            (fun t ht => hread t (hperm.mem_iff.1 ht))
          refine ⟨hm.1, ?_⟩
          intro w
          rw [hm.2 w, ← hmatch w]
          simp only [hperm.mem_iff]
        · -- numbers
          rw [hp]
          unfold partInts at hints
          rw [Option.map_eq_some_iff] at hints
          obtain ⟨l0, hl0, hl⟩ := hints
          have hmm := mapM_some _ _ _ hl0
          -- not terminal
          have hb : b = false := by
            cases b with
            | false => rfl
            | true =>
              have := hmm.2 [] (by simp)
              rw [pyInt_nil] at this
              simp at this
          subst hb
          simp only [Bool.false_eq_true, if_false, List.append_nil] at hmm hlen hread hmatch
          -- each part is a stored word
          have hword : ∀ x ∈ ch, Trie.Has (x.1 :: x.2.toPattern) (.node false ch) := by
            intro x hx
            have hsome := hmm.2 (x.1 :: x.2.toPattern) (by rw [parts_eq]; exact List.mem_map.2 ⟨x, hx, rfl⟩)
            obtain ⟨n, hn⟩ := Option.isSome_iff_exists.1 hsome
            have hnm := pyInt_noMeta hn
            exact ⟨x.2, hx, has_literal x.2 (h4 x hx) (fun c hc => hnm c (by simp [hc]))⟩
          -- each part is one character
          have hsingle : ∀ x ∈ ch, x.2.toPattern = [] := by
            intro x hx
            have hother : ∃ y ∈ ch, y.1 ≠ x.1 := by
              rw [parts_eq, List.length_map] at hlen
              match ch, hlen, h2, hx with
              | y :: z :: r, _, h2, hx =>
                simp only [List.map_cons, List.nodup_cons, List.mem_cons, not_or] at h2
                by_cases hy : y.1 = x.1
                · exact ⟨z, by simp, by rw [← hy]; exact fun e => h2.1.1 e.symm⟩
                · exact ⟨y, by simp, hy⟩
            obtain ⟨y, hy, hxy⟩ := hother
            have hsx := hmm.2 (x.1 :: x.2.toPattern) (by rw [parts_eq]; exact List.mem_map.2 ⟨x, hx, rfl⟩)
            have hsy := hmm.2 (y.1 :: y.2.toPattern) (by rw [parts_eq]; exact List.mem_map.2 ⟨y, hy, rfl⟩)
            have := (hcl [] _ _ (hword x hx) (hword y hy) (by simpa using fun e => hxy e.symm) hsx hsy).1
            simpa using this
          have hdig : ∀ x ∈ ch, pyInt [x.1] = some ((x.1.toNat - 48 : Nat) : Int) ∧ x.1.isDigit = true := by
            intro x hx
            have hsx := hmm.2 (x.1 :: x.2.toPattern) (by rw [parts_eq]; exact List.mem_map.2 ⟨x, hx, rfl⟩)
            rw [hsingle x hx] at hsx
            obtain ⟨n, hn⟩ := Option.isSome_iff_exists.1 hsx
            obtain ⟨hd, hv⟩ := pyInt_single hn
            exact ⟨by rw [hn, hv], hd⟩
          -- the numbers are the values of the digits
          have hmem : ∀ i : Int, i ∈ ints ↔ ∃ x ∈ ch, i = ((x.1.toNat - 48 : Nat) : Int) := by
            intro i
            rw [← hl, (sortInts_perm l0).mem_iff, hmm.1 i, parts_eq]
            constructor
            · rintro ⟨p, hp, hpi⟩
              obtain ⟨x, hx, rfl⟩ := List.mem_map.1 hp
              rw [hsingle x hx, (hdig x hx).1] at hpi
              exact ⟨x, hx, (Option.some.inj hpi).symm⟩
            · rintro ⟨x, hx, rfl⟩
              exact ⟨x.1 :: x.2.toPattern, List.mem_map.2 ⟨x, hx, rfl⟩, by rw [hsingle x hx]; exact (hdig x hx).1⟩
          have hends := contiguous_ends ints (by rw [← hl, sortInts_idem]) hcont
          have hine : ints ≠ [] := by
            intro h0
            have := (hmem ((x0.1.toNat - 48 : Nat) : Int)).2 ⟨x0, by rw [← hch]; simp, rfl⟩
            rw [h0] at this
            simp at this
          have hhead : ints.head?.getD 0 ∈ ints := by
            cases ints with
            | nil => exact absurd rfl hine
            | cons a l => simp
          have hlast : ints.getLast?.getD 0 ∈ ints := by
            rw [List.getLast?_eq_some_getLast hine]
            simp
          obtain ⟨xa, hxa, ea⟩ := (hmem _).1 hhead
          obtain ⟨xb, hxb, eb⟩ := (hmem _).1 hlast
          have hda := (hdig xa hxa).2
          have hdb := (hdig xb hxb).2
          rw [ea, eb, intStr_digit hda, intStr_digit hdb]
          have hpa := digit_cls hda
          have hpb := digit_cls hdb
          have hr := reads_range xa.1 xb.1 hpa.1 (by constructor <;> decide) hpb.1 hpa.2.1 hpa.2.2
          simp only [List.cons_append, List.nil_append]
          refine ⟨⟨_, hr⟩, ?_⟩
          intro w
          rw [matches_of_reads hr, seqLang_single]
          simp only [Glob.Lang, Bool.false_eq_true, if_false, inRanges, List.mem_singleton, exists_eq_left]
          obtain ⟨na1, na2⟩ := digit_facts hda
          obtain ⟨nb1, nb2⟩ := digit_facts hdb
          constructor
          · rintro ⟨c, rfl, hc1, hc2⟩
            have hin : ((c.toNat - 48 : Nat) : Int) ∈ ints := by
              rw [hends, ea, eb]
              omega
            obtain ⟨x, hx, ex⟩ := (hmem _).1 hin
            obtain ⟨nx1, nx2⟩ := digit_facts (hdig x hx).2
            have hcx : c = x.1 := char_eq_of_toNat (by omega)
            have := hword x hx
            rw [hsingle x hx, ← hcx] at this
            exact this
          · intro hw
            cases w with
            | nil => simp [Trie.Has] at hw
            | cons c v =>
              obtain ⟨u, hu, hv⟩ := hw
              have hs := hsingle _ hu
              simp only at hs
              obtain ⟨ch', hu', hch'⟩ := toPattern_nil (h4 _ hu) hs
              simp only at hu'
              subst hu' hch'
              cases v with
              | cons d v => simp [Trie.Has] at hv
              | nil =>
                refine ⟨c, rfl, ?_⟩
                have hin := (hmem _).2 ⟨_, hu, rfl⟩
                rw [hends, ea, eb] at hin
                obtain ⟨nc1, nc2⟩ := digit_facts (hdig _ hu).2
                simp only at hin nc1 nc2
                omega

theorem join_ne_nil {ts : List Str} (h : ts ≠ []) (hs : ∀ s ∈ ts, s ≠ []) : joinWith ['|'] ts ≠ [] := by
  cases ts with
  | nil => exact absurd rfl h
  | cons t r =>
    cases r with
    | nil => simpa [joinWith] using hs t (by simp)
    | cons u r => simp [joinWith]

/-- **C11** (partial): for every non-empty list of non-empty strings made of characters without a
meaning of their own, in which no two strings go different ways to end in numbers of several digits,
Bash reads the pattern as one that matches exactly the given strings. What is missing: other
characters (false, see `C11_special_character` and `C11_quoted_names`) and such numbers (false, see
`C11_numbers`). -/
theorem C11_exact_partial (strings : List Str) (hne : strings ≠ [])
    (hplain : ∀ s ∈ strings, s ≠ [] ∧ ∀ c ∈ s, PlainChar c) (hnum : NoNumericClash (fun w => w ∈ strings)) :
    ∃ alts, readGlob caseCtx (makePattern strings) = some alts ∧ ∀ w, Glob.AltLang alts w ↔ w ∈ strings := by
  unfold makePattern
  simp only
  have hread : ∀ s ∈ strings, Readable caseCtx s := fun s hs => readable_lits (fun c hc => ((hplain s hs).2 c hc).lit)
  have hmatch : ∀ w, (∃ s ∈ strings, Matches caseCtx s w) ↔ w ∈ strings := by
    intro w
    constructor
    · rintro ⟨s, hs, hm⟩
      rw [matches_lits (fun c hc => ((hplain s hs).2 c hc).lit)] at hm
      subst hm; exact hs
    · intro hw
      exact ⟨w, hw, (matches_lits (fun c hc => ((hplain w hw).2 c hc).lit) w).2 rfl⟩
  split
  · obtain ⟨alts, h1, h2⟩ := readGlob_bars hne hread (join_ne_nil hne (fun s hs => (hplain s hs).1))
    exact ⟨alts, h1, fun w => by rw [h2 w, hmatch w]⟩
  · have hperm := sortStrs_perm (uniq strings)
    have hmem : ∀ w, w ∈ sortStrs (uniq strings) ↔ w ∈ strings := by
      intro w
      rw [hperm.mem_iff, C40_uniq_mem]
    unfold compactGlobTrie
    split
    · rename_i s hs
      have hs1 : ∀ w, w ∈ strings ↔ w = s := by
        intro w; rw [← hmem w, hs]; simp
      have hsm : s ∈ strings := (hs1 s).2 rfl
      obtain ⟨alts, h1, h2⟩ := readGlob_single (hread s hsm) (hplain s hsm).1
      refine ⟨alts, h1, ?_⟩
      intro w
      rw [h2 w, matches_lits (fun c hc => ((hplain s hsm).2 c hc).lit), hs1 w]
    · have hl : ∀ s ∈ sortStrs (uniq strings), ∀ c ∈ s, PlainChar c :=
        fun s hs => (hplain s ((hmem s).1 hs)).2
      have hlne : sortStrs (uniq strings) ≠ [] := by
        intro h0
        cases strings with
        | nil => exact hne rfl
        | cons s r =>
          have := (hmem s).2 (by simp)
          rw [h0] at this
          simp at this
      obtain ⟨hg, hh⟩ := insertAll (P := PlainChar) (sortStrs (uniq strings)) hl (Trie.node false []) (Or.inr rfl)
      have hg := hg (Or.inl hlne)
      have hhas : ∀ w, Trie.Has w ((sortStrs (uniq strings)).foldl (fun (t : Trie) s => Trie.insert s t) (Trie.node false [])) ↔
          w ∈ strings := by
        intro w
        rw [hh w, hmem w]
        constructor
        · rintro (h | h)
          · exact h
          · exact absurd h (has_empty w)
        · exact Or.inl
      obtain ⟨hr, hm⟩ := trie_pattern _ hg (by
        intro a x y hx hy
        simp only [hhas] at hx hy
        exact hnum a x y hx hy)
      have hne2 : ((sortStrs (uniq strings)).foldl (fun (t : Trie) s => Trie.insert s t) (Trie.node false [])).toPattern ≠ [] := by
        intro h0
        have h1 : Matches caseCtx ((sortStrs (uniq strings)).foldl (fun (t : Trie) s => Trie.insert s t) (Trie.node false [])).toPattern [] := by
          rw [h0]; exact (matches_nil _).2 rfl
        rw [hm, hhas] at h1
        exact (hplain [] h1).1 rfl
      obtain ⟨alts, h1, h2⟩ := readGlob_single hr hne2
      exact ⟨alts, h1, fun w => by rw [h2 w, hm w, hhas w]⟩

/-- Strings in which every number has one digit and no sign meet the hypothesis about numbers: no two
neighbouring characters of a string are a digit and one of: digit, sign, underscore, blank. -/
theorem C11_single_digits (strings : List Str)
    (h : ∀ s ∈ strings, ∀ p c d q, s = p ++ c :: d :: q →
      ¬ (∀ x ∈ [c, d], pyIsSpace x = true ∨ x.isDigit = true ∨ x = '_' ∨ x = '-' ∨ x = '+')) :
    NoNumericClash (fun w => w ∈ strings) := by
  have one : ∀ a x, a ++ x ∈ strings → (pyInt x).isSome → x.length = 1 := by
    intro a x hx hs
    obtain ⟨n, hn⟩ := Option.isSome_iff_exists.1 hs
    match x, hn, hx with
    | [], hn, _ => rw [pyInt_nil] at hn; cases hn
    | [c], _, _ => rfl
    | c :: d :: q, hn, hx =>
      exfalso
      refine h _ hx a c d q rfl ?_
      intro y hy
      refine pyInt_chars hn y ?_
      simp only [List.mem_cons, List.not_mem_nil, or_false] at hy ⊢
      rcases hy with h | h <;> simp [h]
  intro a x y hx hy _ hxs hys
  exact ⟨one a x hx hxs, one a y hy hys⟩

/-- An example of the claim, with a shared prefix, an early end and a run of digits. -/
theorem C11_example :
    makePattern [S "--foo", S "--foobar", S "--fob1", S "--fob2", S "--foo-x"] = S "--fo@(b[1-2]|o@(|-x|bar))" ∧
    ∃ alts, readGlob caseCtx (S "--fo@(b[1-2]|o@(|-x|bar))") = some alts ∧
      Glob.AltLang alts (S "--fob2") ∧ ¬ Glob.AltLang alts (S "--fob3") := by
  have hp : makePattern [S "--foo", S "--foobar", S "--fob1", S "--fob2", S "--foo-x"] = S "--fo@(b[1-2]|o@(|-x|bar))" := by
    decide +kernel
  refine ⟨hp, ?_⟩
  obtain ⟨alts, h1, h2⟩ := C11_exact_partial [S "--foo", S "--foobar", S "--fob1", S "--fob2", S "--foo-x"] (by simp)
    (by
      intro s hs
      simp only [List.mem_cons, List.not_mem_nil, or_false] at hs
      rcases hs with rfl | rfl | rfl | rfl | rfl <;>
        exact ⟨by decide, by unfold PlainChar; decide⟩)
    (by
      intro a x y hx hy hxy h1 h2
      have key : ∀ z, a ++ z ∈ [S "--foo", S "--foobar", S "--fob1", S "--fob2", S "--foo-x"] →
          (pyInt z).isSome → z.length = 1 := by
        intro z hz hs
        have h1 : ∀ s ∈ [S "--foo", S "--foobar", S "--fob1", S "--fob2", S "--foo-x"], s.length < 12 ∧
            ∀ k < 12, (pyInt (s.drop k)).isSome → (s.drop k).length = 1 := by decide +kernel
        have h2 := h1 _ hz
        have h3 := h2.2 a.length (by have := h2.1; simp at this; omega)
        simp only [List.drop_left] at h3
        exact h3 hs
      exact ⟨key x hx h1, key y hy h2⟩)
  rw [hp] at h1
  refine ⟨alts, h1, (h2 _).2 (by decide), ?_⟩
  rw [h2]
  decide

/-- The claim is false for numbers of several digits: the pattern for `--v9` and `--v10` is `--v[9-10]`.
It matches `--v0` and does not match `--v10`. -/
theorem C11_numbers :
    makePattern [S "--v9", S "--v10"] = S "--v[9-10]" ∧
    ∃ alts, readGlob caseCtx (S "--v[9-10]") = some alts ∧ Glob.AltLang alts (S "--v0") ∧ ¬ Glob.AltLang alts (S "--v10") := by
  refine ⟨rfl, [[.lit '-', .lit '-', .lit 'v', .cls false [('9', '1'), ('0', '0')]]], rfl, ?_, ?_⟩
  · simp only [Glob.AltLang, Glob.SeqLang, Glob.Lang, or_false]
    exact ⟨['-'], _, rfl, rfl, ['-'], _, rfl, rfl, ['v'], _, rfl, rfl, ['0'], [], rfl,
      ⟨'0', rfl, by simp [inRanges]⟩, rfl⟩
  · simp only [Glob.AltLang, Glob.SeqLang, Glob.Lang, or_false]
    rintro ⟨a, b, e, rfl, a1, b1, rfl, rfl, a2, b2, rfl, rfl, a3, b3, rfl, ⟨c, rfl, _⟩, rfl⟩
    simp [S] at e

/-- The claim is false for glob characters in option names: the pattern for `-?` matches `-x`. -/
theorem C11_special_character :
    makePattern [S "-?"] = S "-?" ∧ ∃ alts, readGlob caseCtx (S "-?") = some alts ∧ Glob.AltLang alts (S "-x") := by
  refine ⟨rfl, [[.lit '-', .any]], rfl, ?_⟩
  simp only [Glob.AltLang, Glob.SeqLang, Glob.Lang, or_false]
  exact ⟨['-'], ['x'], rfl, rfl, ['x'], [], rfl, ⟨'x', rfl⟩, rfl⟩

/-- The claim is false for names that need quotes (`bash.py` 79 passes quoted names): the pattern made
for the commands `a b` and `a c` leaves a quote open, Bash cannot read it. -/
theorem C11_quoted_names :
    makePattern [quote (S "a b"), quote (S "a c")] = S "'a @(b'|c')" ∧ readGlob caseCtx (S "'a @(b'|c')") = none :=
  ⟨rfl, rfl⟩

end CC
