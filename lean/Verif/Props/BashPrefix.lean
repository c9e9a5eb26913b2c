import Verif.Props.BashWords
/-!
# C81: the helper function `prefix`
-/

namespace CC
open Typed

/-- The state for the quotes that are open. -/
def quotesOf : StripState → Quoting
  | .w => .bare
  | .sq => .single
  | .dq => .double

theorem nextChar_spec : ∀ (st : StripState) (s : Str), clean (quotesOf st) s = true → 
    match nextChar st s with
    | (none, _, _) => (read (quotesOf st) s).1 = []
    | (some c, st', r) => (∃ f, read (quotesOf st) s = ((c, f) :: (read (quotesOf st') r).1, (read (quotesOf st') r).2)) ∧
        clean (quotesOf st') r = true ∧ ∀ x ∈ r, x ∈ s := by
  intro st s
  induction s generalizing st with
  | nil => intro _; cases st <;> simp [nextChar, quotesOf, Typed.read]
  | cons c cs ih =>
    have skip : ∀ st', clean (quotesOf st') cs = true →
        match nextChar st' cs with
        | (none, _, _) => (read (quotesOf st') cs).1 = []
        | (some x, st2, r) =>
          (∃ f, read (quotesOf st') cs = ((x, f) :: (read (quotesOf st2) r).1, (read (quotesOf st2) r).2)) ∧
          clean (quotesOf st2) r = true ∧ ∀ y ∈ r, y ∈ c :: cs := by
      intro st' h'
      have := ih st' h'
      revert this
      rcases nextChar st' cs with ⟨_ | x, st2, r⟩
      · exact id
      · exact fun ⟨a, b, d⟩ => ⟨a, b, fun y hy => List.mem_cons_of_mem _ (d y hy)⟩
    intro hc
    cases st with
    | w =>
      simp only [quotesOf] at hc ⊢
      rw [clean.eq_def] at hc
      rw [nextChar.eq_def, Typed.read.eq_def]
      simp only at hc ⊢
      by_cases h1 : c = '\''
      · have h2 : c ≠ '"' := by rw [h1]; decide
        simp only [if_pos h1, if_neg h2] at hc ⊢
        exact skip .sq hc
      · by_cases h2 : c = '"'
        · simp only [if_neg h1, if_pos h2] at hc ⊢
          exact skip .dq hc
        · by_cases h3 : c = '\\'
          · simp only [if_neg h1, if_neg h2, if_pos h3] at hc ⊢
            cases cs with
            | nil => simp
            | cons x xs =>
              simp only [Bool.and_eq_true, bne_iff_ne] at hc
              simp only [if_neg hc.1, quotesOf]
              exact ⟨⟨true, rfl⟩, hc.2, fun y hy => by simp [hy]⟩
          · simp only [if_neg h1, if_neg h2, if_neg h3, quotesOf] at hc ⊢
            exact ⟨⟨false, rfl⟩, hc, fun y hy => by simp [hy]⟩
    | sq =>
      simp only [quotesOf] at hc ⊢
      rw [clean.eq_def] at hc
      rw [nextChar.eq_def, Typed.read.eq_def]
      simp only at hc ⊢
      by_cases h1 : c = '\''
      · simp only [if_pos h1] at hc ⊢
        exact skip .w hc
      · simp only [if_neg h1, quotesOf] at hc ⊢
        exact ⟨⟨true, rfl⟩, hc, fun y hy => by simp [hy]⟩
    | dq =>
      simp only [quotesOf] at hc ⊢
      rw [clean.eq_def] at hc
      rw [nextChar.eq_def, Typed.read.eq_def]
      simp only at hc ⊢
      by_cases h2 : c = '"'
      · simp only [if_pos h2] at hc ⊢
        exact skip .w hc
      · by_cases h3 : c = '\\'
        · simp only [if_neg h2, if_pos h3] at hc ⊢
          cases cs with
          | nil => simp
          | cons x xs =>
            simp only [Bool.and_eq_true] at hc
            have hn : x ≠ '\n' := by
              intro hn; rw [hn] at hc; exact absurd hc.1 (by decide)
            simp only [if_neg hn, if_pos hc.1, quotesOf]
            exact ⟨⟨true, rfl⟩, hc.2, fun y hy => by simp [hy]⟩
        · simp only [if_neg h2, if_neg h3, quotesOf] at hc ⊢
          exact ⟨⟨true, rfl⟩, hc, fun y hy => by simp [hy]⟩

/-- The loop over the characters of the prefix: it ends well exactly when the text starts with the prefix, and then
what is left stands for the rest. -/
theorem stripLoop_spec : ∀ (p : Str) (st : StripState) (s : Str), clean (quotesOf st) s = true →
    match stripLoop p st s with
    | none => ¬ p <+: (read (quotesOf st) s).1.map (·.1)
    | some (st', r) => (∃ front, front.map (·.1) = p ∧
        read (quotesOf st) s = (front ++ (read (quotesOf st') r).1, (read (quotesOf st') r).2)) ∧ ∀ x ∈ r, x ∈ s := by
  intro p
  induction p with
  | nil => intro st s _; exact ⟨⟨[], rfl, rfl⟩, fun x hx => hx⟩
  | cons pc p ih =>
    intro st s hc
    have hn := nextChar_spec st s hc
    simp only [stripLoop]
    revert hn
    rcases nextChar st s with ⟨_ | sc, st', r⟩
    · intro hn
      simp only at hn ⊢
      simp [hn]
    · intro hn
      simp only at hn ⊢
      obtain ⟨⟨f, hf⟩, hr, hm⟩ := hn
      by_cases h : pc = sc
      · rw [if_pos h]
        have := ih st' r hr
        revert this
        rcases stripLoop p st' r with _ | ⟨st2, r2⟩
        · intro this
          simp only at this ⊢
          rw [hf]
          subst h
          simpa [List.cons_prefix_cons] using this
        · intro ⟨⟨front, h1, h2⟩, h3⟩
          refine ⟨⟨(sc, f) :: front, by simp [h1, h], ?_⟩, fun x hx => hm x (h3 x hx)⟩
          rw [hf, h2]
          rfl
      · rw [if_neg h]
        simp only
        rw [hf]
        simp [List.cons_prefix_cons, h]

theorem dropNewlines_id (s : Str) (h : '\n' ∉ s) : dropNewlines s = s := by
  unfold dropNewlines
  have : s.reverse.dropWhile (· == '\n') = s.reverse := by
    cases hs : s.reverse with
    | nil => rfl
    | cons c cs =>
      have : c ∈ s := by rw [← List.mem_reverse, hs]; simp
      have : c ≠ '\n' := fun e => h (e ▸ this)
      simp [List.dropWhile_cons, this]
  rw [this, List.reverse_reverse]

theorem read_stripOutput (s : Str) (st : StripState) (r : Str) :
    read .bare (stripOutput s (some (st, r))) = read (quotesOf st) r := by
  cases st
  · rfl
  · simp only [stripOutput, quotesOf, read_bare_sq]
  · simp only [stripOutput, quotesOf, read_bare_dq]

/-- The word without the prefix. -/
theorem stripPrefix_spec (p w : Str) (hc : clean .bare w = true) (hn : '\n' ∉ w) :
    (¬ p <+: text w → stripPrefix p w = echoed w) ∧
    (p <+: text w → ∃ front, front.map (·.1) = p ∧
      (read .bare w).1 = front ++ (read .bare (stripPrefix p w)).1 ∧ quoting (stripPrefix p w) = quoting w) := by
  have hs := stripLoop_spec p .w w hc
  simp only [quotesOf] at hs
  unfold stripPrefix
  revert hs
  cases hl : stripLoop p .w w with
  | none =>
    intro hs
    simp only at hs
    refine ⟨fun _ => ?_, fun h => absurd h hs⟩
    simp only [stripOutput]
    refine dropNewlines_id _ ?_
    unfold echoed
    split
    · split
      · simp
      · exact hn
    · exact hn
  | some x =>
    obtain ⟨st, r⟩ := x
    intro hs
    simp only at hs
    obtain ⟨⟨front, hf, hr⟩, hm⟩ := hs
    refine ⟨fun h => ?_, fun _ => ⟨front, hf, ?_⟩⟩
    · refine absurd ?_ h
      rw [text, hr, ← hf]
      simp
    · rw [dropNewlines_id]
      · rw [quoting, quoting, read_stripOutput, hr]
        exact ⟨rfl, rfl⟩
      · have : '\n' ∉ r := fun h => hn (hm _ h)
        cases st <;> simp [stripOutput, this]

theorem lastBreakLoop_spec (breaks : List Char) : ∀ (q : Quoting) (s : Str) (i : Nat) (pos : Option Nat),
    clean q s = true →
    (lastBreakLoop breaks (loopOf q) i s pos).isNone = (pos.isNone && (lastBreak breaks (read q s).1).isNone) := by
  have hq : ∀ (c : Char) (r : List (Char × Bool)), (lastBreak breaks ((c, true) :: r)).isNone = (lastBreak breaks r).isNone := by
    intro c r
    simp only [lastBreak]
    cases lastBreak breaks r <;> simp
  have hb : ∀ (c : Char) (r : List (Char × Bool)), c ∉ breaks →
      (lastBreak breaks ((c, false) :: r)).isNone = (lastBreak breaks r).isNone := by
    intro c r h
    simp only [lastBreak]
    cases lastBreak breaks r <;> simp [h]
  have hy : ∀ (c : Char) (r : List (Char × Bool)), c ∈ breaks → (lastBreak breaks ((c, false) :: r)).isNone = false := by
    intro c r h
    simp only [lastBreak]
    cases lastBreak breaks r <;> simp [h]
  intro q s
  induction h : s.length using Nat.strongRecOn generalizing q s with
  | _ n ih =>
  subst h
  intro i pos hc
  cases s with
  | nil => cases q <;> simp [lastBreakLoop, loopOf, Typed.read, lastBreak]
  | cons c cs =>
    have step : ∀ (q : Quoting) (i : Nat) (pos : Option Nat), clean q cs = true →
        (lastBreakLoop breaks (loopOf q) i cs pos).isNone = (pos.isNone && (lastBreak breaks (read q cs).1).isNone) :=
      fun q i pos h => ih cs.length (by simp) q cs rfl i pos h
    cases q with
    | bare =>
      rw [clean.eq_def] at hc
      rw [loopOf, lastBreakLoop.eq_def, Typed.read.eq_def]
      simp only at hc ⊢
      by_cases h1 : c = '\''
      · have h2 : c ≠ '"' := by rw [h1]; decide
        simp only [if_pos h1, if_neg h2] at hc ⊢
        exact step .single _ _ hc
      · by_cases h2 : c = '"'
        · simp only [if_neg h1, if_pos h2] at hc ⊢
          exact step .double _ _ hc
        · by_cases h3 : c = '\\'
          · simp only [if_neg h1, if_neg h2, if_pos h3] at hc ⊢
            cases cs with
            | nil => simp [lastBreak]
            | cons x xs =>
              simp only [Bool.and_eq_true, bne_iff_ne] at hc
              simp only [if_neg hc.1, hq]
              exact ih xs.length (by simp; omega) .bare xs rfl _ _ hc.2
          · simp only [if_neg h1, if_neg h2, if_neg h3] at hc ⊢
            by_cases h4 : c ∈ breaks
            · rw [if_pos h4, hy _ _ h4]
              exact (step .bare _ _ hc).trans (by simp)
            · rw [if_neg h4, hb _ _ h4]
              exact step .bare _ _ hc
    | single =>
      rw [clean.eq_def] at hc
      rw [loopOf, lastBreakLoop.eq_def, Typed.read.eq_def]
      simp only at hc ⊢
      by_cases h1 : c = '\''
      · simp only [if_pos h1] at hc ⊢
        exact step .bare _ _ hc
      · simp only [if_neg h1, hq] at hc ⊢
        exact step .single _ _ hc
    | double =>
      rw [clean.eq_def] at hc
      rw [loopOf, lastBreakLoop.eq_def, Typed.read.eq_def]
      simp only at hc ⊢
      by_cases h2 : c = '"'
      · have h3 : c ≠ '\\' := by rw [h2]; decide
        simp only [if_pos h2, if_neg h3] at hc ⊢
        exact step .bare _ _ hc
      · by_cases h3 : c = '\\'
        · simp only [if_neg h2, if_pos h3] at hc ⊢
          cases cs with
          | nil => simp [lastBreak]
          | cons x xs =>
            simp only [Bool.and_eq_true] at hc
            have hn : x ≠ '\n' := by
              intro hn; rw [hn] at hc; exact absurd hc.1 (by decide)
            simp only [if_neg hn, if_pos hc.1, hq]
            exact ih xs.length (by simp; omega) .double xs rfl _ _ hc.2
        · simp only [if_neg h2, if_neg h3, hq] at hc ⊢
          exact step .double _ _ hc

theorem lastBreak_append (breaks : List Char) (a b : List (Char × Bool)) :
    lastBreak breaks (a ++ b) = shifted a.length (lastBreak breaks a) (lastBreak breaks b) := by
  induction a with
  | nil => simp only [List.nil_append, lastBreak]; cases lastBreak breaks b <;> simp [shifted]
  | cons p a ih =>
    simp only [List.cons_append, lastBreak]
    rw [ih]
    cases lastBreak breaks b with
    | none => simp [shifted]
    | some k => simp [shifted]; omega

theorem lastBreak_le (breaks : List Char) (a : List (Char × Bool)) (n : Nat) (h : lastBreak breaks a = some n) :
    n ≤ a.length := by
  induction a generalizing n with
  | nil => simp [lastBreak] at h
  | cons p a ih =>
    simp only [lastBreak] at h
    revert h
    cases hl : lastBreak breaks a with
    | none =>
      intro h
      simp only at h
      split at h
      · cases h; simp
      · simp at h
    | some k =>
      intro h
      simp only [Option.some.injEq] at h
      have := ih k hl
      simp; omega

theorem echoed_id (w : Str) (h : ¬ EchoOption w) : echoed w = w := by
  unfold echoed
  split
  · rename_i c cs
    rw [if_neg]
    intro ha
    refine h ⟨c :: cs, rfl, by simp, ?_⟩
    intro x hx
    have := List.all_eq_true.mp ha x hx
    simpa [or_assoc] using this
  · rfl

/-- **C81.** As long as the word does not start with the prefix, the prefix itself is offered. After that the
completer runs on a word that stands for the rest, with the same quotes open, and whatever it offers, the word that
results is the prefix followed by the word that the completer wanted. It is partial because of the hypotheses: the
prefix is not empty (`C81_empty`), the word is not an option of `echo` (`C81_echo`), no unquoted break character is
inside of the prefix other than at its end (`C81_break`), and those of C80. -/
theorem C81_prefix_partial (breaks : List Char) (compgen : Str → Str → List Str) (func : Str → List Str) (p w : Str)
    (hp : p ≠ []) (hc : clean .bare w = true) (hn : '\n' ∉ w) (he : ¬ EchoOption w) :
    (¬ p <+: text w → prefixHelper breaks compgen func p w = compgen p w) ∧
    (p <+: text w → ∃ w', text w' = (text w).drop p.length ∧ quoting w' = quoting w ∧
      ((∀ n, lastBreak breaks (read .bare w).1 = some n → p.length ≤ n) →
        (prefixHelper breaks compgen func p w).map (accept breaks w) = (func w').map (fun r => p ++ accept breaks w' r))) := by
  obtain ⟨h1, h2⟩ := stripPrefix_spec p w hc hn
  refine ⟨fun h => ?_, fun h => ?_⟩
  · unfold prefixHelper
    rw [if_pos (by rw [h1 h, echoed_id w he])]
  · obtain ⟨front, hf, hr, hq⟩ := h2 h
    have hlen : front.length = p.length := by rw [← hf]; simp
    have ht : text w = p ++ text (stripPrefix p w) := by
      simp only [text]
      rw [hr, ← hf]
      simp
    refine ⟨stripPrefix p w, by rw [ht]; simp, hq, fun hb => ?_⟩
    have hne : stripPrefix p w ≠ w := by
      intro e
      rw [e] at ht
      have := congrArg List.length ht
      simp at this
      exact hp this
    have hb1 := lastBreak_append breaks front (read .bare (stripPrefix p w)).1
    rw [← hr] at hb1
    have hi := lastBreakLoop_spec breaks .bare w 0 none hc
    simp only [loopOf, Option.isNone_none, Bool.true_and] at hi
    unfold prefixHelper
    rw [if_neg hne]
    have hi' : (lastBreakPosition breaks w).isNone = (lastBreak breaks (read .bare w).1).isNone := hi
    simp only [hi']
    cases hw : lastBreak breaks (read .bare w).1 with
    | none =>
      have hw' : lastBreak breaks (read .bare (stripPrefix p w)).1 = none := by
        rw [hw] at hb1
        revert hb1
        cases lastBreak breaks (read .bare (stripPrefix p w)).1 <;> simp [shifted]
      simp only [Option.isNone_none, if_true, List.map_map]
      refine List.map_congr_left fun r _ => ?_
      simp [accept, hw, hw']
    | some n =>
      have hpn := hb n hw
      simp only [Option.isNone_some, Bool.false_eq_true, if_false]
      refine List.map_congr_left fun r _ => ?_
      rw [hw] at hb1
      simp only [accept, hw, Option.getD_some, ht]
      cases hw' : lastBreak breaks (read .bare (stripPrefix p w)).1 with
      | none =>
        rw [hw'] at hb1
        simp only [shifted] at hb1
        have := lastBreak_le breaks front n hb1.symm
        have hn' : n = p.length := by omega
        subst hn'
        simp
      | some k =>
        rw [hw'] at hb1
        simp only [shifted, Option.some.injEq] at hb1
        subst hb1
        simp only [Option.getD_some]
        rw [hlen, List.take_append]
        simp [List.take_of_length_le]

/-- **C81.** So a plain word that the prefix starts with is completed to the prefix, and nothing else is offered. -/
theorem C81_offered (breaks : List Char) (compgen : Str → Str → List Str) (hg : Compgen compgen) (func : Str → List Str)
    (p w : Str) (hp : p ≠ []) (hpp : p.all plain = true) (hwp : w.all plain = true) (hc : clean .bare w = true)
    (hn : '\n' ∉ w) (he : ¬ EchoOption w) (h : ¬ p <+: text w) :
    prefixHelper breaks compgen func p w = if w.isPrefixOf p then [p] else [] := by
  rw [(C81_prefix_partial breaks compgen func p w hp hc hn he).1 h]
  exact hg p w hp hpp hwp

/-- A `compgen` for one word. -/
def oneWordCompgen (word cur : Str) : List Str :=
  if word ≠ [] ∧ cur.isPrefixOf word then [word] else []

theorem oneWordCompgen_spec : Compgen oneWordCompgen := by
  intro word cur h _ _
  simp only [oneWordCompgen]
  by_cases hh : cur.isPrefixOf word = true <;> simp [hh, h]

/-- A completer that offers two words. -/
def yesNo (_ : Str) : List Str := [S "yes", S "no"]

theorem C81_example :
    (¬ EchoOption (S "file:'x")) ∧ clean .bare (S "file:'x") = true ∧
    prefixHelper [':'] oneWordCompgen yesNo (S "file:") (S "fi") = [S "file:"] ∧
    prefixHelper [':'] oneWordCompgen yesNo (S "file:") (S "file:'x") = [S "yes", S "no"] ∧
    prefixHelper ['='] oneWordCompgen yesNo (S "file:") (S "file:'x") = [S "file:yes", S "file:no"] := by
  refine ⟨?_, by decide +kernel, by decide +kernel, by decide +kernel, by decide +kernel⟩
  rintro ⟨cs, h, -⟩
  exact absurd h (by simp [S])

/-- An empty prefix is accepted by the validator, but then the completer never runs. -/
theorem C81_empty (breaks : List Char) (compgen : Str → Str → List Str) (func : Str → List Str) (w : Str) (hn : '\n' ∉ w) :
    prefixHelper breaks compgen func [] w = compgen [] w := by
  unfold prefixHelper
  rw [if_pos]
  simp only [stripPrefix, stripLoop, stripOutput]
  exact dropNewlines_id w hn

/-- `-n` does not start with the prefix, but `echo` prints nothing: the values are offered, and none of them
continues what was typed. -/
theorem C81_echo : prefixHelper [] oneWordCompgen yesNo (S "file:") (S "-n") = [S "file:yes", S "file:no"] := by
  decide +kernel

/-- With a break character inside of the prefix, the part of the prefix behind it is lost: `a:b` becomes `a:yes`. -/
theorem C81_break : prefixHelper [':'] oneWordCompgen yesNo (S "a:b") (S "a:b") = [S "yes", S "no"] ∧
    accept [':'] (S "a:b") (S "yes") = S "a:yes" := by decide +kernel

end CC
