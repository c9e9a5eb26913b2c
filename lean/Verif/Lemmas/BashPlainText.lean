import Verif.Lemmas.BashRun4
import Verif.Lemmas.Choices
/-!
# Lemmas: the text of the Bash parser is readable if the command line is plain
-/

namespace BashText
open CC

theorem plain_break {t : Str} (h : ∀ c ∈ t, PlainChar c) : '\n' ∉ t := by
  intro hm
  have := (h _ hm).2
  revert this; decide

/-! ## No line breaks in patterns -/

theorem break_int (i : Int) : '\n' ∉ intStr i := by
  have hn : ∀ n, '\n' ∉ natStr n := by
    intro n hm
    have := natStr_isDigit hm
    revert this; decide
  unfold intStr
  split <;> simp [hn]

theorem break_join {l : List Str} (h : ∀ t ∈ l, '\n' ∉ t) : '\n' ∉ joinWith ['|'] l := by
  intro hm
  rcases mem_joinWith hm with h1 | ⟨t, ht, h1⟩
  · revert h1; decide
  · exact h t ht h1

theorem break_alt {l : List Str} (h : ∀ t ∈ l, '\n' ∉ t) : '\n' ∉ altPattern l := by
  have : '\n' ∉ joinWith ['|'] (sortStrs l) := break_join (fun t ht => h t ((sortStrs_perm l).mem_iff.mp ht))
  unfold altPattern
  simp [this]

theorem break_build {l : List Str} (h : ∀ t ∈ l, '\n' ∉ t) : '\n' ∉ buildPattern l := by
  unfold buildPattern
  split
  · exact h _ (by simp)
  · split
    · split
      · simp [break_int]
      · exact break_alt h
    · exact break_alt h

theorem break_trie (t : Trie) : Trie.Good (fun c => c ≠ '\n') t → '\n' ∉ t.toPattern := by
  induction t using Trie.ind with
  | h b ch ih =>
    intro hg
    cases hg with
    | mk h1 h2 h3 h4 =>
      rw [Trie.toPattern]
      split
      · simp
      · apply break_build
        intro t ht
        rw [parts_eq, List.mem_append, List.mem_map] at ht
        rcases ht with ⟨x, hx, rfl⟩ | ht
        · simp only [List.mem_cons, not_or]
          exact ⟨fun h => h3 x hx h.symm, ih x hx (h4 x hx)⟩
        · split at ht
          · simp at ht; subst ht; simp
          · simp at ht

theorem break_pattern {l : List Str} (h : ∀ t ∈ l, '\n' ∉ t) : '\n' ∉ makePattern l := by
  unfold makePattern
  simp only
  split
  · exact break_join h
  · have hs : ∀ t ∈ sortStrs (uniq l), '\n' ∉ t := by
      intro t ht
      rw [(sortStrs_perm (uniq l)).mem_iff, C40_uniq_mem] at ht
      exact h t ht
    unfold compactGlobTrie
    split
    · rename_i s he
      exact hs s (by simp [he])
    · rename_i he
      cases hl : sortStrs (uniq l) with
      | nil => simp [Trie.toPattern]
      | cons s r =>
        rw [← hl]
        apply break_trie
        refine (insertAll (P := fun c => c ≠ '\n') _ ?_ (Trie.node false []) (Or.inr rfl)).1 (Or.inl (by simp [hl]))
        intro t ht c hc he
        subst he
        exact hs t ht hc

/-! ## From plain command lines -/

theorem pat_of {t : Str} {L : Str → Prop} (h : Means t L) (hL : ∃ w, ¬ (L w ↔ w = "esac".toList)) (hn : '\n' ∉ t) : Pat t := by
  refine ⟨h.some, ?_, hn⟩
  rintro rfl
  obtain ⟨w, hw⟩ := hL
  obtain ⟨a, ha, hm⟩ := h
  obtain ⟨a', ha', hm'⟩ := means_lits (t := "esac".toList) (by decide) (by unfold LitChar; decide)
  rw [ha] at ha'
  cases ha'
  exact hw ((hm w).symm.trans (hm' w))

theorem longOk {o : BOpt} (h : PlainBashOption o) (hne : o.longs ≠ []) : LongOk o := by
  have hbr : ∀ l ∈ o.longs, '\n' ∉ l := fun l hl => plain_break (h.longs l hl).2
  have hd : ∀ l ∈ o.longs, l ≠ "esac".toList := by
    rintro l hl rfl
    have := (h.longs _ hl).1
    revert this; decide
  refine ⟨h.var, pat_of (means_without h hne) ⟨"esac".toList, ?_⟩ (break_join hbr), fun _ => pat_of (means_withArg h hne) ⟨"esac".toList, ?_⟩ ?_⟩
  · intro hi
    exact hd _ (hi.mpr rfl) rfl
  · intro hi
    obtain ⟨l, hl, hs⟩ := List.any_eq_true.mp (hi.mpr rfl)
    obtain ⟨r, hr⟩ := (startsWith_iff _ _).1 hs
    have : '=' ∈ "esac".toList := by rw [hr]; simp
    revert this; decide
  · apply break_join
    intro t ht
    obtain ⟨l, hl, rfl⟩ := List.mem_map.mp ht
    simp [hbr l hl]

theorem shortOk {o : BOpt} (h : PlainBashOption o) (hne : o.shorts ≠ []) : ShortOk o := by
  have hm : Means (patShort o) (fun w => w ∈ o.shorts.map (fun s => (s.drop 1).take 1)) := means_any (by simpa using hne) (by
    intro t ht
    obtain ⟨s, hs, rfl⟩ := List.mem_map.mp ht
    obtain ⟨x, rfl, hx⟩ := h.shorts s hs
    exact ⟨by simp, by simpa using hx.lit⟩)
  refine ⟨h.var, pat_of hm ⟨"esac".toList, ?_⟩ ?_⟩
  · intro hi
    obtain ⟨s, hs, he⟩ := List.mem_map.mp (hi.mpr rfl)
    obtain ⟨x, rfl, hx⟩ := h.shorts s hs
    have := congrArg List.length he
    revert this; simp
  · apply break_join
    intro t ht
    obtain ⟨s, hs, rfl⟩ := List.mem_map.mp ht
    obtain ⟨x, rfl, hx⟩ := h.shorts s hs
    exact plain_break (by simpa using hx)

theorem blockOk {b : Block} (h : PlainBashBlock b) : BlockOk b := by
  refine ⟨?_, fun o ho hne => longOk (h.opts o ho) hne, fun o ho hne => shortOk (h.opts o ho) hne⟩
  refine ⟨(means_path h).some, ?_, ?_⟩
  · unfold patPath
    split
    · intro he
      have : '*' ∈ "esac".toList := by rw [← he]; simp
      revert this; decide
    · simpa using h.path.2.1
  · have := plain_break h.path.2.2
    unfold patPath
    split <;> simp [this]

theorem switchOk {c : SwitchCase} (h : PlainBashSwitch c) : SwitchOk c := by
  refine ⟨pat_of (means_label h) ⟨c.path ++ '|' :: natStr c.num, ?_⟩ ?_, ?_⟩
  · intro hi
    have h1 := hi.mp rfl
    have : '|' ∈ "esac".toList := by rw [← h1]; simp
    revert this; decide
  · rw [quote_label h.path]
    simp only [List.cons_append, List.append_assoc, List.mem_cons, List.mem_append, not_or]
    refine ⟨by decide, plain_break h.path, by decide, ?_, by decide, by simp⟩
    intro hm
    have := natStr_isDigit hm
    revert this; decide
  · intro e he
    obtain ⟨h1, h2, h3, ⟨s, hs, hne⟩, h5⟩ := h.names e he
    refine ⟨pat_of (means_names h he) ⟨s, ?_⟩ (break_pattern (fun t ht => plain_break (h2 t ht).2)), ?_⟩
    · intro hi
      exact hne (hi.mp hs)
    · rw [List.all_eq_true]
      intro c hc
      have := (h5 c hc).2
      simp only [S, String.reduceToList, List.mem_cons, List.not_mem_nil, or_false, not_or] at this
      simp [quotable, this]

end BashText
