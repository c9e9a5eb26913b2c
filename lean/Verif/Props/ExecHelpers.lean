import Verif.Props.FishKeyValue
import Verif.Props.BashKeyValue
import Verif.Model.ExecHelpers
import Verif.Spec.KeyLines
import Verif.Lemmas.ZshLines
/-!
# C94: keys and values that a command prints
-/

namespace CC
open KeyLines ItemList Typed

namespace ExecLines

theorem name_char {n : Str} (h : Name n) {c : Char} (hc : c ∈ n) :
    c ≠ '\t' ∧ c ≠ '\n' ∧ c ≠ ' ' ∧ c ≠ '=' ∧ c ≠ '?' ∧ c ≠ '*' ∧ c ≠ '\\' ∧ c ≠ '[' ∧ c ≠ ']' ∧ c ≠ ':' ∧ c ≠ '(' ∧ c ≠ ')' := by
  have := h.2 c hc
  refine ⟨?_, ?_, ?_, ?_, ?_, ?_, ?_, ?_, ?_, ?_, ?_, ?_⟩ <;> · rintro rfl; revert this; decide

theorem spaced_join (l : List Str) : spaced l = joinWith [' '] l := by
  induction l with
  | nil => rfl
  | cons w ws ih =>
    cases ws with
    | nil => rfl
    | cons v vs => rw [spaced, ih, joinWith]; simp; simp

theorem spaced_mem {l : List Str} {c : Char} (h : c ∈ spaced l) : c = ' ' ∨ ∃ w ∈ l, c ∈ w := by
  induction l with
  | nil => simp [spaced] at h
  | cons w ws ih =>
    cases ws with
    | nil => exact Or.inr ⟨w, by simp, h⟩
    | cons v vs =>
      rw [spaced] at h
      · rcases List.mem_append.mp h with h | h
        · exact Or.inr ⟨w, by simp, h⟩
        · rcases List.mem_cons.mp h with h | h
          · exact Or.inl h
          · rcases ih h with h | ⟨x, hx, hc⟩
            · exact Or.inl h
            · exact Or.inr ⟨x, List.mem_cons_of_mem _ hx, hc⟩
      · simp

/-- The text of a line up to the first tab. -/
def lineHead (k : KeyLines.Key) : Str := (if k.repeatable then ['*'] else []) ++ k.name ++ k.takes.mark

theorem line_eq (k : KeyLines.Key) : k.line = joinWith ['\t'] [lineHead k, k.desc, spaced k.excludes] := by
  simp [KeyLines.Key.line, lineHead, joinWith]

theorem head_last {k : KeyLines.Key} (h : Name k.name) : ∃ a c, (if k.repeatable then ['*'] else []) ++ k.name = a ++ [c] ∧ c ≠ '=' ∧ c ≠ '?' := by
  have hl : k.name = k.name.dropLast ++ [k.name.getLast h.1] := (List.dropLast_concat_getLast h.1).symm
  refine ⟨(if k.repeatable then ['*'] else []) ++ k.name.dropLast, k.name.getLast h.1, ?_, ?_⟩
  · rw [List.append_assoc, ← hl]
  · have := name_char h (List.getLast_mem h.1)
    exact ⟨this.2.2.2.1, this.2.2.2.2.1⟩

theorem head_tab {k : KeyLines.Key} (h : Name k.name) : '\t' ∉ lineHead k := by
  unfold lineHead
  simp only [List.mem_append, not_or]
  refine ⟨⟨?_, fun hm => (name_char h hm).1 rfl⟩, ?_⟩
  · cases k.repeatable <;> simp
  · cases k.takes <;> simp [Takes.mark]

theorem unmarked {x : Str} {c : Char} {a : Str} (hx : x = a ++ [c]) (h1 : c ≠ '=') (h2 : c ≠ '?') (t : Takes) :
    bashUnmarked (x ++ t.mark) = x ∧ ((x ++ t.mark).getLast? = some '=' ↔ t = .value) := by
  have hl : x.getLast? = some c := by rw [hx]; simp
  cases t with
  | nothing =>
    simp only [Takes.mark, List.append_nil, hl, Option.some.injEq, h1, reduceCtorEq, and_true]
    unfold bashUnmarked
    rw [hl]
    simp only [Option.some.injEq, h1, if_false]
    rw [if_neg]
    intro h
    rw [List.isSuffixOf_iff_suffix] at h
    obtain ⟨u, hu⟩ := h
    have := congrArg List.getLast? hu
    rw [hl] at this
    simp [S] at this
    exact h2 this.symm
  | value =>
    simp only [Takes.mark]
    refine ⟨?_, by simp⟩
    unfold bashUnmarked cutEnd
    simp
  | optional =>
    simp only [Takes.mark]
    refine ⟨?_, by simp⟩
    unfold bashUnmarked cutEnd
    have h3 : (x ++ ['=', '?']).getLast? = some '?' := by simp
    rw [h3]
    rw [if_neg (by decide), if_pos (by rw [List.isSuffixOf_iff_suffix]; exact ⟨x, rfl⟩)]
    simp

theorem head_unmarked {k : KeyLines.Key} (h : Name k.name) :
    bashUnmarked (lineHead k) = (if k.repeatable then ['*'] else []) ++ k.name ∧ ((lineHead k).getLast? = some '=' ↔ k.takes = .value) := by
  obtain ⟨a, c, h1, h2, h3⟩ := head_last h
  exact unmarked h1 h2 h3 k.takes

theorem name_star {n : Str} (h : Name n) : ∀ r, n ≠ '*' :: r := by
  rintro r rfl
  exact (name_char h (List.mem_cons_self ..)).2.2.2.2.2.1 rfl

theorem spaced_tab {l : List Str} (h : ∀ e ∈ l, Name e) : '\t' ∉ spaced l := by
  intro hm
  rcases spaced_mem hm with hm | ⟨w, hw, hm⟩
  · exact absurd hm (by decide)
  · exact (name_char (h w hw) hm).1 rfl

theorem line_split {keys : List KeyLines.Key} (hk : Ok keys) {k : KeyLines.Key} (hm : k ∈ keys) :
    splitOn '\t' k.line = [lineHead k, k.desc, spaced k.excludes] := by
  rw [line_eq]
  refine splitOn_join '\t' _ (by simp) ?_
  intro w hw
  simp only [List.mem_cons, List.not_mem_nil, or_false] at hw
  rcases hw with rfl | rfl | rfl
  · exact head_tab (hk.names k hm)
  · exact (hk.lines k hm).1
  · exact spaced_tab (hk.excludes k hm)

/-- The text in `excludes`. -/
def excludesText (k : KeyLines.Key) : Str := if k.repeatable then spaced k.excludes else spaced k.excludes ++ ' ' :: k.name

theorem fishExecKey_line {keys : List KeyLines.Key} (hk : Ok keys) {k : KeyLines.Key} (hm : k ∈ keys) :
    fishExecKey k.line = (k.name, decide (k.takes = .value), excludesText k) := by
  unfold fishExecKey excludesText
  rw [line_split hk hm]
  obtain ⟨h1, h2⟩ := head_unmarked (hk.names k hm)
  simp only [List.headD_cons, h1]
  have h3 : ((lineHead k).getLast? == some '=') = decide (k.takes = .value) := by
    rw [Bool.eq_iff_iff]
    simp [h2]
  rw [h3]
  cases hr : k.repeatable with
  | true => simp
  | false =>
    simp only [Bool.false_eq_true, if_false, List.nil_append]
    split
    · rename_i r hr'
      exact absurd hr' (name_star (hk.names k hm) r)
    · simp

theorem excludes_fields {keys : List KeyLines.Key} (hk : Ok keys) {k : KeyLines.Key} (hm : k ∈ keys) :
    (splitOn ' ' (excludesText k)).filter (fun w => !w.isEmpty) = k.rulesOut := by
  have hb : ∀ n, Name n → ' ' ∉ n := fun n hn hm => (name_char hn hm).2.2.1 rfl
  have hall : ∀ w ∈ k.rulesOut, Name w := by
    intro w hw
    unfold KeyLines.Key.rulesOut at hw
    rcases List.mem_append.mp hw with hw | hw
    · exact hk.excludes k hm w hw
    · cases hr : k.repeatable <;> simp [hr] at hw
      subst hw; exact hk.names k hm
  have hf : k.rulesOut.filter (fun w => !w.isEmpty) = k.rulesOut := by
    rw [List.filter_eq_self]
    intro w hw
    have := (hall w hw).1
    simpa using this
  have hjoin : excludesText k = joinWith [' '] k.rulesOut ∨ (excludesText k = ' ' :: k.name ∧ k.rulesOut = [k.name]) := by
    unfold excludesText KeyLines.Key.rulesOut
    cases hr : k.repeatable with
    | true => left; simp [spaced_join]
    | false =>
      simp only [Bool.false_eq_true, if_false]
      cases he : k.excludes with
      | nil => right; simp [spaced]
      | cons e es =>
        left
        rw [← he, spaced_join]
        have hne : k.excludes ≠ [] := by rw [he]; simp
        clear hf hall
        generalize k.excludes = l at hne
        induction l with
        | nil => exact absurd rfl hne
        | cons x xs ih =>
          cases xs with
          | nil => simp [joinWith]
          | cons y ys =>
            have := ih (by simp)
            simp only [List.cons_append, joinWith] at this ⊢
            rw [← this]
            simp
  rcases hjoin with h | ⟨h, h'⟩
  · rw [h]
    by_cases he : k.rulesOut = []
    · rw [he]; rfl
    · rw [splitOn_join ' ' _ he (fun w hw => hb w (hall w hw)), hf]
  · rw [h, h', splitOn]
    simp only [if_true]
    have : splitOn ' ' k.name = [k.name] := splitOn_join ' ' [k.name] (by simp) (by simp; exact hb _ (hk.names k hm))
    rw [this]
    have hne := (hk.names k hm).1
    simp [hne]

/-- The key for the specification of C91. -/
def asDef (k : KeyLines.Key) : KeyDef := ⟨k.name, k.desc, if k.takes = .value then some (.values []) else none, k.rulesOut⟩

theorem descriptions {keys : List KeyLines.Key} (hk : Ok keys) : fishDescriptions (keys.map KeyLines.Key.line) = keys.map (·.desc) := by
  unfold fishDescriptions
  rw [List.filterMap_map]
  have : ∀ l : List KeyLines.Key, (∀ k ∈ l, k ∈ keys) → l.filterMap ((fun l => (splitOn '\t' l)[1]?) ∘ KeyLines.Key.line) = l.map (·.desc) := by
    intro l hl
    induction l with
    | nil => rfl
    | cons k ks ih =>
      rw [List.filterMap_cons]
      simp only [Function.comp_apply]
      rw [line_split hk (hl k (by simp))]
      simp [ih (fun x hx => hl x (by simp [hx]))]
  exact this keys (fun _ h => h)

theorem fishExecKeys_lines {keys : List KeyLines.Key} (hk : Ok keys) :
    fishExecKeys (keys.map KeyLines.Key.line) = (keys.map asDef).map KeyDef.args := by
  unfold fishExecKeys
  rw [descriptions hk]
  apply List.ext_getElem?
  intro i
  simp only [List.getElem?_map, List.getElem?_zipIdx]
  cases hi : keys[i]? with
  | none => simp
  | some k =>
    have hm := List.mem_of_getElem? hi
    simp only [Option.map_some, Nat.zero_add, Option.getD_some, Option.some.injEq, hi]
    rw [fishExecKey_line hk hm, excludes_fields hk hm]
    unfold asDef KeyDef.args
    simp only [FishKey.mk.injEq, true_and, and_true]
    cases k.takes <;> rfl

theorem keysOk {keys : List KeyLines.Key} (hk : Ok keys) : KeysOk (keys.map asDef) := by
  refine ⟨?_, ?_, ?_⟩
  · rw [List.map_map]; exact hk.distinct
  · intro d hd
    obtain ⟨k, hm, rfl⟩ := List.mem_map.mp hd
    refine ⟨(hk.names k hm).1, ?_⟩
    intro e he hs
    simp only [asDef, KeyLines.Key.rulesOut] at he
    rcases List.mem_append.mp he with he | he
    · exact (name_char (hk.excludes k hm e he) hs).2.2.1 rfl
    · cases hr : k.repeatable <;> simp [hr] at he
      subst he; exact (name_char (hk.names k hm) hs).2.2.1 rfl
  · intro d hd t ht
    obtain ⟨k, hm, rfl⟩ := List.mem_map.mp hd
    simp only [asDef] at ht
    split at ht
    · cases ht; exact ⟨trivial, trivial⟩
    · cases ht

theorem valueOk {keys : List KeyLines.Key} (sep : Char) (p : Str) : ValueOk (keys.map asDef) sep p := by
  refine Or.inr ?_
  intro d hd t ht
  obtain ⟨k, hm, rfl⟩ := List.mem_map.mp hd
  simp only [asDef] at ht
  split at ht
  · cases ht; trivial
  · cases ht

theorem asDef_text (k : KeyLines.Key) (sep : Char) : (asDef k).text sep = k.shown sep := by
  unfold KeyDef.text KeyLines.Key.shown asDef
  cases k.takes <;> rfl

theorem excluded_iff {keys : List KeyLines.Key} (sep1 sep2 : Char) (w n : Str) :
    KeyExcluded (keys.map asDef) sep1 sep2 w n ↔ RuledOut keys sep1 sep2 w n := by
  unfold KeyExcluded RuledOut keyOf
  constructor
  · rintro ⟨pair, h1, d, h2, h3, h4⟩
    obtain ⟨k, hm, rfl⟩ := List.mem_map.mp h2
    exact ⟨pair, h1, k, hm, h3, h4⟩
  · rintro ⟨pair, h1, k, hm, h3, h4⟩
    exact ⟨pair, h1, asDef k, List.mem_map.mpr ⟨k, hm, rfl⟩, h3, h4⟩

theorem fish_keys {keys : List KeyLines.Key} (hk : Ok keys) (out : Str → List Str) {sep1 sep2 : Char} {w : Str} (hs : sep2 ∉ current sep1 w) :
    fishKeyValueListExec sep1 sep2 (keys.map KeyLines.Key.line) out w = fishKeyValueList sep1 sep2 ((keys.map asDef).map KeyDef.args) none w := by
  unfold fishKeyValueListExec fishKeyValueList
  rw [fishExecKeys_lines hk]
  simp only [completingArg, keyValueLines, getLastD_current, List.contains_iff_mem, hs, if_false]
  rfl

theorem candidate_line (pre : Str) (v : Str × Str) (h1 : '\t' ∉ pre) (h2 : '\t' ∉ v.1) : fishCandidate (pre ++ valueLine v) = (pre ++ v.1, v.2) := by
  have key : ∀ a : Str, '\t' ∉ a → ∀ r, (a ++ '\t' :: r).takeWhile (· != '\t') = a ∧ (a ++ '\t' :: r).dropWhile (· != '\t') = '\t' :: r := by
    intro a ha r
    induction a with
    | nil => simp
    | cons c a ih =>
      simp only [List.mem_cons, not_or] at ha
      have hc : (c != '\t') = true := by simpa using Ne.symm ha.1
      simp [hc, ih ha.2]
  unfold fishCandidate valueLine
  rw [← List.append_assoc]
  obtain ⟨e1, e2⟩ := key (pre ++ v.1) (by simp [h1, h2]) v.2
  rw [e1, e2]
  simp

end ExecLines

open ExecLines

/-! ## Fish -/

/-- What Fish shows of the lines that the helper prints. -/
def ExecShown (sep1 sep2 : Char) (keyLines : List Str) (out : Str → List Str) (w : Str) (c : Str × Str) : Prop :=
  c ∈ fishKeyValueListExec sep1 sep2 keyLines out w ∧ w <+: c.1

theorem fish_values {keyLines : List Str} {values : Str → List (Str × Str)} (sep1 sep2 : Char) {w : Str} (hs : sep2 ∈ current sep1 w) (ht : '\t' ∉ w)
    (hv : ∀ n, ∀ v ∈ values n, '\t' ∉ v.1) (c : Str × Str) :
    ExecShown sep1 sep2 keyLines (fun n => (values n).map valueLine) w c ↔
      ∃ n value v d, current sep1 w = n ++ sep2 :: value ∧ sep2 ∉ n ∧ (v, d) ∈ values n ∧ value <+: v ∧ c = (before sep1 w ++ (n ++ sep2 :: v), d) := by
  obtain ⟨h1, h2⟩ := split_pair hs
  have hb := before_current sep1 w
  have hend : (w.isEmpty || decide (w.getLast? = some sep1)) = false := by
    have hne : w ≠ [] := by rintro rfl; simp [current, items] at hs
    have hc : current sep1 w ≠ [] := by intro e; rw [e] at hs; simp at hs
    have hnl : ¬ w.getLast? = some sep1 := fun h => hc ((current_empty sep1 w hne).mpr h)
    simp [hne, hnl]
  have htake : w.take (w.length - (behindFirst sep2 (current sep1 w)).length) = before sep1 w ++ (beforeFirst sep2 (current sep1 w) ++ [sep2]) := by
    have hw : w = (before sep1 w ++ (beforeFirst sep2 (current sep1 w) ++ [sep2])) ++ behindFirst sep2 (current sep1 w) := by
      conv => lhs; rw [hb, h1]
      simp
    generalize before sep1 w ++ (beforeFirst sep2 (current sep1 w) ++ [sep2]) = a at hw ⊢
    generalize behindFirst sep2 (current sep1 w) = b at hw ⊢
    subst hw
    simp
  have htab : '\t' ∉ before sep1 w ++ (beforeFirst sep2 (current sep1 w) ++ [sep2]) := by
    rw [← htake]
    exact fun hm => ht (List.mem_of_mem_take hm)
  have hlist : fishKeyValueListExec sep1 sep2 keyLines (fun n => (values n).map valueLine) w =
      (values (beforeFirst sep2 (current sep1 w))).map (fun v => (before sep1 w ++ (beforeFirst sep2 (current sep1 w) ++ sep2 :: v.1), v.2)) := by
    unfold fishKeyValueListExec
    simp only [hend, Bool.false_eq_true, if_false, getLastD_current, List.contains_iff_mem, hs, if_true, htake, List.map_map]
    refine List.map_congr_left fun v hm => ?_
    simp only [Function.comp_apply]
    rw [candidate_line _ v htab (hv _ v hm)]
    simp
  unfold ExecShown
  rw [hlist, List.mem_map]
  constructor
  · rintro ⟨⟨⟨v, d⟩, hm, rfl⟩, hpre⟩
    have hpre := before_prefix_iff.mp hpre
    refine ⟨_, _, v, d, h1, h2, hm, ?_, rfl⟩
    rw [h1] at hpre
    have e : beforeFirst sep2 (beforeFirst sep2 (current sep1 w) ++ sep2 :: behindFirst sep2 (current sep1 w)) = beforeFirst sep2 (current sep1 w) := by
      rw [← h1]
    rw [e] at hpre
    exact (List.cons_prefix_cons.mp ((List.prefix_append_right_inj _).mp hpre)).2
  · rintro ⟨n, value, v, d, e1, e2, hm, hpre, rfl⟩
    obtain ⟨rfl, rfl⟩ := pair_unique (e1.symm.trans h1) e2 h2
    refine ⟨⟨(v, d), hm, rfl⟩, before_prefix_iff.mpr ?_⟩
    conv => lhs; rw [h1]
    exact (List.prefix_append_right_inj _).mpr (List.cons_prefix_cons.mpr ⟨rfl, hpre⟩)

/-- **C94 (Fish, nothing else)** What is shown for a list of pairs is wanted. -/
theorem C94_fish_sound (keys : List KeyLines.Key) (hk : Ok keys) (values : Str → List (Str × Str)) (hv : ∀ n, ∀ v ∈ values n, '\t' ∉ v.1)
    (sep1 sep2 : Char) (w : Str) (ht : '\t' ∉ w) (c : Str × Str)
    (h : ExecShown sep1 sep2 (keys.map KeyLines.Key.line) (fun n => (values n).map valueLine) w c) : KeyLines.Wanted keys values sep1 sep2 w c := by
  unfold KeyLines.Wanted
  by_cases hs : sep2 ∈ current sep1 w
  · rw [if_pos hs]
    exact (fish_values sep1 sep2 hs ht hv c).mp h
  · rw [if_neg hs]
    unfold ExecShown at h
    rw [fish_keys hk _ hs] at h
    obtain ⟨v, d, hw, rfl⟩ := C91_list_sound (keys.map asDef) (keysOk hk) sep1 sep2 w (valueOk _ _) c h
    unfold PairWanted at hw
    rw [if_neg hs] at hw
    obtain ⟨d', hd, he, hp, hc⟩ := hw
    obtain ⟨k, hm, rfl⟩ := List.mem_map.mp hd
    rw [excluded_iff] at he
    rw [asDef_text] at hp hc
    cases hc
    exact ⟨k, hm, he, hp, rfl⟩

/-- **C94 (Fish, everything, partial)** What is wanted is shown, unless it is typed already. Missing: the name of a key
that is typed completely, as in `C91_typed_key`. -/
theorem C94_fish_complete_partial (keys : List KeyLines.Key) (hk : Ok keys) (values : Str → List (Str × Str)) (hv : ∀ n, ∀ v ∈ values n, '\t' ∉ v.1)
    (sep1 sep2 : Char) (w : Str) (ht : '\t' ∉ w) (c : Str × Str) (h : KeyLines.Wanted keys values sep1 sep2 w c)
    (hne : c.1 ≠ w) (hkey : ∀ k ∈ keys, k.name ≠ current sep1 w) :
    ExecShown sep1 sep2 (keys.map KeyLines.Key.line) (fun n => (values n).map valueLine) w c := by
  unfold KeyLines.Wanted at h
  by_cases hs : sep2 ∈ current sep1 w
  · rw [if_pos hs] at h
    exact (fish_values sep1 sep2 hs ht hv c).mpr h
  · rw [if_neg hs] at h
    unfold ExecShown
    rw [fish_keys hk _ hs]
    obtain ⟨k, hm, he, hp, rfl⟩ := h
    refine C91_list_complete_partial (keys.map asDef) (keysOk hk) sep1 sep2 w (valueOk _ _) _ ⟨k.shown sep2, k.desc, ?_, rfl⟩ hne ?_
    · unfold PairWanted
      rw [if_neg hs]
      exact ⟨asDef k, List.mem_map.mpr ⟨k, hm, rfl⟩, by rw [excluded_iff]; exact he, by rw [asDef_text]; exact hp, by rw [asDef_text]; rfl⟩
    · intro d hd
      obtain ⟨k', hm', rfl⟩ := List.mem_map.mp hd
      exact hkey k' hm'


/-- What a pair is completed to, with descriptions: behind a key and the separator, the values of the key; before it,
the keys, with the separator if they take a value. -/
def PairLinesWanted (keys : List KeyLines.Key) (values : Str → List (Str × Str)) (sep : Char) (u : Str) (c : Str × Str) : Prop :=
  if sep ∈ u then ∃ n value v d, u = n ++ sep :: value ∧ sep ∉ n ∧ (v, d) ∈ values n ∧ value <+: v ∧ c = (n ++ sep :: v, d)
  else ∃ k ∈ keys, c = (k.name ++ (if k.takes = .nothing then [] else [sep]), k.desc) ∧ u <+: c.1

/-- **C94 (Fish, pairs)** If the separator is `=`, exactly what is wanted is shown for a pair. -/
theorem C94_fish_pair_partial (keys : List KeyLines.Key) (hk : Ok keys) (values : Str → List (Str × Str)) (hv : ∀ n, ∀ v ∈ values n, '\t' ∉ v.1)
    (w : Str) (ht : '\t' ∉ w) (c : Str × Str) :
    (c ∈ fishKeyValuePairExec '=' (keys.map KeyLines.Key.pairLine) (fun n => (values n).map valueLine) w ∧ w <+: c.1) ↔
      PairLinesWanted keys values '=' w c := by
  unfold fishKeyValuePairExec PairLinesWanted
  simp only [List.contains_iff_mem]
  by_cases hs : '=' ∈ w
  · rw [if_pos hs, if_pos hs]
    obtain ⟨h1, h2⟩ := split_pair hs
    have htab : '\t' ∉ beforeFirst '=' w ++ ['='] := by
      intro hm
      apply ht
      rw [h1]
      simp only [List.mem_append, List.mem_cons, List.not_mem_nil, or_false] at hm ⊢
      rcases hm with hm | hm
      · exact Or.inl hm
      · exact absurd hm (by decide)
    have hlist : ((values (beforeFirst '=' w)).map valueLine).map (fun v => fishCandidate (beforeFirst '=' w ++ '=' :: v)) =
        (values (beforeFirst '=' w)).map (fun v => (beforeFirst '=' w ++ '=' :: v.1, v.2)) := by
      rw [List.map_map]
      refine List.map_congr_left fun v hm => ?_
      have := candidate_line (beforeFirst '=' w ++ ['=']) v htab (hv _ v hm)
      simpa using this
    rw [hlist, List.mem_map]
    constructor
    · rintro ⟨⟨⟨v, d⟩, hm, rfl⟩, hpre⟩
      refine ⟨_, _, v, d, h1, h2, hm, ?_, rfl⟩
      simp only at hpre
      generalize hb : beforeFirst '=' w = b at h1 h2 hpre
      rw [h1] at hpre
      exact (List.cons_prefix_cons.mp ((List.prefix_append_right_inj _).mp hpre)).2
    · rintro ⟨n, value, v, d, e1, e2, hm, hpre, rfl⟩
      obtain ⟨rfl, rfl⟩ := pair_unique (e1.symm.trans h1) e2 h2
      refine ⟨⟨(v, d), hm, rfl⟩, ?_⟩
      generalize hb : beforeFirst '=' w = b at h1 h2
      rw [h1]
      exact (List.prefix_append_right_inj _).mpr (List.cons_prefix_cons.mpr ⟨rfl, hpre⟩)
  · rw [if_neg hs, if_neg hs]
    have hlist : ∀ k ∈ keys, fishCandidate k.pairLine = (k.name ++ (if k.takes = .nothing then [] else ['=']), k.desc) := by
      intro k hm
      have h1 : '\t' ∉ k.name ++ (if k.takes = .nothing then [] else ['=']) := by
        simp only [List.mem_append, not_or]
        refine ⟨fun h => (name_char (hk.names k hm) h).1 rfl, ?_⟩
        split <;> simp
      have := candidate_line [] (k.name ++ (if k.takes = .nothing then [] else ['=']), k.desc) (by simp) h1
      simpa [KeyLines.Key.pairLine, valueLine] using this
    rw [List.map_map, List.mem_map]
    constructor
    · rintro ⟨⟨k, hm, rfl⟩, hp⟩
      exact ⟨k, hm, hlist k hm, hp⟩
    · rintro ⟨k, hm, rfl, hp⟩
      exact ⟨⟨k, hm, hlist k hm⟩, hp⟩

/-! ## Bash -/

namespace ExecLines

theorem dropTabs_cons {c : Char} (r : Str) (h : c ≠ '\t') : dropTabs (c :: r) = c :: r := by
  unfold dropTabs
  simp [h]

theorem tabField_append {a : Str} (h : '\t' ∉ a) (r : Str) : tabField (a ++ '\t' :: r) = a ∧ (a ++ '\t' :: r).dropWhile (· != '\t') = '\t' :: r := by
  unfold tabField
  induction a with
  | nil => simp
  | cons c a ih =>
    simp only [List.mem_cons, not_or] at h
    have hc : (c != '\t') = true := by simpa using Ne.symm h.1
    simp [hc, ih h.2]

theorem behindTabs_append {a : Str} (h : '\t' ∉ a) (r : Str) : behindTabs (a ++ '\t' :: r) = dropTabs r := by
  unfold behindTabs
  rw [(tabField_append h r).2]
  unfold dropTabs
  simp

theorem dropTabs_none {a : Str} (h : '\t' ∉ a) : dropTabs a = a := by
  cases a with
  | nil => rfl
  | cons c r => exact dropTabs_cons r (fun e => h (by simp [e]))

theorem stripTabs_none {a : Str} (h : '\t' ∉ a) : stripTabs a = a := by
  unfold stripTabs
  have := dropTabs_none (a := a.reverse) (by simpa using h)
  unfold dropTabs at this
  rw [this, List.reverse_reverse]

theorem dropTabs_append {a : Str} (h : '\t' ∉ a) (hne : a ≠ []) (r : Str) : dropTabs (a ++ r) = a ++ r := by
  cases a with
  | nil => exact absurd rfl hne
  | cons c a => exact dropTabs_cons _ (fun e => h (by simp [e]))

theorem head_ne {k : KeyLines.Key} (h : Name k.name) : lineHead k ≠ [] := by
  unfold lineHead
  simp [h.1]

/-- What `IFS=$'\t' read -r key desc exclude` reads of the line of a key that is described. -/
theorem read3_line {keys : List KeyLines.Key} (hk : Ok keys) (hd : Described keys) {k : KeyLines.Key} (hm : k ∈ keys) :
    readTabs3 k.line = (lineHead k, k.desc, spaced k.excludes) := by
  have h1 := head_tab (hk.names k hm)
  have h2 := (hk.lines k hm).1
  have h3 := spaced_tab (hk.excludes k hm)
  have hl : k.line = lineHead k ++ '\t' :: (k.desc ++ '\t' :: spaced k.excludes) := by simp [KeyLines.Key.line, lineHead]
  unfold readTabs3
  rw [hl, dropTabs_append h1 (head_ne (hk.names k hm)), (tabField_append h1 _).1, behindTabs_append h1]
  by_cases hdesc : k.desc = []
  · have he := hd k hm hdesc
    rw [hdesc, he]
    rfl
  · rw [dropTabs_append h2 hdesc, (tabField_append h2 _).1, behindTabs_append h2, dropTabs_none h3, stripTabs_none h3]

theorem read2_line {a b : Str} (h1 : '\t' ∉ a) (hne : a ≠ []) (h2 : '\t' ∉ b) : readTabs2 (a ++ '\t' :: b) = (a, b) := by
  unfold readTabs2
  rw [dropTabs_append h1 hne, (tabField_append h1 _).1, behindTabs_append h1, dropTabs_none h2, stripTabs_none h2]

theorem bashExecKey_line {keys : List KeyLines.Key} (hk : Ok keys) (hd : Described keys) {k : KeyLines.Key} (hm : k ∈ keys) :
    bashExecKey k.line = ⟨k.name, k.name, excludesText k⟩ := by
  unfold bashExecKey excludesText
  rw [read3_line hk hd hm]
  obtain ⟨h1, h2⟩ := head_unmarked (hk.names k hm)
  simp only [h1]
  cases hr : k.repeatable with
  | true => simp
  | false =>
    simp only [Bool.false_eq_true, if_false, List.nil_append]
    split
    · rename_i r hr'
      exact absurd hr' (name_star (hk.names k hm) r)
    · rfl

theorem read2_fst {a b : Str} (h1 : '\t' ∉ a) (hne : a ≠ []) : (readTabs2 (a ++ '\t' :: b)).1 = a := by
  unfold readTabs2
  rw [dropTabs_append h1 hne, (tabField_append h1 _).1]

/-- What the helper `exec` offers. -/
theorem bashExec_values {special : List Char} {printfQ : Str → Str} {cur : Str} {vs : List (Str × Str)} (h : ∀ v ∈ vs, '\t' ∉ v.1 ∧ v.1 ≠ []) :
    bashExec special printfQ cur (vs.map valueLine) =
      ((vs.map (·.1)).filter (fun v => cur.isPrefixOf v)).map (fun i => if i.any (fun c => special.contains c) then printfQ i else i) := by
  unfold bashExec
  rw [List.map_map]
  have : vs.map ((fun l => (readTabs2 l).1) ∘ valueLine) = vs.map (·.1) := by
    refine List.map_congr_left fun v hm => ?_
    exact read2_fst (h v hm).1 (h v hm).2
  rw [this]

/-! ### The text of the excluded keys matters only as the fields that are read of it -/

theorem keyNames_congr {α : Type} (l : List α) (g1 g2 : α → KeyArgs) (h : ∀ a ∈ l, (g1 a).key = (g2 a).key) :
    keyNames (l.map g1) = keyNames (l.map g2) := by
  induction l with
  | nil => rfl
  | cons a l ih =>
    simp only [List.map_cons, keyNames]
    rw [ih (fun x hx => h x (by simp [hx])), h a (by simp)]

theorem keyLookup_congr {α : Type} (l : List α) (g1 g2 : α → KeyArgs) (h : ∀ a ∈ l, (g1 a).key = (g2 a).key) (n : Str) :
    (keyLookup (l.map g1) n = none ∧ keyLookup (l.map g2) n = none) ∨
      ∃ a ∈ l, keyLookup (l.map g1) n = some (g1 a) ∧ keyLookup (l.map g2) n = some (g2 a) := by
  unfold keyLookup
  rw [← List.map_reverse, ← List.map_reverse]
  have h' : ∀ a ∈ l.reverse, (g1 a).key = (g2 a).key := fun a ha => h a (List.mem_reverse.mp ha)
  have key : ∀ m : List α, (∀ a ∈ m, (g1 a).key = (g2 a).key) →
      ((m.map g1).find? (fun e => e.key = n) = none ∧ (m.map g2).find? (fun e => e.key = n) = none) ∨
      ∃ a ∈ m, (m.map g1).find? (fun e => e.key = n) = some (g1 a) ∧ (m.map g2).find? (fun e => e.key = n) = some (g2 a) := by
    intro m hm
    induction m with
    | nil => exact Or.inl ⟨rfl, rfl⟩
    | cons a m ih =>
      simp only [List.map_cons, List.find?_cons]
      by_cases hk : (g1 a).key = n
      · have hk2 : (g2 a).key = n := (hm a (by simp)).symm.trans hk
        exact Or.inr ⟨a, by simp, by simp [hk], by simp [hk2]⟩
      · have hk2 : ¬ (g2 a).key = n := fun e => hk ((hm a (by simp)).trans e)
        simp only [hk, hk2, decide_false]
        rcases ih (fun x hx => hm x (by simp [hx])) with h | ⟨x, hx, h⟩
        · exact Or.inl h
        · exact Or.inr ⟨x, by simp [hx], h⟩
  rcases key _ h' with h | ⟨a, ha, h⟩
  · exact Or.inl h
  · exact Or.inr ⟨a, List.mem_reverse.mp ha, h⟩

theorem excludedKeys_congr {α : Type} (l : List α) (g1 g2 : α → KeyArgs) (h : ∀ a ∈ l, (g1 a).key = (g2 a).key)
    (he : ∀ a ∈ l, readFields ' ' (g1 a).excludes = readFields ' ' (g2 a).excludes) (sep1 sep2 : Char) (u : Str) :
    excludedKeys (l.map g1) sep1 sep2 u = excludedKeys (l.map g2) sep1 sep2 u := by
  unfold excludedKeys
  congr 1
  funext pair
  rcases keyLookup_congr l g1 g2 h (beforeFirst sep2 pair) with ⟨h1, h2⟩ | ⟨a, ha, h1, h2⟩
  · rw [h1, h2]
  · rw [h1, h2]
    exact he a ha

theorem readFields_blank (s : Str) : readFields ' ' (' ' :: s) = readFields ' ' s := by
  simp [readFields, fieldsLoop]

/-- The key for the specification of C84. -/
def asArgs (k : KeyLines.Key) : KeyArgs := ⟨k.name, k.name, joinWith [' '] k.rulesOut⟩

theorem excludesText_join (k : KeyLines.Key) : excludesText k = joinWith [' '] k.rulesOut ∨ excludesText k = ' ' :: joinWith [' '] k.rulesOut := by
  unfold excludesText KeyLines.Key.rulesOut
  cases hr : k.repeatable with
  | true => left; simp [spaced_join]
  | false =>
    simp only [Bool.false_eq_true, if_false]
    cases he : k.excludes with
    | nil => right; simp [spaced, joinWith]
    | cons e es =>
      left
      rw [← he, spaced_join]
      have hne : k.excludes ≠ [] := by rw [he]; simp
      generalize k.excludes = l at hne
      induction l with
      | nil => exact absurd rfl hne
      | cons x xs ih =>
        cases xs with
        | nil => simp [joinWith]
        | cons y ys =>
          have := ih (by simp)
          simp only [List.cons_append, joinWith] at this ⊢
          rw [← this]
          simp

theorem fields_eq (k : KeyLines.Key) : readFields ' ' (excludesText k) = readFields ' ' (joinWith [' '] k.rulesOut) := by
  rcases excludesText_join k with h | h
  · rw [h]
  · rw [h, readFields_blank]

end ExecLines

/-- What the values of a key are completed to: those that start with the typed text, quoted by `printf %q` if they have
a special character. -/
def execValues (special : List Char) (printfQ : Str → Str) (vs : List (Str × Str)) (typed : Str) : List Str :=
  ((vs.map (·.1)).filter (fun v => typed.isPrefixOf v)).map (fun i => if i.any (fun c => special.contains c) then printfQ i else i)

/-- A key with the values that the command prints for it. -/
def KeyLines.Key.info (special : List Char) (printfQ : Str → Str) (values : Str → List (Str × Str)) (k : KeyLines.Key) : KeyInfo :=
  ⟨k.name, execValues special printfQ (values k.name), k.rulesOut⟩

/-- **C94 (Bash, partial)** If the keys and values are printed as the manual says, exactly the right words are offered
for a list of pairs. Missing: keys that exclude others and have no description, text in quotes or with breaks as in
`C84_key_value_list_partial`, and keys that are typed but not announced, for which the command prints something. -/
theorem C94_bash_list_partial (breaks special : List Char) (printfQ : Str → Str) (keys : List KeyLines.Key) (hk : Ok keys) (hd : Described keys)
    (values : Str → List (Str × Str)) (hvals : ∀ n, ∀ v ∈ values n, '\t' ∉ v.1 ∧ v.1 ≠ []) (out : Str → List Str) (func : Str)
    (ho : out func = keys.map KeyLines.Key.line) (hov : ∀ k ∈ keys, out (func ++ ' ' :: k.name) = (values k.name).map valueLine)
    (sep1 sep2 : Char) (cur : Str) (hu : ∀ n v, current sep1 (text cur) = n ++ sep2 :: v → sep2 ∉ n → (∀ k ∈ keys, k.name ≠ n) → out (func ++ ' ' :: n) = [])
    (hs : sep1 ≠ '\n') (hc : clean .bare cur = true) (hn : '\n' ∉ text cur) (hp : PlainOrQuoted breaks [sep1, sep2] cur)
    (hv : ∀ k v, current sep1 (text cur) = k ++ sep2 :: v → sep2 ∉ k → sep2 ∈ breaks → sep2 ∉ v) (word : Str) :
    word ∈ (bashKeyValueListExec breaks special printfQ out sep1 sep2 func cur).map (accept breaks cur) ↔
      PairOffered (keys.map (KeyLines.Key.info special printfQ values)) sep1 sep2 (text cur) word := by
  have hes : (out func).map bashExecKey = keys.map (fun k => ⟨k.name, k.name, excludesText k⟩) := by
    rw [ho, List.map_map]
    exact List.map_congr_left fun k hm => bashExecKey_line hk hd hm
  have hkeys : ∀ a ∈ keys, (KeyArgs.mk a.name a.name (excludesText a)).key = (asArgs a).key := fun _ _ => rfl
  have hnames := keyNames_congr keys _ asArgs hkeys
  have hexcl := excludedKeys_congr keys _ asArgs hkeys (fun a _ => fields_eq a) sep1 sep2 (text cur)
  have hrem : remainingKeys (keys.map (fun k => ⟨k.name, k.name, excludesText k⟩)) sep1 sep2 (text cur) =
      remainingKeys (keys.map asArgs) sep1 sep2 (text cur) := by
    unfold remainingKeys
    rw [hnames, hexcl]
  have hrules : ∀ k ∈ keys, ∀ x ∈ k.rulesOut, Name x := by
    intro k hm w hw
    unfold KeyLines.Key.rulesOut at hw
    rcases List.mem_append.mp hw with hw | hw
    · exact hk.excludes k hm w hw
    · cases hr : k.repeatable <;> simp [hr] at hw
      subst hw; exact hk.names k hm
  have heq : bashKeyValueListExec breaks special printfQ out sep1 sep2 func cur =
      keyValueListHelper breaks (fun key value => bashExec special printfQ value (out (func ++ ' ' :: key))) sep1 sep2 (keys.map asArgs) cur := by
    unfold bashKeyValueListExec keyValueListHelper
    rw [C80_dequote_partial breaks cur hc]
    simp only
    rw [hes, hnames, hrem, behindLast_current]
    split
    · rfl
    split
    · rfl
    split
    · rename_i hcon
      have hcon : sep2 ∈ current sep1 (text cur) := by simpa using hcon
      obtain ⟨h1, h2⟩ := split_pair hcon
      rcases keyLookup_congr keys asArgs asArgs (fun _ _ => rfl) (beforeFirst sep2 (current sep1 (text cur))) with ⟨hl, _⟩ | ⟨a, ha, hl, _⟩
      · rw [hl]
        have := hu _ _ h1 h2 (fun k hm => keyLookup_none _ _ hl (asArgs k) (List.mem_map.mpr ⟨k, hm, rfl⟩))
        simp only [valueReplies, this]
        rfl
      · rw [hl]
        obtain ⟨e1, _⟩ := keyLookup_key _ _ _ hl
        have e1 : a.name = beforeFirst sep2 (current sep1 (text cur)) := e1
        simp only [asArgs]
        rw [e1]
    · rfl
  rw [heq]
  have hinfo : (keys.map asArgs).map (KeyArgs.asKey (fun key value => bashExec special printfQ value (out (func ++ ' ' :: key)))
      (fun e => (splitOn ' ' e.excludes).filter (fun w => !w.isEmpty))) = keys.map (KeyLines.Key.info special printfQ values) := by
    rw [List.map_map]
    refine List.map_congr_left fun k hm => ?_
    unfold KeyLines.Key.info KeyArgs.asKey
    simp only [Function.comp_apply, asArgs, KeyInfo.mk.injEq, true_and]
    constructor
    · funext t
      rw [hov k hm, bashExec_values (hvals k.name)]
      rfl
    · by_cases he : k.rulesOut = []
      · rw [he]; rfl
      · rw [splitOn_join ' ' _ he (fun w hw h => (name_char (hrules k hm w hw) h).2.2.1 rfl), List.filter_eq_self]
        intro w hw
        have := (hrules k hm w hw).1
        simpa using this
  rw [← hinfo]
  refine C84_key_value_list_partial breaks _ sep1 sep2 (keys.map asArgs) _ cur hs hc hn ?_ ?_ ?_ hp hv word
  · rw [List.map_map]; exact hk.distinct
  · intro e he
    obtain ⟨k, hm, rfl⟩ := List.mem_map.mp he
    exact (hk.names k hm).1
  · intro e he
    obtain ⟨k, hm, rfl⟩ := List.mem_map.mp he
    have h1 : (splitOn ' ' (asArgs k).excludes).filter (fun w => !w.isEmpty) = k.rulesOut := by
      unfold asArgs
      by_cases he : k.rulesOut = []
      · rw [he]; rfl
      · simp only
        rw [splitOn_join ' ' _ he (fun w hw h => (name_char (hrules k hm w hw) h).2.2.1 rfl), List.filter_eq_self]
        intro w hw
        have := (hrules k hm w hw).1
        simpa using this
    simp only [h1]
    refine ⟨rfl, fun x hx => ?_⟩
    have hnx := hrules k hm x hx
    exact ⟨hnx.1, fun h => (name_char hnx h).2.2.1 rfl, fun h => (name_char hnx h).2.1 rfl⟩


theorem pair_accept {breaks : List Char} {sep : Char} {cur : Str} (hc : clean .bare cur = true) (hp : PlainOrQuoted breaks [sep] cur)
    (hv : ∀ k v, text cur = k ++ sep :: v → sep ∉ k → sep ∈ breaks → sep ∉ v) {n value : Str} (e : text cur = n ++ sep :: value) (hn : sep ∉ n)
    (run : Str → Str → List Str) (func : Str) :
    (valueReplies run (stripChars breaks [sep] cur) func (text cur) value).map (accept breaks cur) = (run func value).map (n ++ sep :: ·) := by
  obtain ⟨f, hf, ha⟩ := break_strip breaks [sep] cur hc hp
  have hnv : ∀ c ∈ value, c ∉ stripChars breaks [sep] cur := by
    intro c hcm
    unfold stripChars
    split
    · simp
    · intro h
      obtain ⟨h1, h2⟩ := List.mem_filter.mp h
      simp only [List.mem_singleton] at h1
      subst h1
      exact hv _ _ e hn (by simpa using h2) hcm
  rw [accept_value breaks [sep] cur (n ++ [sep]) value f hf ha (by rw [e]; simp) hnv]
  refine List.map_congr_left fun r _ => ?_
  simp

/-- **C94 (Bash, pairs, partial)** Before the separator, the keys that start with the typed text are offered, with `=` if
they take a value; behind it the values of the key. Missing: as in `C84_key_value_pair_partial`, and a separator other
than `=`. -/
theorem C94_bash_pair_partial (breaks special : List Char) (printfQ : Str → Str) (keys : List KeyLines.Key) (hk : Ok keys)
    (values : Str → List (Str × Str)) (hvals : ∀ n, ∀ v ∈ values n, '\t' ∉ v.1 ∧ v.1 ≠ []) (out : Str → List Str) (func : Str)
    (ho : out func = keys.map KeyLines.Key.pairLine) (sep : Char) (cur : Str)
    (hov : ∀ n v, text cur = n ++ sep :: v → sep ∉ n → out (func ++ ' ' :: n) = (values n).map valueLine)
    (hc : clean .bare cur = true) (hp : PlainOrQuoted breaks [sep] cur)
    (hv : ∀ k v, text cur = k ++ sep :: v → sep ∉ k → sep ∈ breaks → sep ∉ v) :
    (sep ∉ text cur → bashKeyValuePairExec breaks special printfQ out sep func cur =
      execValues special printfQ (keys.map (fun k => (k.name ++ (if k.takes = .nothing then [] else ['=']), k.desc))) (text cur)) ∧
    (∀ n v, text cur = n ++ sep :: v → sep ∉ n → (bashKeyValuePairExec breaks special printfQ out sep func cur).map (accept breaks cur) =
      (execValues special printfQ (values n) v).map (n ++ sep :: ·)) := by
  constructor
  · intro hs
    unfold bashKeyValuePairExec
    rw [C80_dequote_partial breaks cur hc]
    simp only [List.contains_iff_mem, hs, if_false]
    have : out func = (keys.map (fun k => (k.name ++ (if k.takes = .nothing then [] else ['=']), k.desc))).map valueLine := by
      rw [ho, List.map_map]; rfl
    rw [this, bashExec_values]
    · rfl
    · intro v hm
      obtain ⟨k, hk', rfl⟩ := List.mem_map.mp hm
      refine ⟨?_, by simp [(hk.names k hk').1]⟩
      simp only [List.mem_append, not_or]
      refine ⟨fun h => (name_char (hk.names k hk') h).1 rfl, ?_⟩
      split <;> simp
  · intro n v e hn
    have hs : sep ∈ text cur := by rw [e]; simp
    obtain ⟨h1, h2⟩ := split_pair hs
    obtain ⟨e1, e2⟩ := pair_unique (h1.symm.trans e) h2 hn
    unfold bashKeyValuePairExec
    rw [C80_dequote_partial breaks cur hc]
    simp only [List.contains_iff_mem, hs, if_true]
    rw [e1, e2, pair_accept hc hp hv e hn, hov n v e hn, bashExec_values (hvals n)]
    rfl

/-! ## Zsh -/

namespace ExecLines

theorem escapeDesc_cons (c : Char) (cs : Str) :
    zshEscapeDesc (c :: cs) = (if c = '\\' ∨ c = ':' ∨ c = '[' ∨ c = ']' then ['\\', c] else [c]) ++ zshEscapeDesc cs := by
  unfold zshEscapeDesc
  by_cases h1 : c = '\\'
  · subst h1; simp [replaceChar, S]
  · by_cases h2 : c = ':'
    · subst h2; simp [replaceChar, S]
    · by_cases h3 : c = '['
      · subst h3; simp [replaceChar, S]
      · by_cases h4 : c = ']'
        · subst h4; simp [replaceChar, S]
        · simp [replaceChar, S, h1, h2, h3, h4]

/-- The description is read back, whatever it is. -/
theorem explanation_desc (d rest : Str) : ZshArgs.readExplanation (zshEscapeDesc d ++ ']' :: rest) = some (d, rest) := by
  induction d with
  | nil => simp [zshEscapeDesc, replaceChar, ZshArgs.readExplanation]
  | cons c cs ih =>
    rw [escapeDesc_cons]
    by_cases h : c = '\\' ∨ c = ':' ∨ c = '[' ∨ c = ']'
    · simp only [if_pos h, List.cons_append, List.nil_append, ZshArgs.readExplanation, ih]
      rfl
    · simp only [if_neg h, List.cons_append, List.nil_append]
      simp only [not_or] at h
      rw [readExplanation_other _ h.2.2.2 h.1, ih]; rfl

/-- A definition with a name, a description and an argument. -/
theorem readDef_spec (excludes : List Str) (hex : ∀ e ∈ excludes, Name e) (star : Bool) (n : Str) (hn : Name n) (d arg : Str) (action : Option Str)
    (ha : ZshCode.readAction arg = some action) :
    ZshCode.readDef ((if (spaced excludes).isEmpty then [] else S "(" ++ spaced excludes ++ S ")") ++ ((if star then ['*'] else []) ++ n) ++
      S "[" ++ zshEscapeDesc d ++ S "]" ++ arg) = some ⟨excludes, star, n, some d, action⟩ := by
  have hrest : ZshCode.readRest ('[' :: (zshEscapeDesc d ++ ']' :: arg)) = some (some d, action) := by
    simp only [ZshCode.readRest, explanation_desc, Option.bind_some, ha]
    rfl
  have hname : ZshCode.readName (n ++ '[' :: (zshEscapeDesc d ++ ']' :: arg)) = (n, '[' :: (zshEscapeDesc d ++ ']' :: arg)) :=
    readName_plain (fun c hc => ⟨(name_char hn hc).2.2.2.2.2.2.1, (name_char hn hc).2.2.2.2.2.2.2.1, (name_char hn hc).2.2.2.2.2.2.2.2.2.1⟩) (Or.inr (Or.inl rfl))
  have hvalue : ∀ ex, ZshCode.readValue ex ((if star then ['*'] else []) ++ n ++ '[' :: (zshEscapeDesc d ++ ']' :: arg)) =
      some ⟨ex, star, n, some d, action⟩ := by
    intro ex
    cases star with
    | true =>
      simp only [if_true, List.cons_append, List.nil_append]
      rw [readValue_starred, hname]
      simp [hrest]
    | false =>
      simp only [Bool.false_eq_true, if_false, List.nil_append]
      rw [readValue_plain, hname]
      · simp [hrest]
      · cases hh : n with
        | nil => exact absurd hh hn.1
        | cons c r =>
          subst hh
          simp only [List.cons_append, List.head?_cons, ne_eq, Option.some.injEq]
          exact (name_char hn (c := c) (by simp)).2.2.2.2.2.1
  by_cases he : (spaced excludes).isEmpty
  · have hnil : excludes = [] := by
      cases excludes with
      | nil => rfl
      | cons x xs =>
        have hx := (hex x (by simp)).1
        cases xs <;> simp [spaced, hx] at he
    subst hnil
    have hshape : ((if (spaced []).isEmpty then [] else S "(" ++ spaced [] ++ S ")") ++ ((if star then ['*'] else []) ++ n) ++ S "[" ++ zshEscapeDesc d ++ S "]" ++ arg) =
        ((if star then ['*'] else []) ++ n) ++ '[' :: (zshEscapeDesc d ++ ']' :: arg) := by simp [spaced, S]
    rw [hshape, readDef_value, hvalue]
    · cases star with
      | true => simp
      | false =>
        cases hh : n with
        | nil => exact absurd hh hn.1
        | cons c r =>
          subst hh
          simp only [Bool.false_eq_true, if_false, List.nil_append, List.head?_cons, ne_eq, Option.some.injEq]
          exact (name_char hn (c := c) (by simp)).2.2.2.2.2.2.2.2.2.2.1
    · simp [hn.1]
  · have hshape : ((if (spaced excludes).isEmpty then [] else S "(" ++ spaced excludes ++ S ")") ++ ((if star then ['*'] else []) ++ n) ++ S "[" ++ zshEscapeDesc d ++ S "]" ++ arg) =
        '(' :: (joinWith [' '] excludes ++ ')' :: (((if star then ['*'] else []) ++ n) ++ '[' :: (zshEscapeDesc d ++ ']' :: arg))) := by
      rw [if_neg he, spaced_join]; simp [S]
    rw [hshape]
    simp only [ZshCode.readDef]
    rw [readList_join, Option.bind_some, hvalue]
    intro x hx
    exact ⟨(hex x hx).1, fun h => (name_char (hex x hx) h).2.2.1 rfl, fun h => (name_char (hex x hx) h).2.2.2.2.2.2.2.2.2.2.2 rfl⟩

theorem plainColons_none {a : Str} (h : '\\' ∉ a) : ZshCode.plainColons a = a := by
  induction a with
  | nil => rfl
  | cons c r ih =>
    simp only [List.mem_cons, not_or] at h
    rw [ZshCode.plainColons.eq_def]
    split
    · rename_i e; cases e
    · rename_i e; cases e; exact absurd rfl h.1
    · rename_i e; cases e; rw [ih h.2]

/-- The words of the action. -/
theorem action_words {exec func key : Str} (hne : exec ≠ []) (hs : ∀ c ∈ exec, isSafeChar c = true) (hf : '\'' ∉ func) (hk : '\'' ∉ key) :
    zshExecAction exec func key = '{' :: (joinQuoted [exec, func ++ ' ' :: key] ++ ['}']) := by
  have h1 : quote exec = exec := quote_safe exec hne hs
  have h2 : quote (func ++ ' ' :: key) = '\'' :: (func ++ ' ' :: key) ++ ['\''] := by
    unfold quote
    have hn : needsQuote (func ++ ' ' :: key) = true := by
      unfold needsQuote
      simp [isSafeChar, isAsciiAlnum]
    have hc : (func ++ ' ' :: key).contains '\'' = false := by
      simp [hf, hk]
    simp only [hn, hc]
    simp
  unfold zshExecAction joinQuoted
  simp only [List.map_cons, List.map_nil, h1, h2, joinWith]
  simp [S]

end ExecLines

/-- The action of a definition calls `exec` with the command and a key. -/
def CallsFor (action : Option Str) (exec func key : Str) : Prop :=
  ∃ inner, action = some ('{' :: (inner ++ ['}'])) ∧ Posix.words inner = some [exec, func ++ ' ' :: key]

/-- **C94 (Zsh, partial)** Each line of a key becomes a definition for `_values` with the same key, description and
excluded keys, that can be repeated if the key can, and whose argument, if the key takes one, is completed by the
command called with the key. Missing: keys that exclude others and have no description; repeatable keys, for which the
command is called with the star as well. -/
theorem C94_zsh_list_partial (exec func : Str) (hne : exec ≠ []) (hs : ∀ c ∈ exec, isSafeChar c = true)
    (hf : '\'' ∉ func ∧ '\\' ∉ func) (keys : List KeyLines.Key) (hk : Ok keys) (hd : Described keys) (k : KeyLines.Key) (hm : k ∈ keys) :
    ∃ action, ZshCode.readDef (zshExecSpec exec func k.line) = some ⟨k.excludes, k.repeatable, k.name, some k.desc, action⟩ ∧
      (k.takes = .nothing → action = none) ∧
      (k.takes ≠ .nothing → CallsFor action exec func ((if k.repeatable then ['*'] else []) ++ k.name)) := by
  have hq : '\'' ∉ (if k.repeatable then ['*'] else []) ++ k.name := by
    intro h
    rcases List.mem_append.mp h with h | h
    · cases hr : k.repeatable <;> simp [hr] at h
    · have := (hk.names k hm).2 _ h
      revert this; decide
  have hbs : '\\' ∉ (if k.repeatable then ['*'] else []) ++ k.name := by
    intro h
    rcases List.mem_append.mp h with h | h
    · cases hr : k.repeatable <;> simp [hr] at h
    · exact (name_char (hk.names k hm) h).2.2.2.2.2.2.1 rfl
  have hb : ∀ c ∈ exec, c ≠ '\\' := by
    rintro c hc rfl
    exact absurd (hs _ hc) (by decide)
  have hplain : ZshCode.plainColons (zshExecAction exec func ((if k.repeatable then ['*'] else []) ++ k.name)) =
      zshExecAction exec func ((if k.repeatable then ['*'] else []) ++ k.name) := by
    apply plainColons_none
    unfold zshExecAction
    simp only [List.mem_append, not_or, S]
    exact ⟨⟨⟨⟨⟨⟨by decide, fun h => hb _ h rfl⟩, by decide⟩, hf.2⟩, by decide⟩, by simpa using hbs⟩, by decide⟩
  have hcall : CallsFor (some (zshExecAction exec func ((if k.repeatable then ['*'] else []) ++ k.name))) exec func
      ((if k.repeatable then ['*'] else []) ++ k.name) :=
    ⟨_, by rw [action_words hne hs hf.1 hq], C02_join_quoted_roundtrip _⟩
  obtain ⟨a, c, h1, h2, h3⟩ := head_last (hk.names k hm)
  unfold zshExecSpec
  rw [read3_line hk hd hm]
  have hhead : lineHead k = ((if k.repeatable then ['*'] else []) ++ k.name) ++ k.takes.mark := rfl
  have hdef := readDef_spec k.excludes (hk.excludes k hm) k.repeatable k.name (hk.names k hm) k.desc
  generalize hx : (if k.repeatable = true then ['*'] else []) ++ k.name = x at *
  have hlast : x.getLast? = some c := by rw [h1]; simp
  cases ht : k.takes with
  | nothing =>
    refine ⟨none, ?_, fun _ => rfl, fun h => absurd rfl h⟩
    have e : lineHead k = x := by rw [hhead, ht]; simp [Takes.mark]
    have h4 : ¬ (x.getLast? = some '=') := by rw [hlast]; simp [h2]
    have h5 : ¬ ((S "=?").isSuffixOf x = true) := by
      rw [List.isSuffixOf_iff_suffix]
      rintro ⟨u, hu⟩
      have := congrArg List.getLast? hu
      rw [hlast] at this
      simp [S] at this
      exact h3 this.symm
    simp only [e, if_neg h4, if_neg h5]
    have := hdef [] none rfl
    rw [← this]
    simp
  | value =>
    refine ⟨_, ?_, fun h => (by cases h), fun _ => hcall⟩
    have e : lineHead k = x ++ ['='] := by rw [hhead, ht]; rfl
    have h4 : (x ++ ['=']).getLast? = some '=' := by simp
    have h6 : cutEnd 1 (x ++ ['=']) = x := by simp [cutEnd]
    simp only [e, if_pos h4, h6]
    have := hdef (S ": :" ++ zshExecAction exec func x) (some (zshExecAction exec func x)) (by
      have : ZshCode.readAction (S ": :" ++ zshExecAction exec func x) = some (some (ZshCode.plainColons (zshExecAction exec func x))) := rfl
      rw [this, hplain])
    rw [← this]
    simp [S]
  | optional =>
    refine ⟨_, ?_, fun h => (by cases h), fun _ => hcall⟩
    have e : lineHead k = x ++ ['=', '?'] := by rw [hhead, ht]; rfl
    have h4 : ¬ (x ++ ['=', '?']).getLast? = some '=' := by simp
    have h5 : (S "=?").isSuffixOf (x ++ ['=', '?']) = true := by rw [List.isSuffixOf_iff_suffix]; exact ⟨x, rfl⟩
    have h6 : cutEnd 2 (x ++ ['=', '?']) = x := by simp [cutEnd]
    simp only [e, if_neg h4, if_pos h5, h6]
    have := hdef (S ":: :" ++ zshExecAction exec func x) (some (zshExecAction exec func x)) (by
      have : ZshCode.readAction (S ":: :" ++ zshExecAction exec func x) = some (some (ZshCode.plainColons (zshExecAction exec func x))) := rfl
      rw [this, hplain])
    rw [← this]
    simp [S]

/-- **C94 (Zsh, pairs)** The same for the lines of a pair. -/
theorem C94_zsh_pair (exec func : Str) (hne : exec ≠ []) (hs : ∀ c ∈ exec, isSafeChar c = true)
    (hf : '\'' ∉ func ∧ '\\' ∉ func) (keys : List KeyLines.Key) (hk : Ok keys) (k : KeyLines.Key) (hm : k ∈ keys) :
    ∃ action, ZshCode.readDef (zshPairSpec exec func k.pairLine) = some ⟨[], false, k.name, some k.desc, action⟩ ∧
      (k.takes = .nothing → action = none) ∧ (k.takes ≠ .nothing → CallsFor action exec func k.name) := by
  have hq : '\'' ∉ k.name := by
    intro h
    have := (hk.names k hm).2 _ h
    revert this; decide
  have hbs : '\\' ∉ k.name := fun h => (name_char (hk.names k hm) h).2.2.2.2.2.2.1 rfl
  have hb : ∀ c ∈ exec, c ≠ '\\' := by
    rintro c hc rfl
    exact absurd (hs _ hc) (by decide)
  have hplain : ZshCode.plainColons (zshExecAction exec func k.name) = zshExecAction exec func k.name := by
    apply plainColons_none
    unfold zshExecAction
    simp only [List.mem_append, not_or, S]
    exact ⟨⟨⟨⟨⟨⟨by decide, fun h => hb _ h rfl⟩, by decide⟩, hf.2⟩, by decide⟩, hbs⟩, by decide⟩
  have hcall : CallsFor (some (zshExecAction exec func k.name)) exec func k.name :=
    ⟨_, by rw [action_words hne hs hf.1 hq], C02_join_quoted_roundtrip _⟩
  have htab : '\t' ∉ k.name ++ (if k.takes = .nothing then [] else ['=']) := by
    simp only [List.mem_append, not_or]
    refine ⟨fun h => (name_char (hk.names k hm) h).1 rfl, ?_⟩
    split <;> simp
  have hdef := readDef_spec [] (by simp) false k.name (hk.names k hm) k.desc
  simp only [spaced, List.isEmpty_nil, if_true, Bool.false_eq_true, if_false, List.nil_append] at hdef
  unfold zshPairSpec
  rw [show k.pairLine = (k.name ++ (if k.takes = .nothing then [] else ['='])) ++ '\t' :: k.desc from rfl,
    read2_line htab (by simp [(hk.names k hm).1]) (hk.lines k hm).1]
  by_cases ht : k.takes = .nothing
  · refine ⟨none, ?_, fun _ => rfl, fun h => absurd ht h⟩
    have h4 : ¬ (k.name.getLast? = some '=') := by
      intro h
      exact (name_char (hk.names k hm) (List.mem_of_getLast? h)).2.2.2.1 rfl
    simp only [if_pos ht, List.append_nil, if_neg h4]
    rw [← hdef [] none rfl]
    simp
  · refine ⟨some (zshExecAction exec func k.name), ?_, fun h => absurd h ht, fun _ => hcall⟩
    have h4 : (k.name ++ ['=']).getLast? = some '=' := by simp
    have h6 : cutEnd 1 (k.name ++ ['=']) = k.name := by simp [cutEnd]
    simp only [if_neg ht, if_pos h4, h6]
    have := hdef (S ":::" ++ zshExecAction exec func k.name) (some (zshExecAction exec func k.name)) (by
      have : ZshCode.readAction (S ":::" ++ zshExecAction exec func k.name) = some (some (ZshCode.plainColons (zshExecAction exec func k.name))) := rfl
      rw [this, hplain])
    rw [← this]
    simp [S]

theorem atColon_item (v : Str) (rest : Str) (hr : rest = [] ∨ rest.head? = some ':') :
    ZshWords.atColon (replaceChar ':' (S "\\:") (replaceChar '\\' (S "\\\\") v) ++ rest) =
      (replaceChar ':' (S "\\:") (replaceChar '\\' (S "\\\\") v), if rest = [] then none else some (rest.drop 1)) := by
  induction v with
  | nil =>
    rcases hr with rfl | hr
    · rfl
    · match rest, hr with
      | c :: r, hr => simp at hr; subst hr; rfl
  | cons c cs ih =>
    have esc : ∀ x r, ZshWords.atColon ('\\' :: x :: r) = ('\\' :: x :: (ZshWords.atColon r).1, (ZshWords.atColon r).2) := fun x r => rfl
    by_cases h1 : c = '\\'
    · subst h1
      have e : replaceChar ':' (S "\\:") (replaceChar '\\' (S "\\\\") ('\\' :: cs)) = '\\' :: '\\' :: replaceChar ':' (S "\\:") (replaceChar '\\' (S "\\\\") cs) := by
        simp [replaceChar, S]
      rw [e, List.cons_append, List.cons_append, esc, ih]
    · by_cases h2 : c = ':'
      · subst h2
        have e : replaceChar ':' (S "\\:") (replaceChar '\\' (S "\\\\") (':' :: cs)) = '\\' :: ':' :: replaceChar ':' (S "\\:") (replaceChar '\\' (S "\\\\") cs) := by
          simp [replaceChar, S]
        rw [e, List.cons_append, List.cons_append, esc, ih]
      · have e : replaceChar ':' (S "\\:") (replaceChar '\\' (S "\\\\") (c :: cs)) = c :: replaceChar ':' (S "\\:") (replaceChar '\\' (S "\\\\") cs) := by
          simp [replaceChar, h1, h2]
        have hu : ∀ r, ZshWords.atColon (c :: r) = (c :: (ZshWords.atColon r).1, (ZshWords.atColon r).2) := by
          intro r
          rw [ZshWords.atColon.eq_def]
          split
          · rename_i e; cases e
          · rename_i e; cases e; exact absurd rfl h2
          · rename_i e; cases e; exact absurd rfl h1
          · rename_i e; cases e; rfl
        rw [e, List.cons_append, hu, ih]

theorem unescape_item (v : Str) : ZshWords.unescape (replaceChar ':' (S "\\:") (replaceChar '\\' (S "\\\\") v)) = v ∧
    ZshWords.unescape (replaceChar '\\' (S "\\\\") v) = v := by
  induction v with
  | nil => exact ⟨rfl, rfl⟩
  | cons c cs ih =>
    by_cases h1 : c = '\\'
    · subst h1
      constructor
      · simpa [replaceChar, S, ZshWords.unescape] using ih.1
      · simpa [replaceChar, S, ZshWords.unescape] using ih.2
    · have hu : ∀ r, ZshWords.unescape (c :: r) = c :: ZshWords.unescape r := by
        intro r
        rw [ZshWords.unescape.eq_def]
        split
        · rename_i e; cases e
        · rename_i e; cases e; exact absurd rfl h1
        · rename_i e; cases e; exact absurd rfl h1
        · rename_i e; cases e; rfl
      by_cases h2 : c = ':'
      · subst h2
        constructor
        · simpa [replaceChar, S, ZshWords.unescape] using ih.1
        · simpa [replaceChar, S, hu] using ih.2
      · constructor
        · simpa [replaceChar, h1, h2, hu] using ih.1
        · simpa [replaceChar, h1, hu] using ih.2

/-- **C94 (Zsh, values)** `_describe` shows the values and descriptions that the command prints. -/
theorem C94_zsh_values (v : Str × Str) (h1 : '\t' ∉ v.1 ∧ v.1 ≠ []) (h2 : '\t' ∉ v.2) :
    ZshWords.described (zshExecItem (valueLine v)) = (v.1, if v.2 = [] then none else some v.2) := by
  unfold zshExecItem valueLine
  rw [read2_line h1.1 h1.2 h2]
  simp only
  unfold ZshWords.described
  by_cases he : v.2 = []
  · rw [if_pos (by simp [he]), if_pos he]
    have := atColon_item v.1 [] (Or.inl rfl)
    rw [List.append_nil] at this
    rw [this]
    simp [(unescape_item v.1).1]
  · rw [if_neg (by simp [he]), if_neg he]
    have := atColon_item v.1 (':' :: replaceChar '\\' (S "\\\\") v.2) (Or.inr rfl)
    rw [List.append_assoc, show [':'] ++ replaceChar '\\' (S "\\\\") v.2 = ':' :: replaceChar '\\' (S "\\\\") v.2 from rfl, this]
    simp [(unescape_item v.1).1, (unescape_item v.2).2]


/-! ## An example, and what goes wrong -/

/-- The keys `ro` and `rw`, which exclude each other, `size` with a value and `x`, which may be repeated. -/
def execKeys : List KeyLines.Key :=
  [{ name := S "ro", desc := S "read only", excludes := [S "rw"] }, { name := S "rw", desc := S "[w]", excludes := [S "ro"] },
   { name := S "size", takes := .value, desc := [] }, { repeatable := true, name := S "x", takes := .optional, desc := S "a:b" }]

/-- The values of the keys of the example. -/
def execSizes (n : Str) : List (Str × Str) := if n = S "size" then [(S "5G", S "small"), (S "50G", [])] else []

/-- The command `opts` of the example. -/
def execOut (t : Str) : List Str :=
  if t = S "opts" then execKeys.map KeyLines.Key.line
  else if t = S "opts size" then (execSizes (S "size")).map valueLine
  else []

/-- The hypotheses of the theorems hold for these keys; completing lists of them. -/
theorem C94_example : Ok execKeys ∧ Described execKeys ∧
    (∀ n, ∀ v ∈ execSizes n, '\t' ∉ v.1 ∧ v.1 ≠ []) ∧
    fishKeyValueListExec ',' '=' (execKeys.map KeyLines.Key.line) (fun n => (execSizes n).map valueLine) (S "ro,") =
      [(S "ro,size=", []), (S "ro,x", S "a:b")] ∧
    fishKeyValueListExec ',' '=' (execKeys.map KeyLines.Key.line) (fun n => (execSizes n).map valueLine) (S "ro,size=5") =
      [(S "ro,size=5G", S "small"), (S "ro,size=50G", [])] ∧
    bashKeyValueListExec ['='] [':'] id execOut ',' '=' (S "opts") (S "ro,") = [S "ro,size", S "ro,x"] ∧
    bashKeyValueListExec ['='] [':'] id execOut ',' '=' (S "opts") (S "ro,size=5") = [S "5G", S "50G"] ∧
    bashKeyValueListExec [] [':'] id execOut ',' '=' (S "opts") (S "size=4") = [] ∧
    zshKeyValueListExec (S "exec") execOut (S ",") (S "=") (S "opts") = [S "-s", S ",", S "-S", S "=", [], S "(rw)ro[read only]",
      S "(ro)rw[\\[w\\]]", S "size[]: :{exec 'opts size'}", S "*x[a\\:b]:: :{exec 'opts *x'}"] ∧
    fishKeyValuePairExec '=' (execKeys.map KeyLines.Key.pairLine) (fun n => (execSizes n).map valueLine) (S "size=") =
      [(S "size=5G", S "small"), (S "size=50G", [])] ∧
    bashKeyValuePairExec [] [':'] id (fun t => if t = S "opts" then execKeys.map KeyLines.Key.pairLine else execOut t) '=' (S "opts") (S "s") = [S "size="] ∧
    zshExecItem (S "a:b\tc:d") = S "a\\:b:c:d" := by
  refine ⟨⟨?_, by decide +kernel, ?_, ?_⟩, ?_, ?_, by decide +kernel, by decide +kernel, by decide +kernel, by decide +kernel, by decide +kernel,
    by decide +kernel, by decide +kernel, by decide +kernel, by decide +kernel⟩
  · unfold Name; decide +kernel
  · unfold Name; decide +kernel
  · decide +kernel
  · unfold Described; decide +kernel
  · intro n v hv
    unfold execSizes at hv
    split at hv
    · revert v; decide +kernel
    · simp at hv

/-- Without a description the two tabs of a line count as one: Bash loses the excluded keys, so `rw` is offered behind
`ro`, and Zsh takes them for the description. Fish reads the line as it is meant. -/
theorem C94_no_description :
    bashKeyValueListExec [] [] id (fun _ => [S "ro\t\trw", S "rw\tw\t"]) ',' '=' (S "opts") (S "ro,") = [S "ro,rw"] ∧
    zshExecSpec (S "exec") (S "opts") (S "ro\t\trw") = S "ro[rw]" ∧
    fishKeyValueListExec ',' '=' [S "ro\t\trw", S "rw\tw\t"] (fun _ => []) (S "ro,") = [] := by
  decide +kernel

/-- For a repeatable key with a value, Zsh calls the command with the star, as `opts *x`. -/
theorem C94_zsh_star : zshExecSpec (S "exec") (S "opts") (S "*x=\tX\t") = S "*x[X]: :{exec 'opts *x'}" ∧
    ¬ ∃ action, ZshCode.readDef (zshExecSpec (S "exec") (S "opts") (S "*x=\tX\t")) = some action ∧ CallsFor action.action (S "exec") (S "opts") (S "x") := by
  refine ⟨by decide +kernel, ?_⟩
  have h : ZshCode.readDef (zshExecSpec (S "exec") (S "opts") (S "*x=\tX\t")) = some ⟨[], true, S "x", some (S "X"), some (S "{exec 'opts *x'}")⟩ := by
    decide +kernel
  rw [h]
  rintro ⟨d, hd, inner, hi, hw⟩
  cases hd
  have h2 : inner = S "exec 'opts *x'" := by
    have := congrArg (fun o : Option Str => o.map (fun t => (t.drop 1).dropLast)) hi
    simpa [S] using this.symm
  subst h2
  revert hw
  decide +kernel

/-- In Bash the typed key becomes a part of the text that `eval` runs: what `$(reboot)=` completes to is asked by
running `opts $(reboot)`. The word is read by `eval` as more than a word. -/
theorem C94_bash_eval :
    bashKeyValuePairExec [] [] id (fun t => if t = S "opts $(reboot)" then [S "ran"] else []) '=' (S "opts") (S "'$(reboot)=") = [S "$(reboot)=ran"] ∧
    Posix.words (S "opts $(reboot)") = none := by
  decide +kernel

/-- A line without a description shifts the descriptions of the keys behind it in Fish. -/
theorem C94_fish_shift : fishKeyValueListExec ',' '=' [S "a", S "b\tB\t", S "c\tC\t"] (fun _ => []) [] =
    [(S "a", S "B"), (S "b", S "C"), (S "c", [])] := by
  decide +kernel

/-- With a separator other than `=`, a key of a pair is offered with `=` by Bash and Fish. -/
theorem C94_separator :
    fishKeyValuePairExec ':' [S "size=\tSize"] (fun _ => []) (S "s") = [(S "size=", S "Size")] ∧
    bashKeyValuePairExec [] [] id (fun _ => [S "size=\tSize"]) ':' (S "opts") (S "s") = [S "size="] := by
  decide +kernel

/-- Bash does not append the separator to a key of a list that needs a value; Fish does. -/
theorem C94_no_separator :
    bashKeyValueListExec [] [] id (fun _ => [S "size=\tSize\t"]) ',' '=' (S "opts") (S "s") = [S "size"] ∧
    fishKeyValueListExec ',' '=' [S "size=\tSize\t"] (fun _ => []) (S "s") = [(S "size=", S "Size")] := by
  decide +kernel

end CC
