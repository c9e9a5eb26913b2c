import Verif.Spec.ValidatorSpec
/-!
# Lemmas about the validator: what each check accepts
-/

namespace CC

theorem need_ok (b : Bool) : need b = .ok () ↔ b = true := by cases b <;> simp [need]

theorem except_bind_ok {α β} (x : Except Err α) (f : α → Except Err β) (r : β) :
    (x >>= f) = .ok r ↔ ∃ a, x = .ok a ∧ f a = .ok r := by
  cases x with
  | error e => simp [bind, Except.bind]
  | ok a => simp [bind, Except.bind]

theorem except_unit_bind_ok {β} (x : Except Err Unit) (f : Unit → Except Err β) (r : β) :
    (x >>= f) = .ok r ↔ x = .ok () ∧ f () = .ok r := by
  cases x with
  | error e => simp [bind, Except.bind]
  | ok a => simp [bind, Except.bind]

theorem checkType_ok (v : Val) (ts : List Ty) : checkType v ts = .ok () ↔ ∃ t ∈ ts, t.has v = true := by
  simp [checkType, need_ok]

theorem checkEach_ok (f : Val → Except Err Unit) (l : List Val) :
    checkEach f l = .ok () ↔ ∀ v ∈ l, f v = .ok () := by
  induction l with
  | nil => simp [checkEach]
  | cons a l ih => simp [checkEach, except_unit_bind_ok, ih]

theorem checkEachEntry_ok (f : Val → Val → Except Err Unit) (l : List (Key × Val)) :
    checkEachEntry f l = .ok () ↔ ∀ e ∈ l, f e.1.toVal e.2 = .ok () := by
  induction l with
  | nil => simp [checkEachEntry]
  | cons a l ih =>
    obtain ⟨k, v⟩ := a
    rw [checkEachEntry, except_unit_bind_ok, ih, List.forall_mem_cons]

/-- Does the rule accept the value? -/
def Rule.Accepts (q : Rule) (v : Val) : Prop := checkType v q.types = .ok () ∧ q.check v = .ok ()

theorem checkEntries_ok (rules : List Rule) (d : List (Key × Val)) :
    checkEntries rules d = .ok () ↔
      ∀ e ∈ d, ∃ q, rules.find? (fun q => decide (Key.str q.name = e.1)) = some q ∧ q.Accepts e.2 := by
  induction d with
  | nil => simp [checkEntries]
  | cons e d ih =>
    obtain ⟨k, v⟩ := e
    rw [checkEntries, List.forall_mem_cons]
    cases h : rules.find? (fun q => decide (Key.str q.name = k)) with
    | none => simp [bind, Except.bind]
    | some q =>
      simp only [except_unit_bind_ok, ih, Rule.Accepts]
      simp [and_assoc]

theorem checkDictionary_ok (rules : List Rule) (d : List (Key × Val)) :
    checkDictionary (.dict d) rules = .ok () ↔
      (∀ e ∈ d, ∃ q, rules.find? (fun q => decide (Key.str q.name = e.1)) = some q ∧ q.Accepts e.2) ∧
      (∀ q ∈ rules, q.required = true → hasKey d q.name = true) := by
  rw [checkDictionary, except_unit_bind_ok, checkEntries_ok, need_ok]
  simp [List.all_eq_true]
  intro _
  constructor
  · intro h q hq hr
    rcases h q hq with h | h
    · simp [h] at hr
    · exact h
  · intro h q hq
    cases hr : q.required with
    | false => simp
    | true => simp [h q hq hr]

/-- A list of rules says the same as a table. -/
inductive RulesFit : List Rule → List (Str × (Val → Prop)) → Prop
  | nil : RulesFit [] []
  | cons (q : Rule) (row : Str × (Val → Prop)) (rules rows) : q.name = row.1 → (∀ v, q.Accepts v ↔ row.2 v) →
      RulesFit rules rows → row.1 ∉ rows.map (·.1) → RulesFit (q :: rules) (row :: rows)

theorem RulesFit.entry {rules rows} (h : RulesFit rules rows) (k : Key) (v : Val) :
    (∃ q, rules.find? (fun q => decide (Key.str q.name = k)) = some q ∧ q.Accepts v) ↔
      ∃ row ∈ rows, k = .str row.1 ∧ row.2 v := by
  induction h with
  | nil => simp
  | cons q row rules rows hn ha hm hnot ih =>
    simp only [List.mem_cons, List.find?_cons]
    by_cases hk : Key.str q.name = k
    · simp only [decide_eq_true hk]
      constructor
      · rintro ⟨q', hq, hacc⟩
        simp only [Option.some.injEq] at hq
        subst hq
        exact ⟨row, .inl rfl, by rw [← hk, hn], (ha v).1 hacc⟩
      · rintro ⟨r, hr | hr, h1, h2⟩
        · subst hr
          exact ⟨q, rfl, (ha v).2 h2⟩
        · rw [← hk, hn] at h1
          injection h1 with h1
          exact absurd (List.mem_map.2 ⟨r, hr, h1.symm⟩) hnot
    · simp only [decide_eq_false hk]
      rw [ih]
      constructor
      · rintro ⟨r, hr, h1, h2⟩
        exact ⟨r, .inr hr, h1, h2⟩
      · rintro ⟨r, hr | hr, h1, h2⟩
        · subst hr
          rw [← hn] at h1
          exact absurd h1.symm hk
        · exact ⟨r, hr, h1, h2⟩

theorem RulesFit.dictionary {rules rows} (h : RulesFit rules rows) (d : List (Key × Val)) :
    checkDictionary (.dict d) rules = .ok () ↔
      Doc.Entries rows d ∧ ∀ q ∈ rules, q.required = true → hasKey d q.name = true := by
  rw [checkDictionary_ok]
  constructor
  · rintro ⟨h1, h2⟩
    exact ⟨fun e he => (h.entry _ _).1 (h1 e he), h2⟩
  · rintro ⟨h1, h2⟩
    exact ⟨fun e he => (h.entry _ _).2 (h1 e he), h2⟩

theorem hasKey_given (d : List (Key × Val)) (k : Str) : hasKey d k = true ↔ getKey d k ≠ none := by
  simp only [hasKey, getKey]
  rw [Ne, Option.map_eq_none_iff, ← Option.isNone_iff_eq_none, Bool.not_eq_true]
  rw [Option.isNone_eq_false_iff, List.find?_isSome, List.any_eq_true]

theorem checkNonEmptyString_ok (v : Val) : checkNonEmptyString v = .ok () ↔ Doc.NonBlank v := by
  cases v <;> simp [checkNonEmptyString, Doc.NonBlank, need_ok, isBlank]

theorem checkNoSpaces_ok (v : Val) : checkNoSpaces v = .ok () ↔ Doc.NoSpaces v := by
  cases v <;> simp [checkNoSpaces, Doc.NoSpaces, need_ok, containsSpace, and_assoc]

theorem length_one (s : Str) : s.length = 1 ↔ ∃ c, s = [c] := by
  match s with
  | [] => simp
  | [c] => simp
  | a :: b :: r => simp

theorem checkChar_ok (v : Val) : checkChar v = .ok () ↔ Doc.OneChar v := by
  cases v <;> simp [checkChar, Doc.OneChar, need_ok, length_one]

theorem checkNonEmpty_ok (v : Val) : checkNonEmpty v = .ok () ↔ Doc.NonEmptyList v ∨ Doc.NonEmptyDict v := by
  cases v with
  | list l => cases l <;> simp [checkNonEmpty, Doc.NonEmptyList, Doc.NonEmptyDict, need_ok]
  | dict l => cases l <;> simp [checkNonEmpty, Doc.NonEmptyList, Doc.NonEmptyDict, need_ok]
  | _ => simp [checkNonEmpty, Doc.NonEmptyList, Doc.NonEmptyDict]

theorem type_str (v : Val) : checkType v [.str] = .ok () ↔ Doc.Text v := by
  cases v <;> simp [checkType_ok, Ty.has, Doc.Text]

theorem type_bool (v : Val) : checkType v [.bool] = .ok () ↔ Doc.Flag v := by
  cases v <;> simp [checkType_ok, Ty.has, Doc.Flag]

theorem integer_numOf (v : Val) (i : Int) : Doc.Integer v i ↔ numOf v = some i := by
  constructor
  · intro h
    cases h <;> rfl
  · intro h
    match v with
    | .int j =>
      simp only [numOf, Option.some.injEq] at h
      subst h
      exact .int j
    | .bool true =>
      simp only [numOf, Option.some.injEq, if_true] at h
      subst h
      exact .yes
    | .bool false =>
      simp [numOf] at h
      subst h
      exact .no
    | .none | .str _ | .float _ | .list _ | .dict _ => simp [numOf] at h

theorem type_int (v : Val) : checkType v [.int] = .ok () ↔ ∃ i, Doc.Integer v i := by
  simp only [integer_numOf]
  cases v <;> simp [checkType_ok, Ty.has, numOf]

theorem type_word (v : Val) : checkType v [.str, .int] = .ok () ↔ Doc.Word v := by
  simp only [Doc.Word, integer_numOf, Doc.Text]
  cases v <;> simp [checkType_ok, Ty.has, numOf]

theorem type_number (v : Val) : checkType v [.int, .float] = .ok () ↔ Doc.Number v := by
  simp only [Doc.Number, integer_numOf]
  cases v <;> simp [checkType_ok, Ty.has, numOf]

theorem nonBlank_text {v : Val} (h : Doc.NonBlank v) : Doc.Text v := by
  obtain ⟨s, h, _⟩ := h; exact ⟨s, h⟩

theorem acc_nonBlank (n r) (v : Val) : (⟨n, r, [.str], checkNonEmptyString⟩ : Rule).Accepts v ↔ Doc.NonBlank v := by
  simp only [Rule.Accepts, type_str, checkNonEmptyString_ok]
  exact ⟨And.right, fun h => ⟨nonBlank_text h, h⟩⟩

theorem acc_char (n r) (v : Val) : (⟨n, r, [.str], checkChar⟩ : Rule).Accepts v ↔ Doc.OneChar v := by
  simp only [Rule.Accepts, type_str, checkChar_ok]
  exact ⟨And.right, fun ⟨c, h⟩ => ⟨⟨_, h⟩, c, h⟩⟩

theorem acc_flag (n r) (v : Val) : ({ name := n, required := r, types := [.bool] } : Rule).Accepts v ↔ Doc.Flag v := by
  simp [Rule.Accepts, type_bool]

theorem acc_list (n r) (v : Val) : (⟨n, r, [.list], checkNonEmpty⟩ : Rule).Accepts v ↔ Doc.NonEmptyList v := by
  simp only [Rule.Accepts, checkNonEmpty_ok, checkType_ok]
  cases v <;> simp [Ty.has, Doc.NonEmptyList, Doc.NonEmptyDict]

theorem acc_dict (n r) (v : Val) : (⟨n, r, [.dict], checkNonEmpty⟩ : Rule).Accepts v ↔ Doc.NonEmptyDict v := by
  simp only [Rule.Accepts, checkNonEmpty_ok, checkType_ok]
  cases v <;> simp [Ty.has, Doc.NonEmptyList, Doc.NonEmptyDict]

theorem optionsArg_ok (args : List Val) (d : List (Key × Val)) :
    optionsArg args = .ok d ↔ Doc.OptionalDict args d := by
  unfold optionsArg Doc.OptionalDict
  split
  · simp [eq_comm]
  · simp
  · rename_i h1 h2
    simp only [reduceCtorEq, false_iff]
    rintro (h | h)
    · exact h1 h.1
    · exact h2 _ h

theorem command_ok (args : List Val) :
    checkCommand args = .ok () ↔ ∃ d, Doc.OptionalDict args d ∧
      Doc.Entries [(S "path", Doc.NonBlank), (S "path_append", Doc.NonBlank), (S "path_prepend", Doc.NonBlank)] d ∧
      (getKey d (S "path") ≠ none → getKey d (S "path_append") = none ∧ getKey d (S "path_prepend") = none) := by
  have hm : RulesFit [⟨S "path", false, [.str], checkNonEmptyString⟩,
      ⟨S "path_append", false, [.str], checkNonEmptyString⟩,
      ⟨S "path_prepend", false, [.str], checkNonEmptyString⟩]
      [(S "path", Doc.NonBlank), (S "path_append", Doc.NonBlank), (S "path_prepend", Doc.NonBlank)] :=
    .cons _ _ _ _ rfl (acc_nonBlank _ _) (.cons _ _ _ _ rfl (acc_nonBlank _ _)
      (.cons _ _ _ _ rfl (acc_nonBlank _ _) .nil (by decide)) (by decide)) (by decide)
  rw [checkCommand, except_bind_ok]
  simp only [except_unit_bind_ok, optionsArg_ok, hm.dictionary, need_ok]
  constructor
  · rintro ⟨d, hd, ⟨he, _⟩, h1, h2⟩
    refine ⟨d, hd, he, fun hp => ?_⟩
    rw [← hasKey_given] at hp
    simp only [hp, Bool.true_and, Bool.not_eq_true', Bool.eq_false_iff, ne_eq, hasKey_given, Decidable.not_not] at h1 h2
    exact ⟨h1, h2⟩
  · rintro ⟨d, hd, he, h⟩
    refine ⟨d, hd, ⟨he, by simp⟩, ?_, ?_⟩
    · cases hp : hasKey d (S "path") with
      | false => simp
      | true =>
        have := (h ((hasKey_given _ _).1 hp)).1
        cases ha : hasKey d (S "path_append") with
        | false => simp
        | true => exact absurd this ((hasKey_given _ _).1 ha)
    · cases hp : hasKey d (S "path") with
      | false => simp
      | true =>
        have := (h ((hasKey_given _ _).1 hp)).2
        cases ha : hasKey d (S "path_prepend") with
        | false => simp
        | true => exact absurd this ((hasKey_given _ _).1 ha)

theorem checkListAttr_ok (d : List (Key × Val)) (k : Str) (f : Val → Except Err Unit) :
    checkListAttr d k f = .ok () ↔ ∀ l, getKey d k = some (.list l) → ∀ v ∈ l, f v = .ok () := by
  unfold checkListAttr
  split
  · rename_i l hl
    rw [checkEach_ok, hl]
    simp
  · rename_i h
    simp only [true_iff]
    intro l hl
    exact absurd hl (h l)

theorem checkDictAttr_ok (d : List (Key × Val)) (k : Str) (f : Val → Val → Except Err Unit) :
    checkDictAttr d k f = .ok () ↔ ∀ l, getKey d k = some (.dict l) → ∀ e ∈ l, f e.1.toVal e.2 = .ok () := by
  unfold checkDictAttr
  split
  · rename_i l hl
    rw [checkEachEntry_ok, hl]
    simp
  · rename_i h
    simp only [true_iff]
    intro l hl
    exact absurd hl (h l)

theorem checkWord_ok (v : Val) : checkWord v = .ok () ↔ Doc.NonBlank v ∧ Doc.NoSpaces v := by
  simp only [checkWord, except_unit_bind_ok, type_str, checkNonEmptyString_ok, checkNoSpaces_ok]
  exact ⟨fun h => h.2, fun h => ⟨nonBlank_text h.1, h⟩⟩

theorem checkGlob_ok (env : ValEnv) (v : Val) :
    checkGlob env v = .ok () ↔ Doc.NonBlank v ∧ ∃ s, v = .str s ∧ env.globOk s = true := by
  unfold checkGlob
  simp only [except_unit_bind_ok, type_str, checkNonEmptyString_ok]
  cases v <;> simp [Doc.Text, need_ok, Doc.NonBlank]

theorem matches_file (f l : Bool) : RulesFit (
    [⟨S "directory", false, [.str], checkNonEmptyString⟩] ++
    (if f then [⟨S "extensions", false, [.list], checkNonEmpty⟩, { name := S "fuzzy", required := false, types := [.bool] },
      ⟨S "ignore_globs", false, [.list], checkNonEmpty⟩] else []) ++
    (if l then [⟨S "separator", false, [.str], checkChar⟩, { name := S "duplicates", required := false, types := [.bool] }]
      else [])) (Doc.fileTable f l) := by
  cases f <;> cases l
  · exact .cons _ _ _ _ rfl (acc_nonBlank _ _) .nil (by decide)
  · exact .cons _ _ _ _ rfl (acc_nonBlank _ _) (.cons _ _ _ _ rfl (acc_char _ _)
      (.cons _ _ _ _ rfl (acc_flag _ _) .nil (by decide)) (by decide)) (by decide)
  · exact .cons _ _ _ _ rfl (acc_nonBlank _ _) (.cons _ _ _ _ rfl (acc_list _ _)
      (.cons _ _ _ _ rfl (acc_flag _ _) (.cons _ _ _ _ rfl (acc_list _ _) .nil
      (by decide)) (by decide)) (by decide)) (by decide)
  · exact .cons _ _ _ _ rfl (acc_nonBlank _ _) (.cons _ _ _ _ rfl (acc_list _ _)
      (.cons _ _ _ _ rfl (acc_flag _ _) (.cons _ _ _ _ rfl (acc_list _ _) (.cons _ _ _ _ rfl (acc_char _ _)
      (.cons _ _ _ _ rfl (acc_flag _ _) .nil (by decide)) (by decide)) (by decide)) (by decide)) (by decide)) (by decide)

theorem notRequired (f l : Bool) : ∀ q ∈ ([⟨S "directory", false, [.str], checkNonEmptyString⟩] ++
    (if f then [⟨S "extensions", false, [.list], checkNonEmpty⟩, { name := S "fuzzy", required := false, types := [.bool] },
      ⟨S "ignore_globs", false, [.list], checkNonEmpty⟩] else []) ++
    (if l then [⟨S "separator", false, [.str], checkChar⟩, { name := S "duplicates", required := false, types := [.bool] }]
      else []) : List Rule), q.required = false := by
  cases f <;> cases l <;> simp

theorem filedir_ok (env : ValEnv) (f l : Bool) (args : List Val) :
    checkFiledir env f l args = .ok () ↔ ∃ d, Doc.OptionalDict args d ∧ Doc.Entries (Doc.fileTable f l) d ∧
      (∀ l, getKey d (S "extensions") = some (.list l) → ∀ v ∈ l, Doc.NonBlank v ∧ Doc.NoSpaces v) ∧
      (∀ l, getKey d (S "ignore_globs") = some (.list l) →
        ∀ v ∈ l, Doc.NonBlank v ∧ ∃ s, v = .str s ∧ env.globOk s = true) := by
  rw [checkFiledir, except_bind_ok]
  simp only [except_unit_bind_ok, optionsArg_ok, (matches_file f l).dictionary, checkListAttr_ok, checkWord_ok,
    checkGlob_ok]
  constructor
  · rintro ⟨d, hd, ⟨he, _⟩, h1, h2⟩
    exact ⟨d, hd, he, h1, h2⟩
  · rintro ⟨d, hd, he, h1, h2⟩
    refine ⟨d, hd, ⟨he, fun q hq hr => ?_⟩, h1, h2⟩
    rw [notRequired f l q hq] at hr
    exact absurd hr (by simp)

theorem range_nums (a b s : Option Int) : checkRangeNums a b s = .ok () ↔
    ∃ x y z, a = some x ∧ b = some y ∧ s = some z ∧ z ≠ 0 ∧ (0 < z → x ≤ y) ∧ (z < 0 → y ≤ x) := by
  unfold checkRangeNums
  split
  · rename_i x y z
    simp only [except_unit_bind_ok, need_ok, Option.some.injEq]
    constructor
    · rintro ⟨h1, h2, h3⟩
      refine ⟨x, y, z, rfl, rfl, rfl, by simpa using h1, fun h => ?_, fun h => ?_⟩
      · have : ¬ y < x := by simpa [h] using h2
        omega
      · have : ¬ x < y := by simpa [h] using h3
        omega
    · rintro ⟨_, _, _, rfl, rfl, rfl, h1, h2, h3⟩
      refine ⟨by simpa using h1, ?_, ?_⟩
      · simp only [Bool.not_eq_true', Bool.and_eq_false_iff, decide_eq_false_iff_not]
        omega
      · simp only [Bool.not_eq_true', Bool.and_eq_false_iff, decide_eq_false_iff_not]
        omega
  · rename_i h
    simp only [reduceCtorEq, false_iff]
    rintro ⟨x, y, z, h1, h2, h3, _⟩
    exact h x y z h1 h2 h3

theorem range_ok (args : List Val) :
    checkRangeArgs args = .ok () ↔ (∃ start stop a b, args = [start, stop] ∧ Doc.Integer start a ∧
        Doc.Integer stop b ∧ a ≤ b) ∨
      (∃ start stop step a b s, args = [start, stop, step] ∧ Doc.Integer start a ∧
        Doc.Integer stop b ∧ Doc.Integer step s ∧ s ≠ 0 ∧ (0 < s → a ≤ b) ∧ (s < 0 → b ≤ a)) := by
  unfold checkRangeArgs
  simp only [integer_numOf]
  split
  · rename_i start stop
    rw [range_nums]
    constructor
    · rintro ⟨x, y, z, h1, h2, h3, h4, h5, h6⟩
      simp only [Option.some.injEq] at h3
      exact .inl ⟨start, stop, x, y, rfl, h1, h2, h5 (by omega)⟩
    · rintro (⟨_, _, a, b, h, h1, h2, h3⟩ | ⟨_, _, _, _, _, _, h, _⟩)
      · simp only [List.cons.injEq, and_true] at h
        obtain ⟨rfl, rfl⟩ := h
        exact ⟨a, b, 1, h1, h2, rfl, by omega, fun _ => h3, fun h => absurd h (by omega)⟩
      · simp at h
  · rename_i start stop step
    rw [range_nums]
    constructor
    · rintro ⟨x, y, z, h1, h2, h3, h4, h5, h6⟩
      exact .inr ⟨start, stop, step, x, y, z, rfl, h1, h2, h3, h4, h5, h6⟩
    · rintro (⟨_, _, _, _, h, _⟩ | ⟨_, _, _, a, b, s, h, h1, h2, h3, h4, h5, h6⟩)
      · simp at h
      · simp only [List.cons.injEq, and_true] at h
        obtain ⟨rfl, rfl, rfl⟩ := h
        exact ⟨a, b, s, h1, h2, h3, h4, h5, h6⟩
  · rename_i h1 h2
    simp only [reduceCtorEq, false_iff]
    rintro (⟨_, _, _, _, h, _⟩ | ⟨_, _, _, _, _, _, h, _⟩)
    · exact h1 _ _ h
    · exact h2 _ _ _ h

theorem valueList_ok (args : List Val) :
    checkValueList args = .ok () ↔ ∃ d values, args = [.dict d] ∧
      Doc.Entries [(S "values", fun v => (∃ l, v = .list l) ∨ ∃ l, v = .dict l),
        (S "separator", Doc.OneChar), (S "duplicates", Doc.Flag)] d ∧
      getKey d (S "values") = some values ∧
      ((∃ a l, values = .list (a :: l) ∧ ∀ v ∈ a :: l, Doc.Text v) ∨
       (∃ a l, values = .dict (a :: l) ∧ ∀ e ∈ a :: l, Doc.Text e.1.toVal ∧ Doc.Text e.2)) := by
  have hm : RulesFit [{ name := S "values", required := true, types := [.list, .dict] },
      ⟨S "separator", false, [.str], checkChar⟩,
      { name := S "duplicates", required := false, types := [.bool] }]
      [(S "values", fun v => (∃ l, v = .list l) ∨ ∃ l, v = .dict l),
        (S "separator", Doc.OneChar), (S "duplicates", Doc.Flag)] :=
    .cons _ _ _ _ rfl (by intro v; simp only [Rule.Accepts, checkType_ok]; cases v <;> simp [Ty.has])
      (.cons _ _ _ _ rfl (acc_char _ _) (.cons _ _ _ _ rfl (acc_flag _ _) .nil (by decide)) (by decide)) (by decide)
  unfold checkValueList
  split
  · rename_i d
    rw [except_unit_bind_ok, hm.dictionary]
    constructor
    · rintro ⟨⟨he, _⟩, h⟩
      revert h
      split
      · rename_i e hv
        intro h
        simp only [except_unit_bind_ok, need_ok, checkEachEntry_ok, type_str] at h
        match e, h with
        | a :: l, h => exact ⟨d, _, rfl, he, hv, .inr ⟨a, l, rfl, h.2⟩⟩
      · rename_i e hv
        intro h
        simp only [except_unit_bind_ok, need_ok, checkEach_ok, type_str] at h
        match e, h with
        | a :: l, h => exact ⟨d, _, rfl, he, hv, .inl ⟨a, l, rfl, h.2⟩⟩
      · simp
    · rintro ⟨d', values, h, he, hv, hw⟩
      simp only [List.cons.injEq, Val.dict.injEq, and_true] at h
      subst h
      refine ⟨⟨he, fun q hq hr => ?_⟩, ?_⟩
      · simp only [List.mem_cons, List.not_mem_nil, or_false] at hq
        rcases hq with rfl | rfl | rfl
        · rw [hasKey_given, hv]; simp
        · simp at hr
        · simp at hr
      · rcases hw with ⟨a, l, rfl, hw⟩ | ⟨a, l, rfl, hw⟩
        · simp only [hv, except_unit_bind_ok, need_ok, checkEach_ok, type_str]
          exact ⟨rfl, hw⟩
        · simp only [hv, except_unit_bind_ok, need_ok, checkEachEntry_ok, type_str]
          exact ⟨rfl, hw⟩
  · rename_i h
    simp only [reduceCtorEq, false_iff]
    rintro ⟨d, _, h', _⟩
    exact h d h'

theorem numGt_false (env : ValEnv) (a b : Val) (ha : Doc.Number a) (hb : Doc.Number b) :
    numGt env a b = false ↔ Doc.NotAbove env a b := by
  unfold numGt Doc.NotAbove
  rcases ha with ⟨i, ha⟩ | ⟨s, rfl⟩
  · rcases hb with ⟨j, hb⟩ | ⟨t, rfl⟩
    · have hna : ¬ ∃ t, a = .float t := by rintro ⟨t, rfl⟩; cases ha
      have hnb : ¬ ∃ t, b = .float t := by rintro ⟨t, rfl⟩; cases hb
      simp only [integer_numOf] at ha hb ⊢
      simp [ha, hb, hna, hnb]
    · simp only [integer_numOf] at ha ⊢
      simp [ha, numOf]
  · simp [integer_numOf, numOf]

theorem number_ok (env : ValEnv) (types : List Ty) (num : Val → Prop)
    (hnum : ∀ v, checkType v types = .ok () ↔ num v) (hsub : ∀ v, num v → Doc.Number v) (args : List Val) :
    checkNumber env types args = .ok () ↔ ∃ d, Doc.OptionalDict args d ∧
      Doc.Entries [(S "min", num), (S "max", num), (S "help", Doc.NonBlank), (S "suffixes", Doc.NonEmptyDict)] d ∧
      (∀ a b, getKey d (S "min") = some a → getKey d (S "max") = some b → Doc.NotAbove env a b) ∧
      (∀ l, getKey d (S "suffixes") = some (.dict l) → ∀ e ∈ l, Doc.NonBlank e.1.toVal ∧ Doc.NonBlank e.2) := by
  have hm : RulesFit [{ name := S "min", required := false, types := types },
      { name := S "max", required := false, types := types },
      ⟨S "help", false, [.str], checkNonEmptyString⟩,
      ⟨S "suffixes", false, [.dict], checkNonEmpty⟩]
      [(S "min", num), (S "max", num), (S "help", Doc.NonBlank), (S "suffixes", Doc.NonEmptyDict)] :=
    .cons _ _ _ _ rfl (by intro v; simp [Rule.Accepts, hnum]) (.cons _ _ _ _ rfl (by intro v; simp [Rule.Accepts, hnum])
      (.cons _ _ _ _ rfl (acc_nonBlank _ _) (.cons _ _ _ _ rfl (acc_dict _ _) .nil (by simp)) (by simp [S]))
      (by simp [S])) (by simp [S])
  have hin : ∀ (d : List (Key × Val)) (k : Str) (v : Val), getKey d k = some v → (Key.str k, v) ∈ d := by
    intro d k v h
    simp only [getKey, Option.map_eq_some_iff] at h
    obtain ⟨e, he, rfl⟩ := h
    have h1 := List.find?_some he
    have h2 := List.mem_of_find?_eq_some he
    simp only [decide_eq_true_eq] at h1
    rw [← h1]
    exact h2
  have hn : ∀ d, Doc.Entries [(S "min", num), (S "max", num), (S "help", Doc.NonBlank), (S "suffixes", Doc.NonEmptyDict)] d →
      ∀ v, (getKey d (S "min") = some v → Doc.Number v) ∧ (getKey d (S "max") = some v → Doc.Number v) := by
    intro d he v
    constructor
    · intro h
      obtain ⟨row, hr, h1, h2⟩ := he _ (hin d _ _ h)
      simp only [List.mem_cons, List.not_mem_nil, or_false] at hr
      rcases hr with rfl | rfl | rfl | rfl
      · exact hsub _ h2
      all_goals simp [S] at h1
    · intro h
      obtain ⟨row, hr, h1, h2⟩ := he _ (hin d _ _ h)
      simp only [List.mem_cons, List.not_mem_nil, or_false] at hr
      rcases hr with rfl | rfl | rfl | rfl
      · simp [S] at h1
      · exact hsub _ h2
      all_goals simp [S] at h1
  have hs : ∀ k v, checkSuffix k v = .ok () ↔ Doc.NonBlank k ∧ Doc.NonBlank v := by
    intro k v
    simp only [checkSuffix, except_unit_bind_ok, type_str, checkNonEmptyString_ok]
    exact ⟨fun h => h.2.2, fun h => ⟨nonBlank_text h.1, nonBlank_text h.2, h⟩⟩
  have hmm : ∀ d, Doc.Entries [(S "min", num), (S "max", num), (S "help", Doc.NonBlank), (S "suffixes", Doc.NonEmptyDict)] d →
      (checkMinMax env d = .ok () ↔
        ∀ a b, getKey d (S "min") = some a → getKey d (S "max") = some b → Doc.NotAbove env a b) := by
    intro d he
    unfold checkMinMax
    split
    · rename_i a b ha hb
      rw [need_ok, Bool.not_eq_true', numGt_false env a b ((hn d he a).1 ha) ((hn d he b).2 hb), ha, hb]
      simp
    · rename_i h
      simp only [true_iff]
      intro a b ha hb
      exact absurd hb (h a b ha)
  rw [checkNumber, except_bind_ok]
  simp only [except_unit_bind_ok, optionsArg_ok, hm.dictionary, checkDictAttr_ok, hs]
  constructor
  · rintro ⟨d, hd, ⟨he, _⟩, h1, h2⟩
    exact ⟨d, hd, he, (hmm d he).1 h1, h2⟩
  · rintro ⟨d, hd, he, h1, h2⟩
    exact ⟨d, hd, ⟨he, by simp⟩, (hmm d he).2 h1, h2⟩

theorem choices_ok (args : List Val) :
    checkChoices args = .ok () ↔ (∃ l, args = [.list l] ∧ ∀ v ∈ l, Doc.Word v) ∨
      (∃ d, args = [.dict d] ∧ ∀ e ∈ d, Doc.Word e.1.toVal ∧ Doc.Word e.2) := by
  unfold checkChoices
  split
  · simp only [checkEach_ok, type_word]
    simp
  · simp only [checkEachEntry_ok, except_unit_bind_ok, type_word]
    simp
  · rename_i h1 h2
    simp only [reduceCtorEq, false_iff]
    rintro (⟨l, h, _⟩ | ⟨d, h, _⟩)
    · exact h1 l h
    · exact h2 d h

theorem pattern_ok (env : ValEnv) (args : List Val) :
    checkPattern env args = .ok () ↔ ∃ s, args = [.str s] ∧ env.isRegex s = true := by
  unfold checkPattern
  split
  · simp [need_ok]
  · rename_i h
    simp only [reduceCtorEq, false_iff]
    rintro ⟨s, hs, _⟩
    exact h s hs

theorem exec_ok (args : List Val) : checkExec args = .ok () ↔ ∃ s, args = [.str s] := by
  unfold checkExec
  split
  · simp
  · rename_i h
    simp only [reduceCtorEq, false_iff]
    rintro ⟨s, hs⟩
    exact h s hs

theorem date_ok (args : List Val) : checkDate args = .ok () ↔ ∃ v, args = [v] ∧ Doc.NonBlank v := by
  unfold checkDate
  split
  · simp [need_ok, Doc.NonBlank, isBlank]
  · rename_i h
    simp only [reduceCtorEq, false_iff]
    rintro ⟨v, hs, s, rfl, _⟩
    exact h s hs

theorem keyValueListExec_ok (args : List Val) : checkKeyValueListExec args = .ok () ↔
    ∃ p v cmd, args = [.str [p], .str [v], cmd] ∧ Doc.NonBlank cmd := by
  unfold checkKeyValueListExec
  split
  · rename_i p v c
    simp only [need_ok, Bool.and_eq_true, beq_iff_eq, length_one]
    constructor
    · rintro ⟨⟨⟨a, rfl⟩, b, rfl⟩, hc⟩
      exact ⟨a, b, _, rfl, (checkNonEmptyString_ok _).1 (by rw [checkNonEmptyString, need_ok]; exact hc)⟩
    · rintro ⟨a, b, cmd, h, hc⟩
      simp only [List.cons.injEq, Val.str.injEq, and_true] at h
      obtain ⟨rfl, rfl, rfl⟩ := h
      rw [← checkNonEmptyString_ok, checkNonEmptyString, need_ok] at hc
      exact ⟨⟨⟨a, rfl⟩, b, rfl⟩, hc⟩
  · rename_i h
    simp only [reduceCtorEq, false_iff]
    rintro ⟨a, b, cmd, hs, s, rfl, _⟩
    exact h _ _ _ hs

theorem keyValuePairExec_ok (args : List Val) : checkKeyValuePairExec args = .ok () ↔
    ∃ v cmd, args = [.str [v], cmd] ∧ Doc.NonBlank cmd := by
  unfold checkKeyValuePairExec
  split
  · rename_i v c
    simp only [need_ok, Bool.and_eq_true, beq_iff_eq, length_one]
    constructor
    · rintro ⟨⟨b, rfl⟩, hc⟩
      exact ⟨b, _, rfl, (checkNonEmptyString_ok _).1 (by rw [checkNonEmptyString, need_ok]; exact hc)⟩
    · rintro ⟨b, cmd, h, hc⟩
      simp only [List.cons.injEq, Val.str.injEq, and_true] at h
      obtain ⟨rfl, rfl⟩ := h
      rw [← checkNonEmptyString_ok, checkNonEmptyString, need_ok] at hc
      exact ⟨⟨b, rfl⟩, hc⟩
  · rename_i h
    simp only [reduceCtorEq, false_iff]
    rintro ⟨b, cmd, hs, s, rfl, _⟩
    exact h _ _ hs

theorem ip_ok (args : List Val) : checkIpAddress args = .ok () ↔ args = [] ∨
    ∃ s, args = [.str s] ∧ s ∈ [S "ipv4", S "ipv6", S "all", S "ipv4+", S "ipv6+", S "all+"] := by
  unfold checkIpAddress
  split
  · simp
  · rw [need_ok, List.contains_iff_mem]
    simp
  · rename_i h1 h2
    simp only [reduceCtorEq, false_iff]
    rintro (h | ⟨s, h, _⟩)
    · exact h1 h
    · exact h2 s h

theorem void_without {c : Str} (h : voidCompleters.contains c = true) : c ∈ Doc.withoutArguments := by
  rw [List.contains_iff_mem] at h
  have : ∀ x ∈ voidCompleters, x ∈ Doc.withoutArguments := by decide
  exact this c h

theorem without_void {c : Str} (h : c ∈ Doc.withoutArguments) (h1 : c ≠ S "none") (h2 : c ≠ S "command_arg") :
    voidCompleters.contains c = true := by
  have : ∀ x ∈ Doc.withoutArguments, x = S "none" ∨ x = S "command_arg" ∨ voidCompleters.contains x = true := by
    decide
  rcases this c h with h | h | h
  · exact absurd h h1
  · exact absurd h h2
  · exact h

theorem isEmpty_nil {args : List Val} (h : args.isEmpty = true) : args = [] := by
  cases args with
  | nil => rfl
  | cons _ _ => simp at h

theorem simple_sound (env : ValEnv) (ctx : ValCtx) (trace : List Str) (c : Str) (args : List Val)
    (h : checkSimple env ctx trace c args = some (.ok ())) :
    Doc.Simple env c args := by
  unfold checkSimple at h
  by_cases hc : voidCompleters.contains c = true
  · rw [if_pos hc] at h
    simp only [Option.some.injEq, need_ok] at h
    rw [isEmpty_nil h]
    exact .void c (void_without hc)
  rw [if_neg hc] at h
  clear hc
  by_cases hc : c = S "choices"
  · rw [if_pos hc] at h
    subst c
    rcases (choices_ok args).1 (Option.some.inj h) with ⟨l, rfl, hl⟩ | ⟨d, rfl, hd⟩
    · exact .choices l hl
    · exact .choicesDict d hd
  rw [if_neg hc] at h
  clear hc
  by_cases hc : c = S "command"
  · rw [if_pos hc] at h
    subst c
    obtain ⟨d, h1, h2, h3⟩ := (command_ok args).1 (Option.some.inj h)
    exact .command args d h1 h2 h3
  rw [if_neg hc] at h
  clear hc
  by_cases hc : c = S "command_arg"
  · rw [if_pos hc] at h
    subst c
    replace h := Option.some.inj h
    rw [checkCommandArg, except_unit_bind_ok, need_ok] at h
    rw [isEmpty_nil h.1]
    exact .void _ (by decide)
  rw [if_neg hc] at h
  clear hc
  by_cases hc : c = S "date"
  · rw [if_pos hc] at h
    subst c
    obtain ⟨v, rfl, hv⟩ := (date_ok args).1 (Option.some.inj h)
    exact .date v hv
  rw [if_neg hc] at h
  clear hc
  by_cases hc : c = S "directory"
  · rw [if_pos hc] at h
    subst c
    obtain ⟨d, h1, h2, h3, h4⟩ := (filedir_ok env _ _ args).1 (Option.some.inj h)
    exact .filedir _ false false args d (by decide) h1 h2 h3 h4
  rw [if_neg hc] at h
  clear hc
  by_cases hc : c = S "directory_list"
  · rw [if_pos hc] at h
    subst c
    obtain ⟨d, h1, h2, h3, h4⟩ := (filedir_ok env _ _ args).1 (Option.some.inj h)
    exact .filedir _ false true args d (by decide) h1 h2 h3 h4
  rw [if_neg hc] at h
  clear hc
  by_cases hc : c = S "exec"
  · rw [if_pos hc] at h
    subst c
    obtain ⟨s, rfl⟩ := (exec_ok args).1 (Option.some.inj h)
    exact .exec _ s (.inl rfl)
  rw [if_neg hc] at h
  clear hc
  by_cases hc : c = S "exec_fast"
  · rw [if_pos hc] at h
    subst c
    obtain ⟨s, rfl⟩ := (exec_ok args).1 (Option.some.inj h)
    exact .exec _ s (.inr (.inl rfl))
  rw [if_neg hc] at h
  clear hc
  by_cases hc : c = S "exec_internal"
  · rw [if_pos hc] at h
    subst c
    obtain ⟨s, rfl⟩ := (exec_ok args).1 (Option.some.inj h)
    exact .exec _ s (.inr (.inr rfl))
  rw [if_neg hc] at h
  clear hc
  by_cases hc : c = S "file"
  · rw [if_pos hc] at h
    subst c
    obtain ⟨d, h1, h2, h3, h4⟩ := (filedir_ok env _ _ args).1 (Option.some.inj h)
    exact .filedir _ true false args d (by decide) h1 h2 h3 h4
  rw [if_neg hc] at h
  clear hc
  by_cases hc : c = S "file_list"
  · rw [if_pos hc] at h
    subst c
    obtain ⟨d, h1, h2, h3, h4⟩ := (filedir_ok env _ _ args).1 (Option.some.inj h)
    exact .filedir _ true true args d (by decide) h1 h2 h3 h4
  rw [if_neg hc] at h
  clear hc
  by_cases hc : c = S "float"
  · rw [if_pos hc] at h
    subst c
    obtain ⟨d, h1, h2, h3, h4⟩ := (number_ok env _ Doc.Number type_number (fun _ h => h) args).1 (Option.some.inj h)
    exact .number _ _ args d (.inr ⟨rfl, rfl⟩) h1 h2 h3 h4
  rw [if_neg hc] at h
  clear hc
  by_cases hc : c = S "history"
  · rw [if_pos hc] at h
    subst c
    obtain ⟨s, rfl, hs⟩ := (pattern_ok env args).1 (Option.some.inj h)
    exact .regex _ s (.inr rfl) hs
  rw [if_neg hc] at h
  clear hc
  by_cases hc : c = S "integer"
  · rw [if_pos hc] at h
    subst c
    obtain ⟨d, h1, h2, h3, h4⟩ := (number_ok env _ _ type_int (fun _ h => .inl h) args).1 (Option.some.inj h)
    exact .number _ _ args d (.inl ⟨rfl, rfl⟩) h1 h2 h3 h4
  rw [if_neg hc] at h
  clear hc
  by_cases hc : c = S "ip_address"
  · rw [if_pos hc] at h
    subst c
    rcases (ip_ok args).1 (Option.some.inj h) with rfl | ⟨s, rfl, hs⟩
    · exact .ipAddress
    · exact .ipAddressKind s hs
  rw [if_neg hc] at h
  clear hc
  by_cases hc : c = S "key_value_list_exec"
  · rw [if_pos hc] at h
    subst c
    obtain ⟨p, v, cmd, rfl, hc⟩ := (keyValueListExec_ok args).1 (Option.some.inj h)
    exact .keyValueListExec p v cmd hc
  rw [if_neg hc] at h
  clear hc
  by_cases hc : c = S "key_value_pair_exec"
  · rw [if_pos hc] at h
    subst c
    obtain ⟨v, cmd, rfl, hc⟩ := (keyValuePairExec_ok args).1 (Option.some.inj h)
    exact .keyValuePairExec v cmd hc
  rw [if_neg hc] at h
  clear hc
  by_cases hc : c = S "mime_file"
  · rw [if_pos hc] at h
    subst c
    obtain ⟨s, rfl, hs⟩ := (pattern_ok env args).1 (Option.some.inj h)
    exact .regex _ s (.inl rfl) hs
  rw [if_neg hc] at h
  clear hc
  by_cases hc : c = S "none"
  · rw [if_pos hc] at h
    subst c
    replace h := Option.some.inj h
    rw [checkNone, except_unit_bind_ok, need_ok] at h
    rw [isEmpty_nil h.1]
    exact .void _ (by decide)
  rw [if_neg hc] at h
  clear hc
  by_cases hc : c = S "range"
  · rw [if_pos hc] at h
    subst c
    rcases (range_ok args).1 (Option.some.inj h) with ⟨x, y, a, b, rfl, h1, h2, h3⟩ | ⟨x, y, z, a, b, s, rfl, h1, h2, h3, h4, h5, h6⟩
    · exact .range x y a b h1 h2 h3
    · exact .rangeStep x y z a b s h1 h2 h3 h4 h5 h6
  rw [if_neg hc] at h
  clear hc
  by_cases hc : c = S "value_list"
  · rw [if_pos hc] at h
    subst c
    obtain ⟨d, v, rfl, h1, h2, h3⟩ := (valueList_ok args).1 (Option.some.inj h)
    exact .valueList d v h1 h2 h3
  · rw [if_neg hc] at h
    simp at h

theorem simple_complete (env : ValEnv) (ctx : ValCtx) (trace : List Str) (c : Str) (args : List Val)
    (h : Doc.Simple env c args) (h1 : c ≠ S "none") (h2 : c ≠ S "command_arg") :
    checkSimple env ctx trace c args = some (.ok ()) := by
  cases h with
  | void c hc =>
    rw [checkSimple, if_pos (without_void hc h1 h2)]
    rfl
  | choices l hl =>
    exact congrArg some ((choices_ok _).2 (.inl ⟨l, rfl, hl⟩))
  | choicesDict d hd =>
    exact congrArg some ((choices_ok _).2 (.inr ⟨d, rfl, hd⟩))
  | command args d ha hb hc =>
    exact congrArg some ((command_ok _).2 ⟨d, ha, hb, hc⟩)
  | filedir c f l args d hc ha hb hd he =>
    simp only [List.mem_cons, Prod.mk.injEq, List.not_mem_nil, or_false] at hc
    rcases hc with ⟨rfl, rfl, rfl⟩ | ⟨rfl, rfl, rfl⟩ | ⟨rfl, rfl, rfl⟩ | ⟨rfl, rfl, rfl⟩
    all_goals exact congrArg some ((filedir_ok env _ _ _).2 ⟨d, ha, hb, hd, he⟩)
  | regex c s hc hs =>
    rcases hc with rfl | rfl
    all_goals exact congrArg some ((pattern_ok env _).2 ⟨s, rfl, hs⟩)
  | range x y a b ha hb hc =>
    exact congrArg some ((range_ok _).2 (.inl ⟨x, y, a, b, rfl, ha, hb, hc⟩))
  | rangeStep x y z a b s ha hb hc hd he hf =>
    exact congrArg some ((range_ok _).2 (.inr ⟨x, y, z, a, b, s, rfl, ha, hb, hc, hd, he, hf⟩))
  | exec c s hc =>
    rcases hc with rfl | rfl | rfl
    all_goals exact congrArg some ((exec_ok _).2 ⟨s, rfl⟩)
  | keyValueListExec p v cmd hc =>
    exact congrArg some ((keyValueListExec_ok _).2 ⟨p, v, cmd, rfl, hc⟩)
  | keyValuePairExec v cmd hc =>
    exact congrArg some ((keyValuePairExec_ok _).2 ⟨v, cmd, rfl, hc⟩)
  | valueList d v ha hb hc =>
    exact congrArg some ((valueList_ok _).2 ⟨d, v, rfl, ha, hb, hc⟩)
  | date v hv => exact congrArg some ((date_ok _).2 ⟨v, rfl, hv⟩)
  | ipAddress => rfl
  | ipAddressKind s hs => exact congrArg some ((ip_ok _).2 (.inr ⟨s, rfl, hs⟩))
  | number c num args d hc ha hb hd he =>
    rcases hc with ⟨rfl, rfl⟩ | ⟨rfl, rfl⟩
    · exact congrArg some ((number_ok env _ _ type_int (fun _ h => .inl h) _).2 ⟨d, ha, hb, hd, he⟩)
    · exact congrArg some ((number_ok env _ Doc.Number type_number (fun _ h => h) _).2 ⟨d, ha, hb, hd, he⟩)

theorem isSet_iff (d : List (Key × Val)) (k : Str) :
    isSet d k = true ↔ ∃ v, getKey d k = some v ∧ v ≠ .none := by
  unfold isSet
  split
  · rename_i h; simp [h]
  · rename_i h; simp [h]
  · rename_i v h1 h2
    simp only [true_iff]
    exact ⟨v, h2, fun h => h1 h⟩

theorem firstIsCommand_ok (v : Val) (h : firstIsCommand v = .ok true) :
    (∃ rest, v = .list (.str (S "command") :: rest)) ∨ ∃ d, v = .dict d := by
  unfold firstIsCommand at h
  split at h
  · simp at h
  · rename_i a r
    simp only [Except.ok.injEq, decide_eq_true_eq] at h
    exact .inl ⟨r, by rw [h]⟩
  · simp at h
  · simp at h
  · exact .inr ⟨_, rfl⟩
  · simp at h

theorem commandBefore_ok (number : Option Val) (p : Val) (h : commandBefore number p = .ok true) :
    ∃ q m n, p = .dict q ∧ number = some n ∧ getKey q (S "number") = some m ∧
      (∃ i, Doc.Integer m i ∧ Doc.Integer n (i + 1)) ∧
      ((∃ rest, getKey q (S "complete") = some (.list (.str (S "command") :: rest))) ∨
        ∃ d, getKey q (S "complete") = some (.dict d)) := by
  unfold commandBefore at h
  rw [except_bind_ok] at h
  obtain ⟨b, hb, h⟩ := h
  cases b with
  | false => simp at h
  | true =>
    rw [if_pos rfl] at h
    match p, hb, h with
    | .dict d, hb, h =>
      simp only [hasSet, Except.ok.injEq, isSet_iff] at hb
      obtain ⟨v, hv, _⟩ := hb
      simp only [hv, Option.getD_some] at h
      rw [except_bind_ok] at h
      obtain ⟨f, hf, h⟩ := h
      cases f with
      | false => simp at h
      | true =>
        rw [if_pos rfl] at h
        cases hn : getKey d (S "number") with
        | none => simp [hn] at h
        | some m =>
          rw [hn] at h
          have hi : ∃ i, numOf m = some i ∧ number.bind numOf = some (i + 1) := by
            cases m with
            | float _ => simp at h
            | _ =>
              simp only [numOf] at h ⊢
              simpa using h
          obtain ⟨i, hm, hnum⟩ := hi
          cases number with
          | none => simp at hnum
          | some n =>
            refine ⟨d, m, n, rfl, rfl, hn, ⟨i, (integer_numOf _ _).2 hm, (integer_numOf _ _).2 hnum⟩, ?_⟩
            rcases firstIsCommand_ok v hf with ⟨r, rfl⟩ | ⟨e, rfl⟩
            · exact .inl ⟨r, hv⟩
            · exact .inr ⟨e, hv⟩

theorem anyCommandBefore_ok (number : Option Val) (ps : List Val) (h : anyCommandBefore number ps = .ok true) :
    ∃ p ∈ ps, commandBefore number p = .ok true := by
  induction ps with
  | nil => simp [anyCommandBefore] at h
  | cons p ps ih =>
    rw [anyCommandBefore, except_bind_ok] at h
    obtain ⟨b, hb, h⟩ := h
    cases b with
    | true => exact ⟨p, by simp, hb⟩
    | false =>
      obtain ⟨q, hq, h'⟩ := ih h
      exact ⟨q, by simp [hq], h'⟩

theorem commandArg_place (ctx : ValCtx) (trace : List Str) (args : List Val)
    (h : checkCommandArg ctx trace args = .ok ()) : Doc.AfterCommand ctx := by
  rw [checkCommandArg, except_unit_bind_ok, except_unit_bind_ok] at h
  obtain ⟨_, _, h⟩ := h
  cases hp : ctx.positional with
  | none => simp [hp] at h
  | some p =>
    simp only [hp] at h
    rw [except_unit_bind_ok, need_ok, Bool.and_eq_true, isSet_iff, decide_eq_true_eq] at h
    obtain ⟨⟨⟨v, hv, hv1⟩, hv2⟩, h⟩ := h
    cases hd : getKey ctx.definition (S "positionals") with
    | none => simp [hd] at h
    | some w =>
      rw [hd] at h
      match w, h, hd with
      | .list ps, h, hd =>
        simp only [except_bind_ok, need_ok] at h
        obtain ⟨b, hb, rfl⟩ := h
        obtain ⟨x, hx, hc⟩ := anyCommandBefore_ok _ _ hb
        obtain ⟨q, m, n, rfl, hn, hm, hi, hcmd⟩ := commandBefore_ok _ _ hc
        refine ⟨p, v, n, ps, q, m, hp, hv, hv1, ?_, hn, hd, hx, hm, hi, hcmd⟩
        intro hf
        rw [hv, hf] at hv2
        exact hv2 rfl

theorem simple_command_arg (env : ValEnv) (ctx : ValCtx) (trace : List Str) (args : List Val)
    (h : checkSimple env ctx trace (S "command_arg") args = some (.ok ())) : Doc.AfterCommand ctx :=
  commandArg_place ctx trace args (Option.some.inj h)

theorem conditionFunc_ok (l : List Val) : checkConditionFunc l = .ok () ↔ Doc.OptionalName l := by
  unfold checkConditionFunc Doc.OptionalName
  split
  · simp
  · simp
  · simp only [need_ok, Doc.NonBlank, isBlank]
    simp
  · rename_i h1 h2 h3
    simp only [reduceCtorEq, false_iff]
    rintro (h | h | ⟨v, h, s, rfl, _⟩)
    · exact h1 h
    · exact h2 h
    · exact h3 s h

theorem listOptions_ok (v : Val) : checkListOptions v = .ok () ↔
    ∃ d, v = .dict d ∧ Doc.Entries [(S "separator", Doc.OneChar), (S "duplicates", Doc.Flag)] d := by
  have hm : RulesFit [⟨S "separator", false, [.str], checkChar⟩,
      { name := S "duplicates", required := false, types := [.bool] }]
      [(S "separator", Doc.OneChar), (S "duplicates", Doc.Flag)] :=
    .cons _ _ _ _ rfl (acc_char _ _) (.cons _ _ _ _ rfl (acc_flag _ _) .nil (by decide)) (by decide)
  unfold checkListOptions
  cases v with
  | dict d =>
    rw [hm.dictionary]
    simp
  | _ => simp [checkDictionary]

theorem keyDescription_ok (k d : Val) (key : Str) : checkKeyDescription k d = .ok key ↔
    k = .str key ∧ Doc.NonBlank k ∧ Doc.NoSpaces k ∧ (d = .none ∨ Doc.Text d) := by
  have hb : ∀ s : Str, (!isBlank s && !containsSpace s) = true ↔ Doc.NonBlank (.str s) ∧ Doc.NoSpaces (.str s) := by
    intro s
    rw [← checkNonEmptyString_ok, ← checkNoSpaces_ok, checkNonEmptyString, checkNoSpaces, need_ok, need_ok,
      Bool.and_eq_true]
  unfold checkKeyDescription
  split
  · simp only [except_unit_bind_ok, need_ok, hb, Except.ok.injEq, Val.str.injEq]
    constructor
    · rintro ⟨⟨h1, h2⟩, h⟩; exact ⟨h, h1, h2, .inl trivial⟩
    · rintro ⟨h, h1, h2, _⟩; exact ⟨⟨h1, h2⟩, h⟩
  · simp only [except_unit_bind_ok, need_ok, hb, Except.ok.injEq, Val.str.injEq]
    constructor
    · rintro ⟨⟨h1, h2⟩, h⟩; exact ⟨h, h1, h2, .inr ⟨_, rfl⟩⟩
    · rintro ⟨h, h1, h2, _⟩; exact ⟨⟨h1, h2⟩, h⟩
  · rename_i h1 h2
    simp only [reduceCtorEq, false_iff]
    rintro ⟨rfl, _, _, rfl | ⟨s, rfl⟩⟩
    · exact h1 _ rfl rfl
    · exact h2 _ _ rfl rfl

theorem excludes_ok (l : List Val) : checkExcludes l = .ok () ↔
    l = [] ∨ ∃ ex, l = [.list ex] ∧ ∀ x ∈ ex, Doc.NonBlank x := by
  unfold checkExcludes
  split
  · simp
  · rename_i ex
    simp only [checkEach_ok, except_unit_bind_ok, type_str, checkNonEmptyString_ok]
    constructor
    · intro h; exact .inr ⟨ex, rfl, fun x hx => (h x hx).2⟩
    · rintro (h | ⟨ex', h, hx⟩)
      · simp at h
      · simp only [List.cons.injEq, Val.list.injEq, and_true] at h
        subst h
        exact fun x hx' => ⟨nonBlank_text (hx x hx'), hx x hx'⟩
  · rename_i h1 h2
    simp only [reduceCtorEq, false_iff]
    rintro (h | ⟨ex, h, _⟩)
    · exact h1 h
    · exact h2 ex h

theorem keyDef_of (isList : Bool) (k d c : Val) (ex : List Val) (key : Str)
    (h1 : (if isList then decide (ex.length ≤ 1) else ex.isEmpty) = true)
    (h2 : checkKeyDescription k d = .ok key) (h3 : checkExcludes ex = .ok ()) :
    ∃ l, Doc.KeyDef isList (.list (k :: d :: c :: ex)) key c l := by
  obtain ⟨rfl, hb, hs, hd⟩ := (keyDescription_ok _ _ _).1 h2
  rcases (excludes_ok _).1 h3 with rfl | ⟨l, rfl, hl⟩
  · exact ⟨[], .plain _ _ _ hb hs hd⟩
  · cases isList with
    | false => simp at h1
    | true => exact ⟨l, .excluding _ _ _ _ rfl hb hs hd hl⟩

theorem KeyDef.unique {isList : Bool} {x : Val} {k k' c c' ex ex'} (h : Doc.KeyDef isList x k c ex)
    (h' : Doc.KeyDef isList x k' c' ex') : k = k' ∧ c = c' ∧ ex = ex' := by
  cases h <;> cases h' <;> exact ⟨rfl, rfl, rfl⟩

theorem mem_definedKeys (defs : List Val) (k : Val) :
    k ∈ definedKeys defs ↔ ∃ r, .list (k :: r) ∈ defs := by
  induction defs with
  | nil => simp [definedKeys]
  | cons d defs ih =>
    match d with
    | .list (a :: r) =>
      rw [definedKeys, List.mem_cons, ih]
      constructor
      · rintro (rfl | ⟨r', h⟩)
        · exact ⟨r, by simp⟩
        · exact ⟨r', by simp [h]⟩
      · rintro ⟨r', h⟩
        rcases List.mem_cons.1 h with h | h
        · simp only [Val.list.injEq, List.cons.injEq] at h
          exact .inl h.1
        · exact .inr ⟨r', h⟩
    | .list [] | .none | .bool _ | .int _ | .float _ | .str _ | .dict _ =>
      rw [definedKeys, ih]
      · simp
      · simp

theorem excludesExist_ok (keys defs : List Val) : excludesExist keys defs = .ok () ↔
    ∀ a b c ex, .list [a, b, c, .list ex] ∈ defs → ∀ x ∈ ex, x ∈ keys := by
  induction defs with
  | nil => simp [excludesExist]
  | cons d defs ih =>
    by_cases hd : ∃ a b c ex, d = .list [a, b, c, .list ex]
    · obtain ⟨a, b, c, ex, rfl⟩ := hd
      rw [excludesExist, except_unit_bind_ok, need_ok, ih]
      simp only [List.all_eq_true, List.any_eq_true, decide_eq_true_eq]
      constructor
      · rintro ⟨h1, h2⟩ a' b' c' ex' hm x hx
        rcases List.mem_cons.1 hm with h | h
        · simp only [Val.list.injEq, List.cons.injEq, and_true] at h
          obtain ⟨_, _, _, rfl⟩ := h
          obtain ⟨k, hk, rfl⟩ := h1 x hx
          exact hk
        · exact h2 _ _ _ _ h x hx
      · intro h
        exact ⟨fun x hx => ⟨x, h a b c ex (by simp) x hx, rfl⟩,
          fun a' b' c' ex' hm => h a' b' c' ex' (by simp [hm])⟩
    · rw [excludesExist, ih]
      · constructor
        · intro h a b c ex hm
          rcases List.mem_cons.1 hm with h' | h'
          · exact absurd ⟨a, b, c, ex, h'.symm⟩ hd
          · exact h _ _ _ _ h'
        · intro h a b c ex hm
          exact h a b c ex (by simp [hm])
      · intro a b c ex h
        exact hd ⟨a, b, c, ex, h⟩

/-- `command_arg` may be used only after a command. -/
def OkFor (ctx : ValCtx) (c : Str) : Prop := c = S "command_arg" → Doc.AfterCommand ctx

/-- What the loop over the definitions establishes. -/
structure KeyDefs (env : ValEnv) (ok : Str → Prop) (isList : Bool) (seen : List Str) (defs : List Val) : Prop where
  shape : ∀ x ∈ defs, ∃ k c ex, Doc.KeyDef isList x k c ex
  nested : ∀ x ∈ defs, ∀ k c ex, Doc.KeyDef isList x k c ex → c ≠ .none → Doc.Completer env ok c
  fresh : isList = true → ∀ x ∈ defs, ∀ k c ex, Doc.KeyDef isList x k c ex → k ∉ seen
  distinct : isList = true →
    defs.Pairwise (fun x y => ∀ k c ex k' c' ex', Doc.KeyDef true x k c ex → Doc.KeyDef true y k' c' ex' → k ≠ k')

theorem KeyDefs.nil (env ok isList seen) : KeyDefs env ok isList seen [] :=
  ⟨by simp, by simp, by simp, by simp⟩

theorem KeyDefs.cons {env ok isList seen} {x : Val} {defs : List Val} {key : Str} {c : Val} {ex : List Val}
    (hk : Doc.KeyDef isList x key c ex) (hs : isList = true → key ∉ seen)
    (hc : c ≠ .none → Doc.Completer env ok c) (h : KeyDefs env ok isList (key :: seen) defs) :
    KeyDefs env ok isList seen (x :: defs) := by
  refine ⟨fun y hy => ?_, fun y hy k c' ex' hd => ?_, fun hl y hy k c' ex' hd => ?_, fun hl => ?_⟩
  · rcases List.mem_cons.1 hy with rfl | hy
    · exact ⟨_, _, _, hk⟩
    · exact h.shape y hy
  · rcases List.mem_cons.1 hy with rfl | hy
    · obtain ⟨_, rfl, _⟩ := KeyDef.unique hk hd
      exact hc
    · exact h.nested y hy _ _ _ hd
  · rcases List.mem_cons.1 hy with rfl | hy
    · obtain ⟨rfl, _, _⟩ := KeyDef.unique hk hd
      exact hs hl
    · have := h.fresh hl y hy _ _ _ hd
      simp only [List.mem_cons, not_or] at this
      exact this.2
  · refine List.pairwise_cons.2 ⟨fun y hy k c' ex' k' c'' ex'' h1 h2 => ?_, h.distinct hl⟩
    subst hl
    obtain ⟨rfl, _, _⟩ := KeyDef.unique hk h1
    have := h.fresh rfl y hy _ _ _ h2
    simp only [List.mem_cons, not_or] at this
    exact fun h => this.1 h.symm

mutual
theorem complete_sound (env : ValEnv) (ctx : ValCtx) (trace : List Str) (args : List Val) (t : List Str)
    (h : checkComplete env ctx trace args = .ok t) : Doc.Completer env (OkFor ctx) (.list args) := by
  rw [checkComplete.eq_def] at h
  split at h
  · rename_i c args
    cases hs : checkSimple env ctx trace c args with
    | some r =>
      simp only [hs] at h
      rw [except_unit_bind_ok] at h
      rw [h.1] at hs
      exact .simple c args (fun hc => simple_command_arg env ctx trace args (hc ▸ hs)) (simple_sound _ _ _ _ _ hs)
    | none =>
      simp only [hs] at h
      clear hs
      by_cases h1 : c = S "combine"
      · subst h1
        rw [if_pos rfl] at h
        split at h
        · rename_i cmds
          simp only [except_unit_bind_ok, need_ok, decide_eq_true_eq] at h
          exact .combine cmds h.1 (completers_sound env ctx _ cmds t h.2)
        · simp at h
      rw [if_neg h1] at h
      by_cases h2 : c = S "list"
      · subst h2
        rw [if_pos rfl] at h
        split at h
        · rename_i cmd
          exact .list _ (complete_sound env ctx _ cmd t h)
        · rename_i cmd opts
          simp only [except_unit_bind_ok, listOptions_ok] at h
          obtain ⟨⟨d, rfl, hd⟩, h⟩ := h
          exact .listOptions _ d (complete_sound env ctx _ cmd t h) hd
        · simp at h
      rw [if_neg h2] at h
      by_cases h3 : c = S "prefix"
      · subst h3
        rw [if_pos rfl] at h
        split at h
        · rename_i p cmd
          exact .prefix p _ (complete_sound env ctx _ cmd t h)
        · simp at h
      rw [if_neg h3] at h
      by_cases h4 : c = S "key_value_list"
      · subst h4
        rw [if_pos rfl] at h
        split at h
        · rename_i ps vs values cond
          rw [except_unit_bind_ok, except_unit_bind_ok, except_bind_ok] at h
          simp only [conditionFunc_ok, need_ok, except_unit_bind_ok, Bool.and_eq_true, beq_iff_eq,
            length_one] at h
          obtain ⟨hc, ⟨⟨⟨a, rfl⟩, b, rfl⟩, hne⟩, t', hk, hex, _⟩ := h
          have hd := keyValues_sound env ctx true [] _ values t' hk
          rw [excludesExist_ok] at hex
          refine .keyValueList a b values cond ?_ hc hd.shape (hd.distinct rfl) ?_ hd.nested
          · rintro rfl; simp at hne
          · intro x hx k c ex hkd e he
            cases hkd with
            | plain => simp at he
            | excluding =>
              obtain ⟨r, hr⟩ := (mem_definedKeys _ _).1 (hex _ _ _ _ hx e he)
              obtain ⟨k', c', ex', hy⟩ := hd.shape _ hr
              refine ⟨_, hr, k', c', ex', hy, ?_⟩
              cases hy <;> rfl
        · simp at h
      rw [if_neg h4] at h
      by_cases h5 : c = S "key_value_pair"
      · subst h5
        rw [if_pos rfl] at h
        split at h
        · rename_i vs values cond
          simp only [except_unit_bind_ok, conditionFunc_ok, need_ok, Bool.and_eq_true, beq_iff_eq,
            length_one] at h
          obtain ⟨hc, ⟨⟨a, rfl⟩, hne⟩, hk⟩ := h
          have hd := keyValues_sound env ctx false [] _ values t hk
          refine .keyValuePair a values cond ?_ hc hd.shape hd.nested
          rintro rfl; simp at hne
        · simp at h
      · rw [if_neg h5] at h
        simp at h
  · simp at h
  termination_by sizeOf args
theorem completers_sound (env : ValEnv) (ctx : ValCtx) (trace : List Str) (cmds : List Val) (t : List Str)
    (h : checkCompleters env ctx trace cmds = .ok t) : ∀ v ∈ cmds, Doc.Completer env (OkFor ctx) v := by
  rw [checkCompleters.eq_def] at h
  split at h
  · simp
  · rename_i c r
    rw [except_bind_ok] at h
    obtain ⟨t', h1, h2⟩ := h
    have a := complete_sound env ctx _ c t' h1
    have b := completers_sound env ctx _ r t h2
    intro v hv
    rcases List.mem_cons.1 hv with rfl | hv
    · exact a
    · exact b v hv
  · simp at h
  termination_by sizeOf cmds
theorem keyValues_sound (env : ValEnv) (ctx : ValCtx) (isList : Bool) (seen : List Str) (trace : List Str)
    (defs : List Val) (t : List Str) (h : checkKeyValues env ctx isList seen trace defs = .ok t) :
    KeyDefs env (OkFor ctx) isList seen defs := by
  rw [checkKeyValues.eq_def] at h
  split at h
  · exact .nil _ _ _ _
  · rename_i k d ex r
    rw [except_unit_bind_ok, except_bind_ok] at h
    obtain ⟨h1, key, h2, h⟩ := h
    rw [except_unit_bind_ok, except_unit_bind_ok, need_ok] at h
    obtain ⟨h3, h4, h5⟩ := h
    rw [need_ok] at h1
    obtain ⟨l, hk⟩ := keyDef_of isList k d .none ex key h1 h2 h4
    refine .cons hk (fun hl => ?_) (fun hn => absurd rfl hn) (keyValues_sound env ctx isList _ _ r t h5)
    simpa [hl] using h3
  · rename_i k d c ex r
    rw [except_unit_bind_ok, except_bind_ok] at h
    obtain ⟨h1, key, h2, h⟩ := h
    rw [except_unit_bind_ok, except_bind_ok, need_ok] at h
    obtain ⟨h3, t', hc, h⟩ := h
    rw [except_unit_bind_ok] at h
    obtain ⟨h4, h5⟩ := h
    rw [need_ok] at h1
    obtain ⟨l, hk⟩ := keyDef_of isList k d (.list c) ex key h1 h2 h4
    refine .cons hk (fun hl => ?_) (fun _ => complete_sound env ctx _ c t' hc) (keyValues_sound env ctx isList _ _ r t h5)
    simpa [hl] using h3
  · simp at h
  termination_by sizeOf defs
end

/-- The value is a list that the validator accepts, whatever was checked before. -/
def Accepted (env : ValEnv) (ctx : ValCtx) (v : Val) : Prop :=
  ∃ args, v = .list args ∧ ∀ trace, ∃ t, checkComplete env ctx trace args = .ok t

theorem completers_accepted (env : ValEnv) (ctx : ValCtx) (cmds : List Val)
    (h : ∀ v ∈ cmds, Accepted env ctx v) (trace : List Str) : ∃ t, checkCompleters env ctx trace cmds = .ok t := by
  induction cmds generalizing trace with
  | nil => exact ⟨trace, by rw [checkCompleters]⟩
  | cons v r ih =>
    obtain ⟨args, rfl, ha⟩ := h v (by simp)
    obtain ⟨t, ht⟩ := ha trace
    obtain ⟨t', ht'⟩ := ih (fun v hv => h v (by simp [hv])) t
    exact ⟨t', by rw [checkCompleters, ht]; exact ht'⟩

theorem keyDef_checks {isList : Bool} {x : Val} {k : Str} {c : Val} {ex : List Val}
    (h : Doc.KeyDef isList x k c ex) : ∃ d l, x = .list (.str k :: d :: c :: l) ∧
      (if isList then decide (l.length ≤ 1) else l.isEmpty) = true ∧
      checkKeyDescription (.str k) d = .ok k ∧ checkExcludes l = .ok () := by
  cases h
  · rename_i d h1 h2 h3
    exact ⟨d, [], rfl, by simp, (keyDescription_ok _ _ _).2 ⟨rfl, by assumption, by assumption, by assumption⟩, rfl⟩
  · rename_i d _ _ _ _ _
    exact ⟨d, [.list ex], rfl, by simp [*], (keyDescription_ok _ _ _).2 ⟨rfl, by assumption, by assumption, by assumption⟩,
      (excludes_ok _).2 (.inr ⟨ex, rfl, by assumption⟩)⟩

theorem keyValues_accepted (env : ValEnv) (ctx : ValCtx) (isList : Bool) (defs : List Val)
    (hs : ∀ x ∈ defs, ∃ k c ex, Doc.KeyDef isList x k c ex)
    (hn : ∀ x ∈ defs, ∀ k c ex, Doc.KeyDef isList x k c ex → c ≠ .none → Accepted env ctx c)
    (hd : isList = true → defs.Pairwise (fun x y =>
      ∀ k c ex k' c' ex', Doc.KeyDef true x k c ex → Doc.KeyDef true y k' c' ex' → k ≠ k'))
    (seen : List Str) (hf : isList = true → ∀ x ∈ defs, ∀ k c ex, Doc.KeyDef isList x k c ex → k ∉ seen)
    (trace : List Str) : ∃ t, checkKeyValues env ctx isList seen trace defs = .ok t := by
  induction defs generalizing trace seen with
  | nil => exact ⟨trace, by rw [checkKeyValues]⟩
  | cons x r ih =>
    obtain ⟨k, c, ex, hk⟩ := hs x (by simp)
    have ih' := ih (fun y hy => hs y (by simp [hy])) (fun y hy => hn y (by simp [hy]))
      (fun hl => (List.pairwise_cons.1 (hd hl)).2) (k :: seen) (fun hl y hy k' c' ex' hy' => by
        simp only [List.mem_cons, not_or]
        refine ⟨fun h => ?_, hf hl y (by simp [hy]) _ _ _ hy'⟩
        have := (List.pairwise_cons.1 (hd hl)).1 y hy k c ex k' c' ex' (hl ▸ hk) (hl ▸ hy')
        exact this h.symm)
    have hseen : (!(isList && seen.contains k)) = true := by
      cases isList with
      | false => rfl
      | true =>
        have := hf rfl x (by simp) _ _ _ hk
        simpa using this
    obtain ⟨d, l, rfl, h1, h2, h3⟩ := keyDef_checks hk
    by_cases hc : c = .none
    · subst hc
      obtain ⟨t, ht⟩ := ih' trace
      refine ⟨t, ?_⟩
      rw [checkKeyValues, h1, h2, h3]
      simp only [bind, Except.bind, need, if_true, hseen]
      exact ht
    · obtain ⟨args, rfl, ha⟩ := hn _ (by simp) _ _ _ hk hc
      obtain ⟨t0, ht0⟩ := ha trace
      obtain ⟨t, ht⟩ := ih' t0
      refine ⟨t, ?_⟩
      rw [checkKeyValues, h1, h2, h3, ht0]
      simp only [bind, Except.bind, need, if_true, hseen]
      exact ht

theorem complete_accepts (env : ValEnv) (ctx : ValCtx) (ok : Str → Prop)
    (hok : ∀ c, ok c → c ≠ S "none" ∧ c ≠ S "command_arg") (v : Val) (h : Doc.Completer env ok v) :
    Accepted env ctx v := by
  induction h with
  | simple c args hc hs =>
    refine ⟨_, rfl, fun trace => ⟨trace, ?_⟩⟩
    have := simple_complete env ctx trace c args hs (hok c hc).1 (hok c hc).2
    rw [checkComplete.eq_def]
    simp only [this]
    rfl
  | combine cmds hl _ ih =>
    refine ⟨_, rfl, fun trace => ?_⟩
    obtain ⟨t, ht⟩ := completers_accepted env ctx cmds ih (trace ++ [S "combine"])
    refine ⟨t, ?_⟩
    have hs : checkSimple env ctx trace (S "combine") [.list cmds] = none := rfl
    rw [checkComplete.eq_def]
    simp only [hs, if_true]
    rw [decide_eq_true hl]
    exact ht
  | list cmd _ ih =>
    refine ⟨_, rfl, fun trace => ?_⟩
    obtain ⟨args, rfl, ha⟩ := ih
    obtain ⟨t, ht⟩ := ha (trace ++ [S "list"])
    refine ⟨t, ?_⟩
    have hs : checkSimple env ctx trace (S "list") [.list args] = none := rfl
    rw [checkComplete.eq_def]
    simp only [hs, if_true]
    exact ht
  | listOptions cmd d _ hd ih =>
    refine ⟨_, rfl, fun trace => ?_⟩
    obtain ⟨args, rfl, ha⟩ := ih
    obtain ⟨t, ht⟩ := ha (trace ++ [S "list"])
    refine ⟨t, ?_⟩
    have hs : checkSimple env ctx trace (S "list") [.list args, .dict d] = none := rfl
    have hl : checkListOptions (.dict d) = .ok () := (listOptions_ok _).2 ⟨d, rfl, hd⟩
    rw [checkComplete.eq_def]
    simp only [hs, hl, if_true]
    exact ht
  | «prefix» p cmd _ ih =>
    refine ⟨_, rfl, fun trace => ?_⟩
    obtain ⟨args, rfl, ha⟩ := ih
    obtain ⟨t, ht⟩ := ha (trace ++ [S "prefix"])
    refine ⟨t, ?_⟩
    have hs : checkSimple env ctx trace (S "prefix") [.str p, .list args] = none := rfl
    rw [checkComplete.eq_def]
    simp only [hs]
    exact ht
  | keyValueList p w defs cond hne hc hs hd hex _ ih =>
    refine ⟨_, rfl, fun trace => ?_⟩
    obtain ⟨t, ht⟩ := keyValues_accepted env ctx true defs hs ih (fun _ => hd) [] (by simp)
      (trace ++ [S "key_value_list"])
    refine ⟨t, ?_⟩
    have hs' : checkSimple env ctx trace (S "key_value_list") (.str [p] :: .str [w] :: .list defs :: cond) = none := rfl
    have hc' := (conditionFunc_ok cond).2 hc
    have hx : excludesExist (definedKeys defs) defs = .ok () := by
      rw [excludesExist_ok]
      intro a b c ex hm x hx
      obtain ⟨k, c', ex', hk⟩ := hs _ hm
      have : ex' = ex := by cases hk; rfl
      subst this
      obtain ⟨y, hy, k', c'', ex'', hk', rfl⟩ := hex _ hm _ _ _ hk x hx
      rw [mem_definedKeys]
      cases hk' with
      | plain d => exact ⟨_, hy⟩
      | excluding d => exact ⟨_, hy⟩
    have hn : (([p] : Str).length == 1 && ([w] : Str).length == 1 && !defs.isEmpty) = true := by
      cases defs with
      | nil => exact absurd rfl hne
      | cons _ _ => rfl
    rw [checkComplete.eq_def]
    simp only [hs', hc', ht, hx, hn]
    rfl
  | keyValuePair w defs cond hne hc hs _ ih =>
    refine ⟨_, rfl, fun trace => ?_⟩
    obtain ⟨t, ht⟩ := keyValues_accepted env ctx false defs hs ih (by simp) [] (by simp)
      (trace ++ [S "key_value_pair"])
    refine ⟨t, ?_⟩
    have hs' : checkSimple env ctx trace (S "key_value_pair") (.str [w] :: .list defs :: cond) = none := rfl
    have hc' := (conditionFunc_ok cond).2 hc
    have hn : (([w] : Str).length == 1 && !defs.isEmpty) = true := by
      cases defs with
      | nil => exact absurd rfl hne
      | cons _ _ => rfl
    rw [checkComplete.eq_def]
    simp only [hs', hc', ht, hn]
    rfl

end CC
