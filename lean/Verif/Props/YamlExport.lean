import Verif.Lemmas.YamlLines
import Verif.Props.Dictionary
/-!
# C75: the YAML export can be read back
-/

namespace CC
open YamlText

/-! ## The entries that are written -/

/-- The entry that a field contributes. -/
def fieldEntry (d : List (Key × Val)) (f : YamlField) : Option (Str × Val) :=
  if f.includeIf.test (f.get d) then some (f.name, f.get d) else none

/-- The entries that a table of fields contributes. -/
def fieldEntries (fs : List YamlField) (d : List (Key × Val)) : List (Str × Val) := fs.filterMap (fieldEntry d)

theorem fieldLine_eq (d : List (Key × Val)) (fs : List YamlField) :
    fs.filterMap (fieldLine d) = (fieldEntries fs d).map (fun e => List.replicate 2 ' ' ++ entryText e) := by
  unfold fieldEntries
  induction fs with
  | nil => rfl
  | cons f fs ih =>
    simp only [List.filterMap_cons, fieldLine, fieldEntry]
    cases f.includeIf.test (f.get d) with
    | false => simpa using ih
    | true =>
      simp only [if_true, List.map_cons, ih, List.cons.injEq, and_true]
      simp [entryText, S, List.append_assoc, List.replicate]

theorem commandLine_eq (d : List (Key × Val)) (fs : List YamlField) :
    fs.filterMap (commandLine d) = (fieldEntries fs d).map (fun e => entryText e ++ ['\n']) := by
  unfold fieldEntries
  induction fs with
  | nil => rfl
  | cons f fs ih =>
    simp only [List.filterMap_cons, commandLine, fieldEntry]
    cases f.includeIf.test (f.get d) with
    | false => simpa using ih
    | true =>
      simp only [if_true, List.map_cons, ih, List.cons.injEq, and_true]
      simp [entryText, S, List.append_assoc]

theorem named_append (a b : List (Str × Val)) : named (a ++ b) = named a ++ named b := by simp [named]

theorem fieldEntries_cons {d : List (Key × Val)} {f : YamlField} {fs : List YamlField} (x : Option Val)
    (h : getKey d f.name = x) (h0 : f.includeIf.test f.default = false)
    (h1 : ∀ v, x = some v → f.includeIf.test v = true) :
    named (fieldEntries (f :: fs) d) = entry? f.name x ++ named (fieldEntries fs d) := by
  unfold fieldEntries
  rw [List.filterMap_cons]
  unfold fieldEntry YamlField.get
  rw [h]
  cases x with
  | none => simp [h0, entry?]
  | some v => simp [h1 v rfl, entry?, named]

theorem test_str (o : Option Str) : ∀ v, o.map Val.str = some v → IncludeIf.notNone.test v = true := by
  intro v h
  cases o with
  | none => cases h
  | some s => simp only [Option.map_some, Option.some.injEq] at h; subst h; simp [IncludeIf.test]

theorem test_true (b : Bool) : ∀ v, trueVal b = some v → IncludeIf.isTrue.test v = true := by
  intro v h
  cases b with
  | false => cases h
  | true => simp only [trueVal, if_true, Option.some.injEq] at h; subst h; rfl

theorem test_ext (b : ExtBool) : ∀ v, extVal b = some v → IncludeIf.notInherit.test v = true := by
  intro v h
  cases b with
  | inherit => cases h
  | val b => simp only [extVal, Option.some.injEq] at h; subst h; simp [IncludeIf.test]

theorem test_sep (b : LongSep) : ∀ v, sepVal b = some v → IncludeIf.notInherit.test v = true := by
  intro v h
  cases b <;> cases h <;> decide

theorem test_list (l : Option (List Val)) : ∀ v, listVal l = some v → IncludeIf.notNone.test v = true := by
  intro v h
  match l with
  | none => cases h
  | some [] => cases h
  | some (x :: xs) => cases h; simp [IncludeIf.test]

theorem test_groups (l : Option (List Str)) :
    ∀ v, l.map (fun g => Val.list (g.map .str)) = some v → IncludeIf.notNone.test v = true := by
  intro v h
  cases l with
  | none => cases h
  | some s => cases h; simp [IncludeIf.test]

theorem option_written (o : Opt) :
    optEntries o = (.str (S "option_strings"), .list (o.strings.map .str)) ::
      named (fieldEntries optionFields (optEntries o)) := by
  have hk := optEntries_get o
  have e : optEntries o = [(.str (S "option_strings"), .list (o.strings.map .str))] ++
    entry? (S "metavar") (o.metavar.map .str) ++
    entry? (S "help") (o.help.map .str) ++
    entry? (S "optional_arg") (trueVal o.optionalArg) ++
    entry? (S "groups") (o.groups.map (fun g => .list (g.map .str))) ++
    entry? (S "repeatable") (extVal o.repeatable) ++
    entry? (S "final") (trueVal o.final) ++
    entry? (S "hidden") (trueVal o.hidden) ++
    entry? (S "complete") (listVal o.complete) ++
    entry? (S "nosort") (trueVal o.nosort) ++
    entry? (S "when") (o.when_.map .str) ++
    entry? (S "capture") (o.capture.map .str) ++
    entry? (S "long_opt_arg_sep") (sepVal o.longSep) := rfl
  generalize optEntries o = d at hk e ⊢
  unfold optionFields
  rw [fieldEntries_cons (o.metavar.map .str) (by rw [hk]; cases o.metavar <;> rfl) rfl (test_str _),
    fieldEntries_cons (o.help.map .str) (by rw [hk]; cases o.help <;> rfl) rfl (test_str _),
    fieldEntries_cons (trueVal o.optionalArg) (by rw [hk]; cases o.optionalArg <;> rfl) rfl (test_true _),
    fieldEntries_cons (o.groups.map (fun g => .list (g.map .str))) (by rw [hk]; cases o.groups <;> rfl) rfl
      (test_groups _),
    fieldEntries_cons (extVal o.repeatable) (by rw [hk]; cases o.repeatable <;> rfl) rfl (test_ext _),
    fieldEntries_cons (trueVal o.final) (by rw [hk]; cases o.final <;> rfl) rfl (test_true _),
    fieldEntries_cons (trueVal o.hidden) (by rw [hk]; cases o.hidden <;> rfl) rfl (test_true _),
    fieldEntries_cons (listVal o.complete) (by
      rw [hk]; unfold listVal; cases o.complete with | none => rfl | some l => cases l <;> rfl) rfl (test_list _),
    fieldEntries_cons (trueVal o.nosort) (by rw [hk]; cases o.nosort <;> rfl) rfl (test_true _),
    fieldEntries_cons (o.when_.map .str) (by rw [hk]; cases o.when_ <;> rfl) rfl (test_str _),
    fieldEntries_cons (o.capture.map .str) (by rw [hk]; cases o.capture <;> rfl) rfl (test_str _),
    fieldEntries_cons (sepVal o.longSep) (by rw [hk]; cases o.longSep <;> rfl) rfl (test_sep _)]
  rw [e]
  simp [fieldEntries, named, List.append_assoc]

theorem positional_written (p : Pos) :
    posEntries p = (.str (S "number"), .int p.number) ::
      named (fieldEntries positionalFields (posEntries p)) := by
  have hk := posEntries_get p
  have e : posEntries p = [(.str (S "number"), .int p.number)] ++
    entry? (S "metavar") (p.metavar.map .str) ++
    entry? (S "help") (p.help.map .str) ++
    entry? (S "repeatable") (trueVal p.repeatable) ++
    entry? (S "complete") (listVal (some p.complete)) ++
    entry? (S "nosort") (trueVal p.nosort) ++
    entry? (S "when") (p.when_.map .str) ++
    entry? (S "capture") (p.capture.map .str) := rfl
  generalize posEntries p = d at hk e ⊢
  unfold positionalFields
  rw [fieldEntries_cons (p.metavar.map .str) (by rw [hk]; cases p.metavar <;> rfl) rfl (test_str _),
    fieldEntries_cons (p.help.map .str) (by rw [hk]; cases p.help <;> rfl) rfl (test_str _),
    fieldEntries_cons (trueVal p.repeatable) (by rw [hk]; cases p.repeatable <;> rfl) rfl (test_true _),
    fieldEntries_cons (listVal (some p.complete)) (by rw [hk]; cases p.complete <;> rfl) rfl (test_list _),
    fieldEntries_cons (trueVal p.nosort) (by rw [hk]; cases p.nosort <;> rfl) rfl (test_true _),
    fieldEntries_cons (p.when_.map .str) (by rw [hk]; cases p.when_ <;> rfl) rfl (test_str _),
    fieldEntries_cons (p.capture.map .str) (by rw [hk]; cases p.capture <;> rfl) rfl (test_str _)]
  rw [e]
  simp [fieldEntries, named, List.append_assoc]

theorem command_written (path : Str) (d : CmdData) :
    cmdEntries path d = (.str (S "prog"), .str path) :: (named (fieldEntries commandFields (cmdEntries path d)) ++
      entry? (S "options") (listVal (some (d.options.map optionToDict))) ++
      entry? (S "positionals") (listVal (some (d.positionals.map positionalToDict)))) := by
  have hk := cmdEntries_get path d
  have e : cmdEntries path d = [(.str (S "prog"), .str path)] ++
    entry? (S "aliases") (listVal (some (d.aliases.map .str))) ++
    entry? (S "help") (d.help.map .str) ++
    entry? (S "wraps") (d.wraps.map .str) ++
    entry? (S "abbreviate_commands") (extVal d.abbreviateCommands) ++
    entry? (S "abbreviate_options") (extVal d.abbreviateOptions) ++
    entry? (S "inherit_options") (extVal d.inheritOptions) ++
    entry? (S "options") (listVal (some (d.options.map optionToDict))) ++
    entry? (S "positionals") (listVal (some (d.positionals.map positionalToDict))) := rfl
  generalize cmdEntries path d = es at hk e ⊢
  unfold commandFields
  rw [fieldEntries_cons (listVal (some (d.aliases.map .str))) (by rw [hk]; cases d.aliases <;> rfl) rfl (test_list _),
    fieldEntries_cons (d.help.map .str) (by rw [hk]; cases d.help <;> rfl) rfl (test_str _),
    fieldEntries_cons (d.wraps.map .str) (by rw [hk]; cases d.wraps <;> rfl) rfl (test_str _),
    fieldEntries_cons (extVal d.abbreviateCommands) (by rw [hk]; cases d.abbreviateCommands <;> rfl) rfl (test_ext _),
    fieldEntries_cons (extVal d.abbreviateOptions) (by rw [hk]; cases d.abbreviateOptions <;> rfl) rfl (test_ext _),
    fieldEntries_cons (extVal d.inheritOptions) (by rw [hk]; cases d.inheritOptions <;> rfl) rfl (test_ext _)]
  rw [e]
  simp [fieldEntries, named, List.append_assoc]

/-! ## Portable entries -/

theorem portableList_strs {l : List Str} (h : ∀ s ∈ l, BasicText s) : PortableList (l.map .str) := by
  induction l with
  | nil => trivial
  | cons s ss ih => exact ⟨h s (by simp), ih (fun x hx => h x (by simp [hx]))⟩

/-- Names and values of entries. -/
def Named (names : List Str) (es : List (Key × Val)) : Prop :=
  (es.map Prod.fst).Sublist (names.map .str) ∧ ∀ e ∈ es, Portable e.2

theorem Named.append {n m : List Str} {a b : List (Key × Val)} (ha : Named n a) (hb : Named m b) :
    Named (n ++ m) (a ++ b) := by
  refine ⟨by rw [List.map_append, List.map_append]; exact ha.1.append hb.1, ?_⟩
  intro e he
  rcases List.mem_append.1 he with h | h
  · exact ha.2 e h
  · exact hb.2 e h

theorem named_entry (k : Str) (x : Option Val) (h : ∀ v, x = some v → Portable v) : Named [k] (entry? k x) := by
  cases x with
  | none => exact ⟨by simp [entry?], by simp [entry?]⟩
  | some v => exact ⟨by simp [entry?], by simpa [entry?] using h v rfl⟩

theorem portable_str? {x : Option Str} (h : BasicText? x) : ∀ v, x.map Val.str = some v → Portable v := by
  intro v e
  cases x with
  | none => cases e
  | some s => cases e; exact h s rfl

theorem portable_true (b : Bool) : ∀ v, trueVal b = some v → Portable v := by
  intro v e
  cases b with
  | false => cases e
  | true => cases e; trivial

theorem portable_ext (b : ExtBool) : ∀ v, extVal b = some v → Portable v := by
  intro v e
  cases b with
  | inherit => cases e
  | val b => cases e; trivial

theorem portable_sep (b : LongSep) : ∀ v, sepVal b = some v → Portable v := by
  intro v e
  cases b <;> cases e
  all_goals (intro c hc; revert c; decide)

theorem portable_list {l : Option (List Val)} (h : ∀ x, l = some x → PortableList x) :
    ∀ v, listVal l = some v → Portable v := by
  intro v e
  match l with
  | none => cases e
  | some [] => cases e
  | some (x :: xs) => cases e; exact h _ rfl

theorem option_named {o : Opt} (h : PortableOption o) :
    Named (S "option_strings" :: optionFields.map (·.name)) (optEntries o) := by
  have e : S "option_strings" :: optionFields.map (·.name) = [S "option_strings"] ++ [S "metavar"] ++ [S "help"] ++
    [S "optional_arg"] ++ [S "groups"] ++ [S "repeatable"] ++ [S "final"] ++ [S "hidden"] ++ [S "complete"] ++
    [S "nosort"] ++ [S "when"] ++ [S "capture"] ++ [S "long_opt_arg_sep"] := rfl
  rw [e]
  refine .append (.append (.append (.append (.append (.append (.append (.append (.append (.append (.append (.append ?_
    (named_entry _ _ (portable_str? h.metavar))) (named_entry _ _ (portable_str? h.help)))
    (named_entry _ _ (portable_true _))) (named_entry _ _ ?_)) (named_entry _ _ (portable_ext _)))
    (named_entry _ _ (portable_true _))) (named_entry _ _ (portable_true _)))
    (named_entry _ _ (portable_list h.complete))) (named_entry _ _ (portable_true _)))
    (named_entry _ _ (portable_str? h.when_))) (named_entry _ _ (portable_str? h.capture)))
    (named_entry _ _ (portable_sep _))
  · exact named_entry (S "option_strings") (some (.list (o.strings.map .str))) (by
      intro v e; cases e; exact portableList_strs h.strings)
  · intro v e
    cases hg : o.groups with
    | none => rw [hg] at e; cases e
    | some g => rw [hg] at e; cases e; exact portableList_strs (h.groups g hg)

theorem positional_named {p : Pos} (h : PortablePositional p) :
    Named (S "number" :: positionalFields.map (·.name)) (posEntries p) := by
  have e : S "number" :: positionalFields.map (·.name) = [S "number"] ++ [S "metavar"] ++ [S "help"] ++
    [S "repeatable"] ++ [S "complete"] ++ [S "nosort"] ++ [S "when"] ++ [S "capture"] := rfl
  rw [e]
  refine .append (.append (.append (.append (.append (.append (.append ?_
    (named_entry _ _ (portable_str? h.metavar))) (named_entry _ _ (portable_str? h.help)))
    (named_entry _ _ (portable_true _))) (named_entry _ _ (portable_list (by rintro x ⟨⟩; exact h.complete))))
    (named_entry _ _ (portable_true _))) (named_entry _ _ (portable_str? h.when_)))
    (named_entry _ _ (portable_str? h.capture))
  exact named_entry (S "number") (some (.int p.number)) (by intro v e; cases e; trivial)

theorem fields_of_named {first : Str} {fs : List YamlField} {v : Val} {d es : List (Key × Val)}
    (hn : Named (first :: fs.map (·.name)) es) (he : es = (.str first, v) :: named (fieldEntries fs d))
    (hk : ∀ n ∈ first :: fs.map (·.name), KeyName n) (hnd : (first :: fs.map (·.name)).Nodup) :
    Fields ((first, v) :: fieldEntries fs d) ∧
      ((named ((first, v) :: fieldEntries fs d)).map Prod.fst).Nodup := by
  have e1 : named ((first, v) :: fieldEntries fs d) = es := by rw [he]; rfl
  constructor
  · intro e hm
    have hm' : (Key.str e.1, e.2) ∈ es := by
      rw [← e1]
      exact List.mem_map.2 ⟨e, hm, rfl⟩
    refine ⟨?_, hn.2 _ hm'⟩
    have : Key.str e.1 ∈ es.map Prod.fst := List.mem_map.2 ⟨_, hm', rfl⟩
    obtain ⟨n, hn1, hn2⟩ := List.mem_map.1 (hn.1.subset this)
    cases hn2
    exact hk _ hn1
  · rw [e1]
    refine hn.1.nodup ?_
    exact List.Pairwise.map _ (fun a b hab e => hab (by cases e; rfl)) hnd

/-! ## The text -/

theorem ascii_truthy {s : Str} (h : LastFirm s) : stripTruthy s = true := by
  obtain ⟨u, x, rfl, hx⟩ := h
  exact (stripTruthy_iff _).2 ⟨x, by simp, hx⟩

theorem indent_lines {ws : List Str} (hne : ws ≠ []) (h : ∀ w ∈ ws, Ascii w ∧ LastFirm w) (n : Nat) :
    indent (joinWith ['\n'] ws) n = joinWith ['\n'] (ws.map (fun w => List.replicate n ' ' ++ w)) := by
  unfold indent
  rw [splitOn_join '\n' ws hne (fun w hw => ascii_noNewline (h w hw).1)]
  congr 1
  apply List.map_congr_left
  intro w hw
  rw [if_pos (ascii_truthy (h w hw).2)]

theorem item_text {e : Str × Val} {es : List (Str × Val)} (h : Fields (e :: es)) :
    indent (joinWith ['\n'] (('-' :: ' ' :: entryText e) :: es.map (fun e => List.replicate 2 ' ' ++ entryText e))) 2 =
      joinWith ['\n'] (itemLines e es) := by
  rw [indent_lines (by simp)]
  · congr 1
    simp [itemLines]
  · intro w hw
    rcases List.mem_cons.1 hw with rfl | hw
    · have he := h e (by simp)
      exact ⟨.cons (by decide) (.cons (by decide) (entryText_ascii he.1 he.2)),
        (entryText_lastFirm he.2).append ['-', ' ']⟩
    · obtain ⟨x, hx, rfl⟩ := List.mem_map.1 hw
      have he := h x (by simp [hx])
      exact ⟨(blanks_ascii 2).append (entryText_ascii he.1 he.2), (entryText_lastFirm he.2).append _⟩

theorem option_yaml_text (o : Opt) : optionToYaml (optEntries o) = .ok (joinWith ['\n']
    (('-' :: ' ' :: entryText (S "option_strings", .list (o.strings.map .str))) ::
      (fieldEntries optionFields (optEntries o)).map (fun e => List.replicate 2 ' ' ++ entryText e))) := by
  have h : getKey (optEntries o) (S "option_strings") = some (.list (o.strings.map .str)) := by
    rw [optEntries_get]; rfl
  unfold optionToYaml
  rw [h]
  simp only [fieldLine_eq]
  rfl

theorem positional_yaml_text (p : Pos) : positionalToYaml (posEntries p) = .ok (joinWith ['\n']
    (('-' :: ' ' :: entryText (S "number", .int p.number)) ::
      (fieldEntries positionalFields (posEntries p)).map (fun e => List.replicate 2 ' ' ++ entryText e))) := by
  have h : getKey (posEntries p) (S "number") = some (.int p.number) := by
    rw [posEntries_get]; rfl
  unfold positionalToYaml
  rw [h]
  simp only [fieldLine_eq]
  rfl

theorem items_text {α : Type} (write : List (Key × Val) → Except Err Str) (entries : α → List (Key × Val))
    (item : α → (Str × Val) × List (Str × Val)) (l : List α)
    (h : ∀ a ∈ l, Fields ((item a).1 :: (item a).2) ∧ write (entries a) = .ok (joinWith ['\n']
      (('-' :: ' ' :: entryText (item a).1) :: (item a).2.map (fun e => List.replicate 2 ' ' ++ entryText e)))) :
    itemsToYaml write (l.map (fun a => .dict (entries a))) = .ok (itemsText (l.map item)) := by
  induction l with
  | nil => rfl
  | cons a l ih =>
    have ha := h a (by simp)
    simp only [List.map_cons, itemsToYaml, asDict, bind, Except.bind, ha.2,
      ih (fun x hx => h x (by simp [hx])), item_text ha.1]
    simp [itemsText, S]

/-- The items of the options. -/
def optionItem (o : Opt) : (Str × Val) × List (Str × Val) :=
  ((S "option_strings", .list (o.strings.map .str)), fieldEntries optionFields (optEntries o))

/-- The items of the positionals. -/
def positionalItem (p : Pos) : (Str × Val) × List (Str × Val) :=
  ((S "number", .int p.number), fieldEntries positionalFields (posEntries p))

theorem optionItem_dict (o : Opt) : Val.dict (named ((optionItem o).1 :: (optionItem o).2)) = optionToDict o := by
  show Val.dict _ = Val.dict (optEntries o)
  rw [option_written o]
  rfl

theorem positionalItem_dict (p : Pos) :
    Val.dict (named ((positionalItem p).1 :: (positionalItem p).2)) = positionalToDict p := by
  show Val.dict _ = Val.dict (posEntries p)
  rw [positional_written p]
  rfl

theorem optionItem_ok {o : Opt} (h : PortableOption o) :
    Fields ((optionItem o).1 :: (optionItem o).2) ∧
      ((named ((optionItem o).1 :: (optionItem o).2)).map Prod.fst).Nodup :=
  fields_of_named (option_named h) (option_written o) (by
    intro n hn; revert n; unfold KeyName; decide) (by decide)

theorem positionalItem_ok {p : Pos} (h : PortablePositional p) :
    Fields ((positionalItem p).1 :: (positionalItem p).2) ∧
      ((named ((positionalItem p).1 :: (positionalItem p).2)).map Prod.fst).Nodup :=
  fields_of_named (positional_named h) (positional_written p) (by
    intro n hn; revert n; unfold KeyName; decide) (by decide)

theorem jsonWidth_le (c : Char) : jsonWidth c ≤ 6 := by
  unfold jsonWidth
  split
  · omega
  · split <;> omega

theorem strKeys_nodup {names : List Str} (h : names.Nodup) : (names.map Key.str).Nodup :=
  List.Pairwise.map _ (fun a b hab e => hab (by cases e; rfl)) h

theorem command_named {path : Str} {d : CmdData} (hp : BasicText path) (h : PortableCommand d) :
    Named (S "prog" :: commandFields.map (·.name) ++ [S "options"] ++ [S "positionals"]) (cmdEntries path d) := by
  have e : S "prog" :: commandFields.map (·.name) = [S "prog"] ++ [S "aliases"] ++ [S "help"] ++ [S "wraps"] ++
    [S "abbreviate_commands"] ++ [S "abbreviate_options"] ++ [S "inherit_options"] := rfl
  rw [e]
  have item : ∀ {α : Type} (l : List α) (f : α → Val), (∀ a ∈ l, Portable (f a)) → PortableList (l.map f) := by
    intro α l f hl
    induction l with
    | nil => trivial
    | cons a l ih => exact ⟨hl a (by simp), ih (fun x hx => hl x (by simp [hx]))⟩
  have dict : ∀ {names : List Str} {es : List (Key × Val)}, Named names es → names.Nodup →
      (∀ n ∈ names, n.length ≤ 100 ∧ ∀ c ∈ n, c.toNat < 65536) → Portable (.dict es) := by
    intro names es hn hnd hlen
    refine ⟨hn.1.nodup (List.Pairwise.map _ (fun a b hab e => hab (by cases e; rfl)) hnd), ?_⟩
    have hk : ∀ e ∈ es, PortableKey e.1 := by
      intro e he
      obtain ⟨n, hn1, hn2⟩ := List.mem_map.1 (hn.1.subset (List.mem_map.2 ⟨e, he, rfl⟩))
      rw [← hn2]
      refine ⟨(hlen n hn1).2, ?_⟩
      have hw : ∀ s : Str, (s.map jsonWidth).sum ≤ 6 * s.length := by
        intro s
        induction s with
        | nil => simp
        | cons c s ih =>
          have := jsonWidth_le c
          simp only [List.map_cons, List.sum_cons, List.length_cons]
          omega
      have := hw n
      have := (hlen n hn1).1
      omega
    have hv := hn.2
    clear hn
    induction es with
    | nil => trivial
    | cons x xs ih =>
      exact ⟨hk x (by simp), hv x (by simp), ih (fun y hy => hk y (by simp [hy])) (fun y hy => hv y (by simp [hy]))⟩
  refine .append (.append (.append (.append (.append (.append (.append (.append ?_
    (named_entry _ _ (portable_list (by rintro x ⟨⟩; exact portableList_strs h.aliases))))
    (named_entry _ _ (portable_str? h.help)))
    (named_entry _ _ (portable_str? h.wraps))) (named_entry _ _ (portable_ext _)))
    (named_entry _ _ (portable_ext _))) (named_entry _ _ (portable_ext _)))
    (named_entry _ _ (portable_list ?_))) (named_entry _ _ (portable_list ?_))
  · exact named_entry (S "prog") (some (.str path)) (by intro v e; cases e; exact hp)
  · rintro x ⟨⟩
    exact item _ _ (fun o ho => dict (option_named (h.options o ho)) (by decide) (by decide))
  · rintro x ⟨⟩
    exact item _ _ (fun p hp => dict (positional_named (h.positionals p hp)) (by decide) (by decide))

/-- The entries before the options. -/
def topItem (path : Str) (d : CmdData) : List (Str × Val) :=
  (S "prog", .str path) :: fieldEntries commandFields (cmdEntries path d)

/-- The text before `rstrip()`. -/
def rawText (path : Str) (d : CmdData) : Str :=
  ((topItem path d).map (fun e => entryText e ++ ['\n'])).flatten ++
    sectionText (S "options") (d.options.map optionItem) ++ sectionText (S "positionals") (d.positionals.map positionalItem)

theorem section_text {α : Type} (write : List (Key × Val) → Except Err Str) (entries : α → List (Key × Val))
    (item : α → (Str × Val) × List (Str × Val)) (l : List α) (name : Str) (es : List (Key × Val))
    (hg : getKey es name = listVal (some (l.map (fun a => .dict (entries a)))))
    (h : ∀ a ∈ l, Fields ((item a).1 :: (item a).2) ∧ write (entries a) = .ok (joinWith ['\n']
      (('-' :: ' ' :: entryText (item a).1) :: (item a).2.map (fun e => List.replicate 2 ' ' ++ entryText e)))) :
    sectionToYaml write name es = .ok (sectionText name (l.map item)) := by
  have hi := items_text write entries item l h
  unfold sectionToYaml sectionText
  rw [hg]
  cases l with
  | nil => rfl
  | cons a l =>
    simp only [List.map_cons, listVal] at hi ⊢
    simp only [hi, bind, Except.bind, if_neg (List.cons_ne_nil _ _)]

theorem toYaml_text {path : Str} {d : CmdData} (h : PortableCommand d) :
    toYaml (cmdEntries path d) = .ok (rstrip (rawText path d)) := by
  have hk := cmdEntries_get path d
  have h1 : getKey (cmdEntries path d) (S "prog") = some (.str path) := by rw [hk]; rfl
  have h2 := section_text optionToYaml optEntries optionItem d.options (S "options") (cmdEntries path d)
    (by rw [hk]; show _ = listVal (some (d.options.map optionToDict)); cases d.options <;> rfl)
    (fun o ho => ⟨(optionItem_ok (h.options o ho)).1, option_yaml_text o⟩)
  have h3 := section_text positionalToYaml posEntries positionalItem d.positionals (S "positionals") (cmdEntries path d)
    (by rw [hk]; show _ = listVal (some (d.positionals.map positionalToDict)); cases d.positionals <;> rfl)
    (fun p hp => ⟨(positionalItem_ok (h.positionals p hp)).1, positional_yaml_text p⟩)
  unfold toYaml
  rw [h1, h2, h3]
  simp only [bind, Except.bind, commandLine_eq]
  simp [rawText, topItem, entryText, S, List.append_assoc]

theorem listVal_map {α : Type} (f : α → Val) (l : List α) :
    listVal (some (l.map f)) = if l = [] then none else some (.list (l.map f)) := by
  cases l <;> rfl

theorem reads_raw {path : Str} {d : CmdData} (hp : BasicText path) (h : PortableCommand d) :
    ∃ D : Doc, ReadsDoc {} (rawText path d) D ∧ D.close = cmdEntries path d := by
  have hn := command_named hp h
  have hw := command_written path d
  have hnd : ((cmdEntries path d).map Prod.fst).Nodup :=
    hn.1.nodup (strKeys_nodup (by decide))
  have hmem : ∀ e ∈ topItem path d, (Key.str e.1, e.2) ∈ cmdEntries path d := by
    intro e he
    rw [hw]
    rcases List.mem_cons.1 he with rfl | he
    · simp
    · refine List.mem_cons_of_mem _ (List.mem_append_left _ (List.mem_append_left _ ?_))
      exact List.mem_map.2 ⟨e, he, rfl⟩
  have htop : Fields (topItem path d) := by
    intro e he
    have hm := hmem e he
    refine ⟨?_, hn.2 _ hm⟩
    obtain ⟨n, hn1, hn2⟩ := List.mem_map.1 (hn.1.subset (List.mem_map.2 ⟨_, hm, rfl⟩))
    cases hn2
    have : ∀ n ∈ S "prog" :: commandFields.map (·.name) ++ [S "options"] ++ [S "positionals"], KeyName n := by
      unfold KeyName; decide
    exact this _ hn1
  have ht : named (topItem path d) = (.str (S "prog"), .str path) :: named (fieldEntries commandFields (cmdEntries path d)) := rfl
  have hw' : cmdEntries path d = named (topItem path d) ++
      entry? (S "options") (listVal (some (d.options.map optionToDict))) ++
      entry? (S "positionals") (listVal (some (d.positionals.map positionalToDict))) := by
    rw [ht]
    exact hw
  have hnd1 : ((named (topItem path d)).map Prod.fst).Nodup := by
    rw [hw', List.map_append, List.map_append, List.append_assoc] at hnd
    exact (List.nodup_append.1 hnd).1
  have r1 := reads_top htop (D := {}) (acc := []) rfl (by simpa using hnd1) (by simp [topItem])
  have topnames : ((named (topItem path d)).map Prod.fst).Sublist ((S "prog" :: commandFields.map (·.name)).map .str) := by
    have hf : ∀ (fs : List YamlField) (es : List (Key × Val)),
        ((named (fieldEntries fs es)).map Prod.fst).Sublist ((fs.map (·.name)).map Key.str) := by
      intro fs es
      induction fs with
      | nil => exact List.Sublist.slnil
      | cons f fs ih =>
        unfold fieldEntries at ih ⊢
        rw [List.filterMap_cons]
        simp only [fieldEntry]
        cases f.includeIf.test (f.get es) with
        | false => exact ih.cons _
        | true => exact ih.cons_cons _
    exact (hf commandFields (cmdEntries path d)).cons_cons _
  obtain ⟨D2, r2, e2⟩ := reads_section (k := S "options") (by unfold KeyName; decide)
    (items := d.options.map optionItem)
    (by intro i hi; obtain ⟨o, ho, rfl⟩ := List.mem_map.1 hi; exact optionItem_ok (h.options o ho))
    (D := ⟨[] ++ named (topItem path d), none⟩) (acc := named (topItem path d)) rfl
    (by
      intro hm
      have : Key.str (S "options") ∉ (S "prog" :: commandFields.map (·.name)).map Key.str := by decide
      exact this (topnames.subset hm))
  obtain ⟨D3, r3, e3⟩ := reads_section (k := S "positionals") (by unfold KeyName; decide)
    (items := d.positionals.map positionalItem)
    (by intro i hi; obtain ⟨p, hp, rfl⟩ := List.mem_map.1 hi; exact positionalItem_ok (h.positionals p hp))
    (D := D2) e2
    (by
      intro hm
      rw [List.map_append] at hm
      rcases List.mem_append.1 hm with hm | hm
      · have : Key.str (S "positionals") ∉ (S "prog" :: commandFields.map (·.name)).map Key.str := by decide
        exact this (topnames.subset hm)
      · unfold entry? at hm
        split at hm
        · cases hm
        · simp only [List.map_cons, List.map_nil, List.mem_singleton] at hm
          revert hm; decide)
  refine ⟨D3, (r1.trans r2).trans r3, ?_⟩
  rw [e3, hw', listVal_map, listVal_map]
  simp only [List.map_map, List.map_eq_nil_iff]
  have q1 : d.options.map ((fun i => Val.dict (named (i.1 :: i.2))) ∘ optionItem) = d.options.map optionToDict :=
    List.map_congr_left (fun o _ => optionItem_dict o)
  have q2 : d.positionals.map ((fun i => Val.dict (named (i.1 :: i.2))) ∘ positionalItem) =
      d.positionals.map positionalToDict := List.map_congr_left (fun p _ => positionalItem_dict p)
  rw [q1, q2]

/-- A text that ends in newlines after a firm character. -/
def Ends (s : Str) : Prop := ∃ t k, s = t ++ List.replicate k '\n' ∧ LastFirm t

theorem Ends.append {s : Str} (h : Ends s) (p : Str) : Ends (p ++ s) := by
  obtain ⟨t, k, rfl, ht⟩ := h
  exact ⟨p ++ t, k, by simp, ht.append p⟩

theorem Ends.newline {s : Str} (h : Ends s) : Ends (s ++ ['\n']) := by
  obtain ⟨t, k, rfl, ht⟩ := h
  refine ⟨t, k + 1, ?_, ht⟩
  rw [List.append_assoc, List.replicate_succ']

theorem ends_lastFirm {s : Str} (h : LastFirm s) : Ends s := ⟨s, 0, by simp, h⟩

theorem ends_join {ws : List Str} (hne : ws ≠ []) (h : ∀ w ∈ ws, LastFirm w) : Ends (joinWith ['\n'] ws) := by
  match ws with
  | [] => exact absurd rfl hne
  | [w] => exact ends_lastFirm (h w (by simp))
  | w :: v :: r =>
    have := ends_join (ws := v :: r) (by simp) (fun x hx => h x (by simp [hx]))
    exact this.append _

theorem ends_flatten {ws : List Str} (hne : ws ≠ []) (h : ∀ w ∈ ws, Ends w) : Ends ws.flatten := by
  match ws with
  | [] => exact absurd rfl hne
  | [w] => simpa using h w (by simp)
  | w :: v :: r =>
    have := ends_flatten (ws := v :: r) (by simp) (fun x hx => h x (by simp [hx]))
    rw [List.flatten_cons]
    exact this.append w

/-- Only printable ASCII characters and newlines. -/
def CleanText (s : Str) : Prop := ∀ c ∈ s, c = '\n' ∨ (32 ≤ c.toNat ∧ c.toNat ≤ 126)

theorem CleanText.append {a b : Str} (ha : CleanText a) (hb : CleanText b) : CleanText (a ++ b) := by
  intro c hc
  rcases List.mem_append.1 hc with h | h
  · exact ha c h
  · exact hb c h

theorem clean_ascii {s : Str} (h : Ascii s) : CleanText s := fun c hc => Or.inr (h c hc)

theorem clean_newline : CleanText ['\n'] := fun _ hc => Or.inl (List.mem_singleton.1 hc)

theorem clean_flatten {ws : List Str} (h : ∀ w ∈ ws, CleanText w) : CleanText ws.flatten := by
  intro c hc
  obtain ⟨w, hw, hc⟩ := List.mem_flatten.1 hc
  exact h w hw c hc

theorem clean_join {ws : List Str} {sep : Str} (hs : CleanText sep) (h : ∀ w ∈ ws, CleanText w) : CleanText (joinWith sep ws) := by
  match ws with
  | [] => intro c hc; cases hc
  | [w] => exact h w (by simp)
  | w :: v :: r =>
    have := clean_join (ws := v :: r) hs (fun x hx => h x (by simp [hx]))
    exact ((h w (by simp)).append hs).append this

theorem clean_printable {s : Str} (h : CleanText s) : s.all isPrintable = true := by
  rw [List.all_eq_true]
  intro c hc
  rcases h c hc with rfl | h
  · decide
  · unfold isPrintable
    simp only [Bool.or_eq_true, Bool.and_eq_true, decide_eq_true_eq, beq_iff_eq]
    omega

theorem itemLines_lastFirm {e : Str × Val} {es : List (Str × Val)} (h : Fields (e :: es)) :
    ∀ w ∈ itemLines e es, LastFirm w := by
  intro w hw
  rcases List.mem_cons.1 hw with rfl | hw
  · exact ((entryText_lastFirm (h e (by simp)).2).append ['-', ' ']).append (List.replicate 2 ' ')
  · obtain ⟨x, hx, rfl⟩ := List.mem_map.1 hw
    exact (entryText_lastFirm (h x (by simp [hx])).2).append _

theorem sectionText_ends {k : Str} {items : List ((Str × Val) × List (Str × Val))}
    (h : ∀ i ∈ items, Fields (i.1 :: i.2)) (hne : items ≠ []) : Ends (sectionText k items) := by
  unfold sectionText
  rw [if_neg hne]
  refine Ends.append (ends_flatten (by simpa using hne) ?_) _
  intro w hw
  obtain ⟨i, hi, rfl⟩ := List.mem_map.1 hw
  exact ((ends_join (by simp [itemLines]) (itemLines_lastFirm (h i hi))).newline).newline

theorem sectionText_clean {k : Str} (hk : KeyName k) {items : List ((Str × Val) × List (Str × Val))}
    (h : ∀ i ∈ items, Fields (i.1 :: i.2)) : CleanText (sectionText k items) := by
  unfold sectionText
  split
  · intro c hc; cases hc
  · refine .append (.append (clean_ascii (fun c hc => isKeyChar_plain (hk.2 c hc))) ?_) (clean_flatten ?_)
    · intro c hc
      revert c
      decide
    · intro w hw
      obtain ⟨i, hi, rfl⟩ := List.mem_map.1 hw
      exact ((clean_join clean_newline (fun w hw => clean_ascii (itemLines_ascii (h i hi) w hw))).append
        clean_newline).append clean_newline

theorem top_fields {path : Str} {d : CmdData} (hp : BasicText path) (h : PortableCommand d) :
    Fields (topItem path d) := by
  have hn := command_named hp h
  have hw := command_written path d
  intro e he
  have hm : (Key.str e.1, e.2) ∈ cmdEntries path d := by
    rw [hw]
    rcases List.mem_cons.1 he with rfl | he
    · simp
    · refine List.mem_cons_of_mem _ (List.mem_append_left _ (List.mem_append_left _ ?_))
      exact List.mem_map.2 ⟨e, he, rfl⟩
  refine ⟨?_, hn.2 _ hm⟩
  obtain ⟨n, hn1, hn2⟩ := List.mem_map.1 (hn.1.subset (List.mem_map.2 ⟨_, hm, rfl⟩))
  cases hn2
  have : ∀ n ∈ S "prog" :: commandFields.map (·.name) ++ [S "options"] ++ [S "positionals"], KeyName n := by
    unfold KeyName; decide
  exact this _ hn1

theorem raw_ends {path : Str} {d : CmdData} (hp : BasicText path) (h : PortableCommand d) : Ends (rawText path d) := by
  have ho : ∀ i ∈ d.options.map optionItem, Fields (i.1 :: i.2) := by
    intro i hi; obtain ⟨o, ho, rfl⟩ := List.mem_map.1 hi; exact (optionItem_ok (h.options o ho)).1
  have hps : ∀ i ∈ d.positionals.map positionalItem, Fields (i.1 :: i.2) := by
    intro i hi; obtain ⟨p, hp, rfl⟩ := List.mem_map.1 hi; exact (positionalItem_ok (h.positionals p hp)).1
  have htop : Ends (((topItem path d).map (fun e => entryText e ++ ['\n'])).flatten) := by
    refine ends_flatten (by simp [topItem]) ?_
    intro w hw
    obtain ⟨e, he, rfl⟩ := List.mem_map.1 hw
    exact (ends_lastFirm (entryText_lastFirm (top_fields hp h e he).2)).newline
  unfold rawText
  by_cases h1 : d.positionals.map positionalItem = []
  · have e1 : sectionText (S "positionals") (d.positionals.map positionalItem) = [] := by
      unfold sectionText; rw [if_pos h1]
    rw [e1, List.append_nil]
    by_cases h2 : d.options.map optionItem = []
    · have e2 : sectionText (S "options") (d.options.map optionItem) = [] := by
        unfold sectionText; rw [if_pos h2]
      rw [e2, List.append_nil]
      exact htop
    · exact (sectionText_ends ho h2).append _
  · exact (sectionText_ends hps h1).append _

theorem raw_clean {path : Str} {d : CmdData} (hp : BasicText path) (h : PortableCommand d) : CleanText (rawText path d) := by
  have ho : ∀ i ∈ d.options.map optionItem, Fields (i.1 :: i.2) := by
    intro i hi; obtain ⟨o, ho, rfl⟩ := List.mem_map.1 hi; exact (optionItem_ok (h.options o ho)).1
  have hps : ∀ i ∈ d.positionals.map positionalItem, Fields (i.1 :: i.2) := by
    intro i hi; obtain ⟨p, hp, rfl⟩ := List.mem_map.1 hi; exact (positionalItem_ok (h.positionals p hp)).1
  refine .append (.append (clean_flatten ?_) (sectionText_clean (by unfold KeyName; decide) ho))
    (sectionText_clean (by unfold KeyName; decide) hps)
  intro w hw
  obtain ⟨e, he, rfl⟩ := List.mem_map.1 hw
  have := top_fields hp h e he
  exact (clean_ascii (entryText_ascii this.1 this.2)).append clean_newline

/-- The text of a command. -/
theorem document_text {path : Str} {d : CmdData} (hp : BasicText path) (h : PortableCommand d) :
    ∃ t, toYaml (cmdEntries path d) = .ok t ∧ CleanText t ∧
      ∃ D : Doc, runLines {} (linesOf t) = some D ∧ D.value = cmdToDict path d := by
  obtain ⟨t, k, e, ht⟩ := raw_ends hp h
  obtain ⟨D, r, hD⟩ := reads_raw hp h
  refine ⟨t, ?_, ?_, D, ?_, ?_⟩
  · rw [toYaml_text h, e, rstrip_lastFirm ht]
  · intro c hc
    exact raw_clean hp h c (by rw [e]; exact List.mem_append_left _ hc)
  · apply runLines_newlines (k := k)
    have := r []
    rw [List.append_nil, e] at this
    rw [this]
    exact runLines_blank D
  · unfold Doc.value
    rw [hD, if_neg (by rw [command_written]; simp)]
    rfl

theorem docs_text {vs : List Val} (hne : vs ≠ []) (h : ∀ v ∈ vs, ∃ path d, v = cmdToDict path d ∧ BasicText path ∧
    PortableCommand d) :
    ∃ ts, docsToYaml vs = .ok ts ∧ ts ≠ [] ∧ CleanText (joinWith (S "\n---\n") ts) ∧
      readLines {} (linesOf (joinWith (S "\n---\n") ts)) = some vs := by
  induction vs with
  | nil => exact absurd rfl hne
  | cons v vs ih =>
    obtain ⟨path, d, rfl, hp, hd⟩ := h v (by simp)
    obtain ⟨t, h1, h2, D, h3, h4⟩ := document_text hp hd
    by_cases hvs : vs = []
    · subst hvs
      refine ⟨[t], ?_, by simp, by simpa [joinWith] using h2, ?_⟩
      · show docsToYaml [Val.dict (cmdEntries path d)] = _
        simp only [docsToYaml, asDict, bind, Except.bind, h1]
      · have := readLines_run h3 []
        rw [List.append_nil] at this
        simp only [joinWith, this, readLines, h4]
    · obtain ⟨ts, g1, g2, g3, g4⟩ := ih hvs (fun x hx => h x (by simp [hx]))
      obtain ⟨u, us, rfl⟩ := List.exists_cons_of_ne_nil g2
      refine ⟨t :: u :: us, ?_, by simp, ?_, ?_⟩
      · show docsToYaml (Val.dict (cmdEntries path d) :: vs) = _
        simp only [docsToYaml, asDict, bind, Except.bind, h1, g1]
      · refine (h2.append ?_).append g3
        intro c hc
        revert c
        decide
      · have e : joinWith (S "\n---\n") (t :: u :: us) =
            t ++ '\n' :: (S "---" ++ '\n' :: joinWith (S "\n---\n") (u :: us)) := by
          simp [joinWith, S]
        rw [e, linesOf_append, linesOf_append, readLines_run h3]
        show readLines D (S "---" :: linesOf _) = _
        have hs : readLine (S "---") = some .separator := rfl
        simp only [readLines, hs, g4, Option.map_some, h4]

theorem basic_join {ws : List Str} (h : ∀ w ∈ ws, BasicText w) : BasicText (joinWith [' '] ws) := by
  match ws with
  | [] => intro c hc; cases hc
  | [w] => exact h w (by simp)
  | w :: v :: r =>
    have ih := basic_join (ws := v :: r) (fun x hx => h x (by simp [hx]))
    intro c hc
    simp only [joinWith, List.mem_append, List.mem_singleton] at hc
    rcases hc with (hc | rfl) | hc
    · exact h w (by simp) c hc
    · decide
    · exact ih c hc

theorem dicts_portable (c : Cmd) (h : ∀ a x, c.at a = some x → PortableCommand x.data) :
    ∀ p : List Str, (∀ w ∈ p, BasicText w) → ∀ v ∈ cmdToDicts p c, ∃ path d, v = cmdToDict path d ∧ BasicText path ∧
      PortableCommand d := by
  induction c using Cmd.ind with
  | h d s ch ih =>
    intro p hp v hv
    have hd := h [] _ rfl
    have hp' : ∀ w ∈ p ++ [d.prog], BasicText w := by
      intro w hw
      rcases List.mem_append.1 hw with hw | hw
      · exact hp w hw
      · rw [List.mem_singleton.1 hw]; exact hd.prog
    simp only [cmdToDicts, List.mem_cons] at hv
    rcases hv with rfl | hv
    · exact ⟨_, d, rfl, basic_join hp', hd⟩
    · have : ∀ cs : List Cmd, v ∈ cmdsToDicts (p ++ [d.prog]) cs → ∃ c ∈ cs, v ∈ cmdToDicts (p ++ [d.prog]) c := by
        intro cs
        induction cs with
        | nil => intro hv; simp [cmdsToDicts] at hv
        | cons c cs ihc =>
          intro hv
          simp only [cmdsToDicts, List.mem_append] at hv
          rcases hv with hv | hv
          · exact ⟨c, by simp, hv⟩
          · obtain ⟨x, hx, hv⟩ := ihc hv
            exact ⟨x, by simp [hx], hv⟩
      obtain ⟨x, hx, hv⟩ := this ch hv
      refine ih x hx ?_ _ hp' v hv
      intro a y hy
      obtain ⟨i, hi, rfl⟩ := List.getElem_of_mem hx
      apply h (i :: a) y
      simp only [Cmd.at, List.getElem?_eq_getElem hi]
      exact hy

/-! ## The property -/

/-- **C75.** The exported YAML text is read back as exactly the dictionaries that were exported: every
document, key and value in the same order, and nothing else. What is missing: the texts must consist
of characters below U+10000, floats need a point and keys of dictionaries are strings of limited
length (see the theorems below). -/
theorem C75_round_trip_partial (c : Cmd) (h : ∀ a x, c.at a = some x → PortableCommand x.data) :
    ∃ t, commandlineToYaml c = .ok t ∧ YamlText.read t = some (cmdToDicts [] c) := by
  have hne : cmdToDicts [] c ≠ [] := by cases c; simp [cmdToDicts]
  obtain ⟨ts, h1, h2, h3, h4⟩ := docs_text hne (dicts_portable c h [] (by simp))
  refine ⟨joinWith (S "\n---\n") ts, ?_, ?_⟩
  · unfold commandlineToYaml
    simp only [h1, bind, Except.bind]
  · unfold YamlText.read
    rw [if_pos (clean_printable h3)]
    exact h4

/-- Writing the file and loading it again gives the same command line. -/
theorem C75_load_exported_partial (c : Cmd) (hc : Api none c) (he : ∀ a x, c.at a = some x → Exportable x)
    (hd : c.data.prog ≠ S "%defines%") (h : ∀ a x, c.at a = some x → PortableCommand x.data) :
    ∃ t docs, commandlineToYaml c = .ok t ∧ YamlText.read t = some docs ∧ dictsToCmd docs = .ok c.renumber ∧
      c.renumber.eqv c = true := by
  obtain ⟨t, h1, h2⟩ := C75_round_trip_partial c h
  exact ⟨t, _, h1, h2, C26_round_trip_partial c hc he hd⟩

/-- Two command lines with the same text have the same dictionaries: nothing is lost in the text. -/
theorem C75_text_injective_partial (c c' : Cmd) (h : ∀ a x, c.at a = some x → PortableCommand x.data)
    (h' : ∀ a x, c'.at a = some x → PortableCommand x.data) (e : commandlineToYaml c = commandlineToYaml c') :
    cmdToDicts [] c = cmdToDicts [] c' := by
  obtain ⟨t, h1, h2⟩ := C75_round_trip_partial c h
  obtain ⟨t', h1', h2'⟩ := C75_round_trip_partial c' h'
  rw [h1, h1'] at e
  cases e
  rw [h2] at h2'
  exact Option.some.inj h2'

/-- An example: a program with a subcommand, an option with quotes, newlines and accents in its help
and a nested completer, and a positional. -/
def exportExample : Cmd :=
  .node { prog := S "p", help := some (S "say \"hi\":\n# é—"),
          options := [{ strings := [S "-a", S "--all"], complete := some [.str (S "value_list"),
            .dict [(.str (S "values"), .dict [(.str (S "yes"), .str (S "no: 'x'"))])]], hidden := true }],
          positionals := [{ number := 2, complete := [.str (S "range"), .int (-1), .int 5] }] }
    (some 3)
    [.node { prog := S "null", aliases := [S "~"], abbreviateOptions := .val false } none []]

theorem C75_example : ∀ a x, exportExample.at a = some x → PortableCommand x.data := by
  intro a x hx
  have basic : ∀ s : Str, (s.all fun c => decide (c.toNat < 65536)) = true → BasicText s := by
    intro s h c hc
    simpa using List.all_eq_true.1 h c hc
  have none? : BasicText? none := by intro t e; cases e
  match a with
  | [] =>
    simp only [Cmd.at, Option.some.injEq] at hx
    subst hx
    refine ⟨basic _ (by decide), ?_, ?_, none?, ?_, ?_⟩
    · intro t e; cases e; exact basic _ (by decide)
    · intro s hs; cases hs
    · intro o ho
      rw [List.mem_singleton.1 ho]
      refine ⟨?_, none?, none?, ?_, ?_, none?, none?⟩
      · intro s hs
        refine basic s ?_
        revert s
        decide
      · intro g e; cases e
      · intro l e
        cases e
        refine ⟨basic _ (by decide), ⟨⟨by decide, ⟨⟨basic _ (by decide), by decide⟩, ?_, trivial⟩⟩, trivial⟩⟩
        exact ⟨by decide, ⟨⟨basic _ (by decide), by decide⟩, basic _ (by decide), trivial⟩⟩
    · intro p hp
      rw [List.mem_singleton.1 hp]
      exact ⟨none?, none?, ⟨basic _ (by decide), trivial, trivial, trivial⟩, none?, none?⟩
  | 0 :: [] =>
    simp only [Cmd.at, exportExample, List.getElem?_cons_zero, Option.some.injEq] at hx
    subst hx
    refine ⟨basic _ (by decide), none?, ?_, none?, ?_, ?_⟩
    · intro s hs
      refine basic s ?_
      revert s
      decide
    · intro o ho; cases ho
    · intro p hp; cases hp
  | 0 :: j :: r => simp [Cmd.at, exportExample] at hx
  | (i + 1) :: r => simp [Cmd.at, exportExample] at hx

/-- The text of the example. -/
theorem C75_example_text : (commandlineToYaml exportExample).toOption = some (
    S "prog: \"p\"\nhelp: \"say \\\"hi\\\":\\n# \\u00e9\\u2014\"\noptions:\n" ++
    S "  - option_strings: [\"-a\", \"--all\"]\n    hidden: true\n" ++
    S "    complete: [\"value_list\", {\"values\": {\"yes\": \"no: 'x'\"}}]\n\n" ++
    S "positionals:\n  - number: 2\n    complete: [\"range\", -1, 5]\n---\n" ++
    S "prog: \"p null\"\naliases: [\"~\"]\nabbreviate_options: false") := by decide +kernel

/-! ## Why the conditions are there -/

/-- The help is read back as another text, if at all. -/
theorem C75_emoji_lost : ∃ c t, commandlineToYaml c = .ok t ∧ t = S "prog: \"p\"\nhelp: \"\\ud83d\\ude00\"" ∧
    YamlText.read t ≠ some (cmdToDicts [] c) :=
  by
  refine ⟨.node { prog := S "p", help := some [Char.ofNat 0x1F600] } none [], _, rfl, ?_, ?_⟩
  · decide +kernel
  · decide +kernel

/-- A float without a point comes back as a string. -/
theorem C75_float_becomes_text : ∃ c t, commandlineToYaml c = .ok t ∧
    YamlText.read t = some [.dict [(.str (S "prog"), .str (S "p")), (.str (S "positionals"),
      .list [.dict [(.str (S "number"), .int 1), (.str (S "complete"), .list [.str (S "range"), .str (S "1e+16")])]])]] ∧
    cmdToDicts [] c = [.dict [(.str (S "prog"), .str (S "p")), (.str (S "positionals"),
      .list [.dict [(.str (S "number"), .int 1), (.str (S "complete"), .list [.str (S "range"), .float (S "1e+16")])]])]] :=
  ⟨.node { prog := S "p", positionals := [{ number := 1, complete := [.str (S "range"), .float (S "1e+16")] }] } none [],
    _, rfl, by decide +kernel, rfl⟩

/-- A key that is a number comes back as a string. -/
theorem C75_number_key_becomes_text : ∃ c t, commandlineToYaml c = .ok t ∧
    YamlText.read t = some [.dict [(.str (S "prog"), .str (S "p")), (.str (S "positionals"),
      .list [.dict [(.str (S "number"), .int 1), (.str (S "complete"),
        .list [.str (S "choices"), .dict [(.str (S "1"), .str (S "one"))]])]])]] ∧
    cmdToDicts [] c = [.dict [(.str (S "prog"), .str (S "p")), (.str (S "positionals"),
      .list [.dict [(.str (S "number"), .int 1), (.str (S "complete"),
        .list [.str (S "choices"), .dict [(.int 1, .str (S "one"))]])]])]] :=
  ⟨.node { prog := S "p", positionals :=
      [{ number := 1, complete := [.str (S "choices"), .dict [(.int 1, .str (S "one"))]] }] } none [],
    _, rfl, by decide +kernel, rfl⟩

end CC
