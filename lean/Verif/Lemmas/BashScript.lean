import Verif.Lemmas.BashArgs
import Verif.Props.BashParser
/-!
# What the script does with a line
-/

namespace CC

/-! ## Nothing fails -/

section
variable {root : Cmd} (ho : CleanOptions root) {parents : List Cmd} {c : Cmd} (hat : At root parents c)
include ho hat

theorem optionNames_ok (ss : List Str)
    (h : ∀ s ∈ ss, ∃ o ∈ getOptions parents c (decide (c.data.inheritOptions = .val true)) false, s ∈ o.longStrings ++ o.oldStrings) :
    optionNames parents c ss = .ok (namesOf parents c ss) := by
  have hw : ((getOptions parents c (decide (c.data.inheritOptions = .val true)) false).flatMap
      (fun o => o.longStrings ++ o.oldStrings)).all optionWordOk = true := by
    rw [List.all_eq_true]
    intro s hs
    obtain ⟨o, hm, hs⟩ := List.mem_flatMap.mp hs
    obtain ⟨qs, y, hy, hxy⟩ := getOptions_from hat hm
    have hi := optStrings_iff (ho.valid _ _ hy o hxy) s
    rw [List.mem_append, hi.2.1, hi.2.2] at hs
    have hd : startsWith s (S "-") = true ∧ 2 < s.length := by
      rcases hs with ⟨-, a, r, rfl⟩ | ⟨-, a, b, r, rfl, -⟩ <;> simp [startsWith, S]
    unfold optionWordOk
    rw [hd.1]
    simp [hd.2]
  cases h1 : optionNames parents c ss with
  | ok l => rw [optionNames_eq h1]
  | error x =>
    exfalso
    unfold optionNames at h1
    by_cases ha : c.data.abbreviateOptions = .val true
    · rw [if_pos ha] at h1
      simp only [hw, if_true] at h1
      clear hw
      induction ss with
      | nil => simp [getManyAbbreviations] at h1
      | cons s ss ih =>
        have hs := h s (List.mem_cons_self ..)
        have hm : s ∈ (getOptions parents c (decide (c.data.inheritOptions = .val true)) false).flatMap
          (fun o => o.longStrings ++ o.oldStrings) := List.mem_flatMap.mpr hs
        rw [getManyAbbreviations, getAbbreviations, if_pos hm] at h1
        cases h2 : getManyAbbreviations 3 ((getOptions parents c (decide (c.data.inheritOptions = .val true)) false).flatMap
          (fun o => o.longStrings ++ o.oldStrings)) ss with
        | ok l => rw [h2] at h1; simp [bind, Except.bind] at h1
        | error y =>
          refine ih (fun s hs => h s (List.mem_cons_of_mem _ hs)) ?_
          rw [h2]; rw [h2] at h1; simpa [bind, Except.bind] using h1
    · rw [if_neg ha] at h1; cases h1

theorem mapE_ok {α β} {f : α → Except Err β} {g : α → β} (l : List α) (h : ∀ x ∈ l, f x = .ok (g x)) : mapE f l = .ok (l.map g) := by
  induction l with
  | nil => rfl
  | cons x xs ih =>
    rw [mapE, h x (List.mem_cons_self ..), ih (fun y hy => h y (List.mem_cons_of_mem _ hy))]
    rfl

theorem runOption_total (E : BEnv) (ln : BLine) : runOptionCompletion E ln parents c =
    .ok (if (ownArgs (E.optCode c) parents c).isEmpty then ([], false) else ownDispatch E parents c ln.prev ln.cur) := by
  have h1 : mapE (argOpt (E.optCode c) parents c) (getOptions parents c false true) = .ok (ownArgs (E.optCode c) parents c) := by
    refine mapE_ok ho hat _ fun o hm => ?_
    have hm := own_in_all hat (decide (c.data.inheritOptions = .val true)) ((mem_own hat true o).mp hm).1
    unfold argOpt
    rw [optionNames_ok ho hat o.longStrings (fun s hs => ⟨o, hm, List.mem_append_left _ hs⟩),
      optionNames_ok ho hat o.oldStrings (fun s hs => ⟨o, hm, List.mem_append_right _ hs⟩)]
    rfl
  have h2 : ∃ i, dispatchInfo parents c = .ok i := by
    unfold dispatchInfo
    simp only
    rw [optionNames_ok ho hat _ (fun s hs => by
      obtain ⟨o, hm, hs⟩ := List.mem_flatMap.mp hs
      exact ⟨o, hm, List.mem_append_right _ hs⟩)]
    exact ⟨_, rfl⟩
  have h3 : ∃ r, runOptionCompletion E ln parents c = .ok r := by
    obtain ⟨i, hi⟩ := h2
    unfold runOptionCompletion
    rw [h1, hi]
    simp only [bind, Except.bind]
    split <;> exact ⟨_, rfl⟩
  obtain ⟨r, h3⟩ := h3
  rw [h3, runOption_eq h3]

end

/-! ## The own part of a command -/

theorem commandArg_none {ln : BLine} {parents : List Cmd} {c : Cmd} (h : BeforeCommandArg parents c ln.positionals.length) :
    runCommandArg ln parents c = none := by
  unfold runCommandArg
  cases hf : c.data.positionals.find? Pos.isCommandArg with
  | none => rfl
  | some p =>
    have hm := List.mem_of_find?_eq_some hf
    have hp := List.find?_some hf
    have := h p hm (by simpa [Pos.isCommandArg, IsCommandArg] using hp)
    simp only [positionalNum, positionalIndex_eq]
    unfold PosPlace at this
    rw [if_neg (by omega)]

theorem isHere_iff {ln : BLine} {parents : List Cmd} {p : Pos} {n : Nat} (hn : ln.positionals.length = n + 1) :
    p.isHere ln parents = true ↔ PosHere parents p n := by
  unfold Pos.isHere PosHere PosPlace
  simp only [positionalNum, positionalIndex_eq, hn]
  split <;> simp only [decide_eq_true_eq] <;> omega

theorem isHere_zero {ln : BLine} {parents : List Cmd} {p : Pos} (hn : ln.positionals = []) : p.isHere ln parents = false := by
  unfold Pos.isHere
  simp only [positionalNum, hn, List.length_nil]
  split <;> simp

theorem when_met {E : BEnv} {c : Cmd} {p : Pos} : (match p.when_ with
    | some w => E.holds c w
    | none => true) = true ↔ PosMet E c p := by
  unfold PosMet
  cases p.when_ <;> simp

/-- The positional at the cursor. -/
theorem positionals_here {E : BEnv} {ln : BLine} {parents : List Cmd} {c : Cmd} {n : Nat} (hn : ln.positionals.length = n + 1) {p : Pos}
    (hp : p ∈ c.data.positionals) (hnc : ¬ IsCommandArg p) (hh : PosHere parents p n) (hm : PosMet E c p)
    (hu : ∀ q ∈ c.data.positionals, ¬ IsCommandArg q → PosHere parents q n → PosMet E c q → q = p) :
    runPositionals E ln parents c = some (.pos (E.posCode c p)) := by
  have hpf : p ∈ c.data.positionals.filter (fun p => !p.isCommandArg) := by
    refine List.mem_filter.mpr ⟨hp, ?_⟩
    cases h : p.isCommandArg with
    | false => rfl
    | true => exact absurd (by simpa [Pos.isCommandArg, IsCommandArg] using h) hnc
  have hqf : ∀ q ∈ c.data.positionals.filter (fun p => !p.isCommandArg), PosHere parents q n → PosMet E c q → q = p := by
    intro q hq h1 h2
    obtain ⟨hq, hqn⟩ := List.mem_filter.mp hq
    refine hu q hq ?_ h1 h2
    intro h
    have : q.isCommandArg = true := by simpa [Pos.isCommandArg, IsCommandArg] using h
    rw [this] at hqn; cases hqn
  have hr : (if c.data.positionals.any (fun p => p.when_.isSome) then
      runPositionalsWhen E ln parents c (c.data.positionals.filter (fun p => !p.isCommandArg))
    else runPositionalsNoWhen E ln parents c (c.data.positionals.filter (fun p => !p.isCommandArg))) = some (E.posCode c p) := by
    split
    · unfold runPositionalsWhen
      cases hf : List.find? (fun p => p.isHere ln parents && (match p.when_ with
          | some w => E.holds c w
          | none => true)) (c.data.positionals.filter (fun p => !p.isCommandArg)) with
      | none =>
        rw [List.find?_eq_none] at hf
        exact absurd (by rw [Bool.and_eq_true]; exact ⟨(isHere_iff hn).mpr hh, when_met.mpr hm⟩) (hf p hpf)
      | some q =>
        have h1 := List.find?_some hf
        rw [Bool.and_eq_true] at h1
        rw [hqf q (List.mem_of_find?_eq_some hf) ((isHere_iff hn).mp h1.1) (when_met.mp h1.2)]
        rfl
    · rename_i hno
      have hmet : ∀ q ∈ c.data.positionals.filter (fun p => !p.isCommandArg), PosMet E c q := by
        intro q hq w hw
        exfalso; apply hno
        rw [List.any_eq_true]
        exact ⟨q, (List.mem_filter.mp hq).1, by rw [hw]; rfl⟩
      unfold runPositionalsNoWhen
      cases hf : (groupBy (E.posCode c) (c.data.positionals.filter (fun p => !p.isCommandArg))).find? (fun g => g.2.any (fun p => p.isHere ln parents)) with
      | none =>
        rw [List.find?_eq_none] at hf
        obtain ⟨g, hg⟩ := groupBy_has (E.posCode c) _ hpf
        have hpg := (groupBy_mem (E.posCode c) _ hg p).mpr ⟨hpf, rfl⟩
        exact absurd (List.any_eq_true.mpr ⟨p, hpg, (isHere_iff hn).mpr hh⟩) (hf _ hg)
      | some g =>
        have h0 := List.find?_some hf
        obtain ⟨q, hq, hqh⟩ := List.any_eq_true.mp h0
        have hg := (groupBy_mem (E.posCode c) _ (List.mem_of_find?_eq_some hf) q).mp hq
        have : q = p := hqf q hg.1 ((isHere_iff hn).mp hqh) (hmet q hg.1)
        rw [this] at hg
        simp [hg.2]
  unfold runPositionals
  simp only [hr]

/-- No positional at the cursor. -/
theorem positionals_none {E : BEnv} {ln : BLine} {parents : List Cmd} {c : Cmd}
    (h : ∀ p ∈ c.data.positionals, p.isHere ln parents = true → ¬ PosMet E c p ∨ IsCommandArg p) :
    runPositionals E ln parents c = match c.sub with
      | some n => if ln.positionals.length = positionalNum parents n then
          some (.names (c.children.flatMap (fun d => d.data.prog :: d.data.aliases))) else none
      | none => none := by
  have hqf : ∀ q ∈ c.data.positionals.filter (fun p => !p.isCommandArg), q.isHere ln parents = true → ¬ PosMet E c q := by
    intro q hq h1
    obtain ⟨hq, hqn⟩ := List.mem_filter.mp hq
    rcases h q hq h1 with h | h
    · exact h
    · have : q.isCommandArg = true := by simpa [Pos.isCommandArg, IsCommandArg] using h
      rw [this] at hqn; cases hqn
  have hr : (if c.data.positionals.any (fun p => p.when_.isSome) then
      runPositionalsWhen E ln parents c (c.data.positionals.filter (fun p => !p.isCommandArg))
    else runPositionalsNoWhen E ln parents c (c.data.positionals.filter (fun p => !p.isCommandArg))) = none := by
    split
    · unfold runPositionalsWhen
      rw [Option.map_eq_none_iff, List.find?_eq_none]
      intro q hq h1
      rw [Bool.and_eq_true] at h1
      exact hqf q hq h1.1 (when_met.mp h1.2)
    · rename_i hno
      unfold runPositionalsNoWhen
      rw [Option.map_eq_none_iff, List.find?_eq_none]
      intro g hg h1
      obtain ⟨q, hq, hqh⟩ := List.any_eq_true.mp h1
      have hm := (groupBy_mem (E.posCode c) _ hg q).mp hq
      refine hqf q hm.1 hqh ?_
      intro w hw
      exfalso; apply hno
      rw [List.any_eq_true]
      exact ⟨q, (List.mem_filter.mp hm.1).1, by rw [hw]; rfl⟩
  unfold runPositionals
  simp only [hr]
  cases c.sub <;> rfl

section
variable {root : Cmd} (ho : CleanOptions root) {parents : List Cmd} {c : Cmd} (hat : At root parents c) (hk : HasCompleters c) (E : BEnv) (ln : BLine)
  (hb : BeforeCommandArg parents c ln.positionals.length)
include ho hat hb

/-- An argument is completed. -/
theorem runOwn_arg {es : List BEvent} (hne : ∃ o ∈ c.data.options, truthyList o.complete = true)
    (hd : ownDispatch E parents c ln.prev ln.cur = (es, true)) : runOwn E ln parents c = .ok (es, true) := by
  unfold runOwn
  rw [commandArg_none hb, runOption_total ho hat]
  obtain ⟨o, h1, h2⟩ := hne
  have : (ownArgs (E.optCode c) parents c).isEmpty = false := by
    rw [List.isEmpty_eq_false_iff]
    exact List.ne_nil_of_mem (List.mem_map.mpr ⟨o, (mem_own hat true o).mpr ⟨h1, fun _ => h2⟩, rfl⟩)
  rw [this, hd]
  rfl

include hk

/-- A word that does not look like an option. -/
theorem runOwn_word (hq : Quiet parents c ln.prev) (hcur : startsWith ln.cur ['-'] = false) :
    runOwn E ln parents c = .ok (match runPositionals E ln parents c with
      | some e => ([e], true)
      | none => ([], false)) := by
  have : (if (ownArgs (E.optCode c) parents c).isEmpty then ([], false) else ownDispatch E parents c ln.prev ln.cur) = ([], false) := by
    rw [dispatch_none ho hat hk E hq hcur]; simp
  unfold runOwn
  rw [commandArg_none hb, runOption_total ho hat, this]
  simp only [bind, Except.bind, hcur, Bool.and_false, Bool.false_eq_true, if_false, List.nil_append]
  cases runPositionals E ln parents c <;> rfl

end

/-! ## The whole script -/

theorem worth_iff (c : Cmd) : c.worth = true ↔ WorthCompleting c := by
  unfold Cmd.worth WorthCompleting FindsSomething
  rw [Bool.or_eq_true, Bool.or_eq_true, or_assoc]
  refine or_congr Iff.rfl (or_congr ?_ ?_)
  · rw [List.any_eq_true]
    refine exists_congr fun p => and_congr_right fun _ => ?_
    cases p.complete with
    | nil => simp
    | cons v l =>
      cases v with
      | str s =>
        simp only [List.head?_cons, Option.some.injEq, Val.str.injEq, forall_eq', ne_eq]
        by_cases h1 : s = S "none"
        · simp [h1]
        · by_cases h2 : s = S "integer" ∨ s = S "float"
          · simp [h1, h2]
          · simp [h1, h2]
      | _ => simp
  · rw [List.any_eq_true]
    refine exists_congr fun o => ?_
    rw [mem_own (At.root (root := c))]
    simp

theorem parser_result {root : Cmd} {parse : List Str → Str → List Str → BState} (hparse : IsParser root parse) (hc : CleanTree root) (hn : CleanNames root)
    (ho : CleanOptions root) {optAt : List Str → Str → Option Opt} (hopt : KnowsOptions root optAt) {its : List Item} {e : Ending}
    {parents : List Cmd} {c : Cmd} (ht : Typed root optAt its e parents c) (cur : Str) (post : List Str) :
    (parse (its.flatMap Item.words ++ e.words) cur post).endOfOptions = e.isDashes ∧
    ((parse (its.flatMap Item.words ++ e.words) cur post).positionals = its.flatMap Item.positionals ++ endingPositionals cur post e ∨
      ((bashParts root).positionals = false ∧ (parse (its.flatMap Item.words ++ e.words) cur post).positionals = [])) := by
  obtain ⟨blocks, hb, ⟨hf, rfl⟩ | rfl⟩ := hparse
  · rw [C46_v1_partial root blocks hb hc hn ho hf optAt hopt its e cur post parents c ht.reached ht.items ht.ending]
    exact ⟨rfl, Or.inl rfl⟩
  · rw [C46_v2_partial root blocks hb hc hn ho optAt hopt its e cur post parents c ht.reached ht.items ht.ending]
    refine ⟨rfl, ?_⟩
    cases (bashParts root).positionals with
    | true => exact Or.inl rfl
    | false => exact Or.inr ⟨rfl, rfl⟩

/-- The line as the functions see it. -/
def scriptLine (parse : List Str → Str → List Str → BState) (prog : Str) (words : List Str) (cur : Str) (post : List Str) : BLine :=
  { compWords := prog :: words ++ cur :: post, positionals := (parse words cur post).positionals
    endOfOptions := (parse words cur post).endOfOptions, prev := (words.getLast?).getD prog, cur := cur }

theorem bashComplete_eq (E : BEnv) (parse : List Str → Str → List Str → BState) (prog : Str) (root : Cmd) (words : List Str)
    (cur : Str) (post : List Str) : bashComplete E parse prog root words cur post =
      if root.worth then some (root.runFunction E (scriptLine parse prog words cur post) []) else none := rfl

/-- The script calls the functions of the command and of the ancestors that pass their options on. -/
theorem script_line_eq {root : Cmd} {parse : List Str → Str → List Str → BState} (hparse : IsParser root parse) (hc : CleanTree root) (hn : CleanNames root)
    (ho : CleanOptions root) {optAt : List Str → Str → Option Opt} (hopt : KnowsOptions root optAt) {its : List Item} {e : Ending}
    {parents : List Cmd} {c : Cmd} (ht : Typed root optAt its e parents c) (E : BEnv) (prog cur : Str) (post : List Str)
    {parents' : List Cmd} {c' : Cmd} {more : List Str} (hmore : endingPositionals cur post e = more)
    {ps : List Str} (hps : ps <+: its.flatMap Item.positionals ++ more)
    (hr : Reached root ps parents' c') (hw' : WorthCompleting c')
    (hlast : ∀ n w, SubPlace parents' c' n → (its.flatMap Item.positionals ++ more)[n]? = some w → ∀ d ∈ c'.children, ¬ SelectsSub c' d w) :
    ∃ ln : BLine, bashComplete E parse prog root (its.flatMap Item.words ++ e.words) cur post = some (tryAll E ln (inheritedFrom parents' c')) ∧
      ln.compWords = prog :: (its.flatMap Item.words ++ e.words) ++ cur :: post ∧
      ln.prev = ((its.flatMap Item.words ++ e.words).getLast?).getD prog ∧ ln.cur = cur ∧ ln.endOfOptions = e.isDashes ∧
      (ln.positionals = its.flatMap Item.positionals ++ more ∨
        ((bashParts root).positionals = false ∧ ln.positionals = [])) := by
  subst hmore
  obtain ⟨h1, h2⟩ := parser_result hparse hc hn ho hopt ht cur post
  refine ⟨scriptLine parse prog (its.flatMap Item.words ++ e.words) cur post, ?_, rfl, rfl, rfl, h1, h2⟩
  have hrM := (reached_iff hc _ _ _).mp hr
  have hat := reached_at hrM
  rw [bashComplete_eq]
  rcases h2 with h2 | ⟨h2, h3⟩
  · have := runFunction_reached hc.toM E (scriptLine parse prog (its.flatMap Item.words ++ e.words) cur post) hrM
      (by simp only [scriptLine]; rw [h2]; exact hps) ((worth_iff c').mpr hw') (by
        intro n w hs hp d hd hv
        simp only [scriptLine] at hp
        rw [h2] at hp
        exact hlast n w ((subSlot_iff (hc.numbered _ _ hat) n).mp hs) hp d hd
          ((mem_variations c' d (hc.nonempty _ _ hat d hd).1 w).mp hv))
    rw [if_pos this.1, ← this.2]
  · obtain ⟨rfl, rfl⟩ := no_positionals hc.toM h2 hat
    have h4 : (scriptLine parse prog (its.flatMap Item.words ++ e.words) cur post).positionals = [] := h3
    generalize scriptLine parse prog (its.flatMap Item.words ++ e.words) cur post = ln at h4
    rw [if_pos ((worth_iff _).mpr hw'),
      runFunction_last E ln [] c' (by intro n w _ hp; rw [h4] at hp; simp at hp)]
    have : inheritedFrom [] c' = [([], c')] := rfl
    rw [this, tryAll]
    simp only [tryAll, bind, Except.bind]
    cases runOwn E ln [] c' with
    | error x => rfl
    | ok r =>
      obtain ⟨r1, r2⟩ := r
      cases r2 <;> simp

theorem script_line {root : Cmd} {parse : List Str → Str → List Str → BState} (hparse : IsParser root parse) (hc : CleanTree root) (hn : CleanNames root)
    (ho : CleanOptions root) {optAt : List Str → Str → Option Opt} (hopt : KnowsOptions root optAt) {its : List Item} {e : Ending}
    {parents : List Cmd} {c : Cmd} (ht : Typed root optAt its e parents c) (E : BEnv) (prog cur : Str) (post : List Str)
    {parents' : List Cmd} {c' : Cmd} {more : List Str} (hmore : endingPositionals cur post e = more)
    {ps : List Str} (hps : ps <+: its.flatMap Item.positionals ++ more)
    (hr : Reached root ps parents' c') (hw' : WorthCompleting c')
    (hlast : ∀ n w, SubPlace parents' c' n → (its.flatMap Item.positionals ++ more)[n]? = some w → ∀ d ∈ c'.children, ¬ SelectsSub c' d w) :
    ∃ ln : BLine, bashComplete E parse prog root (its.flatMap Item.words ++ e.words) cur post = some (tryAll E ln (inheritedFrom parents' c')) ∧
      ln.prev = ((its.flatMap Item.words ++ e.words).getLast?).getD prog ∧ ln.cur = cur ∧ ln.endOfOptions = e.isDashes ∧
      (ln.positionals = its.flatMap Item.positionals ++ more ∨
        ((bashParts root).positionals = false ∧ ln.positionals = [])) := by
  obtain ⟨ln, h1, -, h2⟩ := script_line_eq hparse hc hn ho hopt ht E prog cur post hmore hps hr hw' hlast
  exact ⟨ln, h1, h2⟩

end CC
