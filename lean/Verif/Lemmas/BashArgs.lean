import Verif.Lemmas.BashWord
/-!
# Which argument the dispatcher of a command completes
-/

namespace CC

/-- `__complete_option` of a command. -/
abbrev ownComplete (E : BEnv) (parents : List Cmd) (c : Cmd) : Str → Bool → List Str × Bool :=
  completeOption (E.holds c) (ownArgs (E.optCode c) parents c)

/-- The dispatcher of a command. -/
abbrev ownDispatch (E : BEnv) (parents : List Cmd) (c : Cmd) (prev cur : Str) : List BEvent × Bool :=
  runDispatcher (infoOf parents c) (ownComplete E parents c) prev cur

theorem dash_startsWith (w : Str) : startsWith ('-' :: w) ['-'] = true := by cases w <;> rfl

theorem startsWith_dash {s : Str} (h : startsWith s ['-'] = true) : ∃ w, s = '-' :: w := by
  cases s with
  | nil => cases h
  | cons a w =>
    simp [startsWith] at h
    exact ⟨w, by rw [h]⟩

theorem long_or_dash (w : Str) : startsWith ('-' :: w) ['-', '-'] = true ∨ w.head? ≠ some '-' := by
  cases w with
  | nil => right; simp
  | cons a w =>
    by_cases h : a = '-'
    · left; subst h; simp [startsWith]
    · right; simpa using h

theorem last_of_dash (u : Str) (x : Char) : ('-' :: (u ++ [x])).getLast? = some x := by
  rw [← List.cons_append, List.getLast?_concat]

theorem clusterEnds_append (f a u : Str) (x : Char) : clusterEnds f a (u ++ [x]) = (a.contains x && u.all (fun y => f.contains y)) := by
  unfold clusterEnds
  rw [List.getLast?_concat]
  simp

theorem clusterHas_append (f a u v : Str) (x : Char) (hx : a.contains x = true) (hu : u.all (fun y => f.contains y) = true) :
    clusterHas f a (u ++ x :: v) = true := by
  induction u with
  | nil => rw [List.nil_append]; simp only [clusterHas, hx]; rfl
  | cons y u ih =>
    rw [List.all_cons, Bool.and_eq_true] at hu
    rw [List.cons_append]
    simp only [clusterHas, hu.1, ih hu.2]
    simp

section
variable {root : Cmd} (ho : CleanOptions root) {parents : List Cmd} {c : Cmd} (hat : At root parents c) (hk : HasCompleters c) (E : BEnv)
include ho hat hk

/-- The argument is in the next word. -/
theorem dispatch_next {o : Opt} {n prev : Str} (cur : Str) (hn : NamesOption parents c n o) (hr : o.kind = .required) (hw : WhenMet E c o)
    (hp : (prev = n ∧ (IsLong n ∨ IsOld n)) ∨
      ∃ cs x, n = ['-', x] ∧ prev = '-' :: (cs ++ [x]) ∧ (cs ++ [x]).head? ≠ some '-' ∧ ListedFlags parents c cs ∧
        (cs ≠ [] → ∀ o', ¬ NamesOption parents c prev o')) :
    ownDispatch E parents c prev cur = ([.arg (E.optCode c o) cur []], true) := by
  have hna : NotAllOptional c := Or.inl ⟨o, hn.1, hr⟩
  have hf : o.kind ≠ .flag := by rw [hr]; decide
  have hc : ownComplete E parents c n false = ([E.optCode c o], true) :=
    complete_own ho hat hk E hna hn hf hw (fun h => by rw [hr] at h; cases h)
  obtain ⟨hi1, -, hi3, -, hi5, -⟩ := info_flags ho hat hk
  have hreq : ((infoOf parents c).shortRequired || (infoOf parents c).longRequired || (infoOf parents c).oldRequired) = true := by
    obtain ⟨h1, h2, h3⟩ := names_shape ho hat hn
    rcases hp with ⟨-, h | h⟩ | ⟨cs, x, rfl, -⟩
    · rw [hi3.mpr ⟨o, hn.1, hr, names_long ho hat hn h⟩]; simp
    · rw [hi5.mpr ⟨o, hn.1, hr, names_old ho hat hn h⟩]; simp
    · have := names_short ho hat hn
      rw [hi1.mpr ⟨o, hn.1, hr, _, this.1, x, rfl, this.2⟩]; simp
  have key : runCase (DAct.run (ownComplete E parents c) prev cur) prev (prevClauses (infoOf parents c)) = ([.arg (E.optCode c o) cur []], true) := by
    rcases hp with ⟨rfl, h | h⟩ | ⟨cs, x, rfl, rfl, hd, hl, hno⟩
    · have hlr := hi3.mpr ⟨o, hn.1, hr, names_long ho hat hn h⟩
      have hst : startsWith prev ['-', '-'] = true := by obtain ⟨a, r, rfl⟩ := h; simp [startsWith]
      rw [prev_long _ _ hst rfl, hlr, if_pos rfl]
      simp only [DAct.run, hc, List.map_cons, List.map_nil]
    · have hor := hi5.mpr ⟨o, hn.1, hr, names_old ho hat hn h⟩
      have hact : DAct.run (ownComplete E parents c) prev cur .word = ([.arg (E.optCode c o) cur []], true) := by
        simp only [DAct.run, hc, List.map_cons, List.map_nil]
      obtain ⟨a, b, r, rfl, hne⟩ := h
      rw [prev_dash _ _ (by simpa using hne), hor, hact]
      cases (infoOf parents c).shortRequired <;> simp
    · have hns := names_short ho hat hn
      have hsr := hi1.mpr ⟨o, hn.1, hr, _, hns.1, x, rfl, hns.2⟩
      have hact : DAct.run (ownComplete E parents c) ('-' :: (cs ++ [x])) cur .last = ([.arg (E.optCode c o) cur []], true) := by
        simp only [DAct.run, last_of_dash, Option.map_some, Option.getD_some, hc, List.map_cons, List.map_nil]
      have hce : clusterEnds (infoOf parents c).noArgs (infoOf parents c).requiredArgs (cs ++ [x]) = true := by
        rw [clusterEnds_append, (listed_iff ho hat cs).mpr hl,
          List.contains_iff_mem.mpr (mem_requiredArgs ho hat hn.1 hr hns.1)]
        rfl
      rw [prev_dash _ _ hd, hsr, hce, hact]
      cases hor : (infoOf parents c).oldRequired with
      | false => simp
      | true =>
        simp only [Bool.and_true, if_true]
        by_cases hcs : cs = []
        · subst hcs
          have : DAct.run (ownComplete E parents c) ('-' :: ([] ++ [x])) cur .word = ([.arg (E.optCode c o) cur []], true) := by
            have hc' : ownComplete E parents c ('-' :: ([] ++ [x])) false = ([E.optCode c o], true) := hc
            simp only [DAct.run, hc', List.map_cons, List.map_nil]
          rw [this]; simp
        · have hnone := complete_none ho hat hk E hna (s := '-' :: (cs ++ [x])) (m := false) (fun o' h => absurd h (hno hcs o'))
          have : DAct.run (ownComplete E parents c) ('-' :: (cs ++ [x])) cur .word = ([], false) := by
            simp only [DAct.run, ownComplete, hnone, List.map_nil]
          rw [this]; simp
  unfold ownDispatch runDispatcher
  simp only [hreq, if_true, key]

/-- If the word before does not ask for an argument, only the word at the cursor counts. -/
theorem dispatch_quiet {prev : Str} (cur : Str) (hq : Quiet parents c prev) :
    ownDispatch E parents c prev cur =
      if (infoOf parents c).shortRequired || (infoOf parents c).longRequired || (infoOf parents c).oldRequired ||
        ((infoOf parents c).shortOptional || (infoOf parents c).longOptional || (infoOf parents c).oldOptional) then
        runCase (DAct.run (ownComplete E parents c) prev cur) cur (curClauses (infoOf parents c)) else ([], false) := by
  obtain ⟨hi1, -, hi3, -, hi5, -⟩ := info_flags ho hat hk
  have hword : (∃ o ∈ c.data.options, o.kind = .required) →
      DAct.run (ownComplete E parents c) prev cur .word = ([], false) := by
    intro hx
    have hnone := complete_none ho hat hk E (Or.inl hx) (s := prev) (m := false) (fun o h hf _ => by
      have := hq.1 o h
      cases h' : o.kind with
      | flag => exact absurd h' hf
      | required => exact absurd h' this
      | optional => exact ⟨rfl, rfl⟩)
    simp only [DAct.run, ownComplete, hnone, List.map_nil]
  have hlast : ∀ u x, prev = '-' :: (u ++ [x]) → (∃ o ∈ c.data.options, o.kind = .required) →
      (∀ o, NamesOption parents c ['-', x] o → o.kind ≠ .required) →
      DAct.run (ownComplete E parents c) prev cur .last = ([], false) := by
    intro u x hpx hx hno
    have hnone := complete_none ho hat hk E (Or.inl hx) (s := ['-', x]) (m := false) (fun o h hf _ => by
      have := hno o h
      cases h' : o.kind with
      | flag => exact absurd h' hf
      | required => exact absurd h' this
      | optional => exact ⟨rfl, rfl⟩)
    rw [hpx]
    simp only [DAct.run, last_of_dash, Option.map_some, Option.getD_some, ownComplete, hnone, List.map_nil]
  have key : runCase (DAct.run (ownComplete E parents c) prev cur) prev (prevClauses (infoOf parents c)) = ([], false) := by
    cases hs : startsWith prev ['-'] with
    | false => exact prev_other _ _ hs
    | true =>
      obtain ⟨w, rfl⟩ := startsWith_dash hs
      rcases long_or_dash w with hl | hl
      · rw [prev_long _ _ hl rfl]
        split
        · rename_i h
          obtain ⟨o, hm, hr, -⟩ := hi3.mp h
          exact hword ⟨o, hm, hr⟩
        · rfl
      · rw [prev_dash _ _ hl]
        rcases List.eq_nil_or_concat w with rfl | ⟨u, x, rfl⟩
        · have h0 : clusterEnds (infoOf parents c).noArgs (infoOf parents c).requiredArgs [] = false := rfl
          rw [h0, Bool.and_false]
          split
          · rename_i h
            rw [Bool.and_eq_true] at h
            obtain ⟨o, hm, hr, -⟩ := hi1.mp h.2
            rw [hword ⟨o, hm, hr⟩]
            have hnone := complete_none ho hat hk E (Or.inl ⟨o, hm, hr⟩) (s := ['-', '-']) (m := false) (fun o h _ _ =>
              absurd rfl (names_shape ho hat h).2.1)
            have : DAct.run (ownComplete E parents c) ['-'] cur .last = ([], false) := by
              simp only [DAct.run, ownComplete, List.getLast?_singleton, Option.map_some, Option.getD_some, hnone, List.map_nil]
            rw [this]; rfl
          · split
            · rename_i h
              obtain ⟨o, hm, hr, -⟩ := hi5.mp h
              exact hword ⟨o, hm, hr⟩
            · rfl
        · rw [List.concat_eq_append] at hl hq hword hlast ⊢
          split
          · rename_i h
            rw [Bool.and_eq_true] at h
            obtain ⟨o, hm, hr, s, hs1, hs2⟩ := hi5.mp h.1
            rw [hword ⟨o, hm, hr⟩, hlast u x rfl ⟨o, hm, hr⟩ (fun o' h1 h2 => (hq.2 u x o' rfl hl h1 h2).1 o hm hr s hs1 hs2)]
            rfl
          · split
            · rename_i h
              obtain ⟨o, hm, hr, -⟩ := hi5.mp h
              exact hword ⟨o, hm, hr⟩
            · split
              · rename_i h
                rw [Bool.and_eq_true, clusterEnds_append, Bool.and_eq_true] at h
                obtain ⟨o, hm, hr, -⟩ := hi1.mp h.1
                exact hlast u x rfl ⟨o, hm, hr⟩ (fun o' h1 h2 =>
                  (hq.2 u x o' rfl hl h1 h2).2 ((listed_iff ho hat u).mp h.2.2))
              · rfl
  unfold ownDispatch runDispatcher
  simp only [key, List.nil_append]
  cases ((infoOf parents c).shortRequired || (infoOf parents c).longRequired || (infoOf parents c).oldRequired) <;> simp

/-- The word at the cursor does not look like an option. -/
theorem dispatch_none {prev cur : Str} (hq : Quiet parents c prev) (hcur : startsWith cur ['-'] = false) :
    ownDispatch E parents c prev cur = ([], false) := by
  rw [dispatch_quiet ho hat hk E cur hq, cur_other _ _ hcur (fun s hs => (oldStrings_shape ho hat hs).2)]
  split <;> rfl

/-- The argument is in the same word, after `=`. -/
theorem dispatch_eq {o : Opt} {n prev : Str} (v : Str) (hq : Quiet parents c prev) (hna : NotAllOptional c)
    (hn : NamesOption parents c n o) (hf : o.kind ≠ .flag) (hw : WhenMet E c o) (hst : IsLong n ∨ IsOld n) :
    ownDispatch E parents c prev (n ++ '=' :: v) = ([.arg (E.optCode c o) v []], true) := by
  have hc : ownComplete E parents c n true = ([E.optCode c o], true) :=
    complete_own ho hat hk E hna hn hf hw (fun _ => rfl)
  have hne := names_noEq ho hat hn
  have hact : DAct.run (ownComplete E parents c) prev (n ++ '=' :: v) .eq = ([.arg (E.optCode c o) v []], true) := by
    simp only [DAct.run, beforeEq_append hne, afterEq_append hne, hc, List.map_cons, List.map_nil]
  obtain ⟨-, -, hi3, hi4, hi5, hi6⟩ := info_flags ho hat hk
  have hkind : o.kind = .required ∨ o.kind = .optional := by
    cases h : o.kind with
    | flag => exact absurd h hf
    | required => exact Or.inl rfl
    | optional => exact Or.inr rfl
  rw [dispatch_quiet ho hat hk E _ hq]
  rcases hst with h | h
  · have hll : ((infoOf parents c).longRequired || (infoOf parents c).longOptional) = true := by
      rcases hkind with hr | hr
      · rw [hi3.mpr ⟨o, hn.1, hr, names_long ho hat hn h⟩]; rfl
      · rw [hi4.mpr ⟨o, hn.1, hr, names_long ho hat hn h⟩]; simp
    have hall : ((infoOf parents c).shortRequired || (infoOf parents c).longRequired || (infoOf parents c).oldRequired ||
        ((infoOf parents c).shortOptional || (infoOf parents c).longOptional || (infoOf parents c).oldOptional)) = true := by
      rcases Bool.or_eq_true .. ▸ hll with h | h <;> simp [h]
    rw [if_pos hall]
    obtain ⟨a, r, rfl⟩ := h
    have := cur_long (DAct.run (ownComplete E parents c) prev ('-' :: '-' :: (a :: r ++ '=' :: v))) (infoOf parents c) (w := a :: r ++ '=' :: v) rfl
    have hcont : (a :: r ++ '=' :: v).contains '=' = true := by simp
    rw [hcont, hll] at this
    exact this.trans hact
  · have hoo : ((infoOf parents c).oldRequired || (infoOf parents c).oldOptional) = true := by
      rcases hkind with hr | hr
      · rw [hi5.mpr ⟨o, hn.1, hr, names_old ho hat hn h⟩]; rfl
      · rw [hi6.mpr ⟨o, hn.1, hr, names_old ho hat hn h⟩]; simp
    have hall : ((infoOf parents c).shortRequired || (infoOf parents c).longRequired || (infoOf parents c).oldRequired ||
        ((infoOf parents c).shortOptional || (infoOf parents c).longOptional || (infoOf parents c).oldOptional)) = true := by
      rcases Bool.or_eq_true .. ▸ hoo with h | h <;> simp [h]
    rw [if_pos hall]
    have hnot : (infoOf parents c).oldStrings.contains (n ++ '=' :: v) = false := by
      cases hx : (infoOf parents c).oldStrings.contains (n ++ '=' :: v) with
      | false => rfl
      | true => exact absurd (by simp) (oldStrings_shape ho hat (List.contains_iff_mem.mp hx)).1
    obtain ⟨a, b, r, rfl, hne'⟩ := h
    have := cur_dash (DAct.run (ownComplete E parents c) prev ('-' :: (a :: b :: r ++ '=' :: v))) (infoOf parents c) (w := a :: b :: r ++ '=' :: v)
      (by simpa using hne') rfl
    have hcont : (a :: b :: r ++ '=' :: v).contains '=' = true := by simp
    have hnot' : (infoOf parents c).oldStrings.contains ('-' :: (a :: b :: r ++ '=' :: v)) = false := hnot
    have hact' : DAct.run (ownComplete E parents c) prev ('-' :: (a :: b :: r ++ '=' :: v)) .eq = ([.arg (E.optCode c o) v []], true) := hact
    rw [hcont, hoo, hnot', hact', Bool.and_false] at this
    simpa using this

theorem letterLoop_flags (hna : NotAllOptional c) {o : Opt} {x : Char} (v : Str) (hn : NamesOption parents c ['-', x] o) (hf : o.kind ≠ .flag)
    (hw : WhenMet E c o) (cs : Str) (hcs : ∀ y ∈ cs, ∀ o', NamesOption parents c ['-', y] o' → o'.kind = .flag) (pre : Str) :
    letterLoop (ownComplete E parents c) pre (cs ++ x :: v) = ([.arg (E.optCode c o) v (pre ++ cs ++ [x])], true) := by
  induction cs generalizing pre with
  | nil =>
    have hc : ownComplete E parents c ['-', x] true = ([E.optCode c o], true) :=
      complete_own ho hat hk E hna hn hf hw (fun _ => rfl)
    rw [List.nil_append, letterLoop]
    simp only [hc, List.map_cons, List.map_nil, if_true, List.append_nil]
  | cons y cs ih =>
    have hnone := complete_none ho hat hk E hna (s := ['-', y]) (m := true) (fun o' h hf' _ =>
      absurd (hcs y (List.mem_cons_self ..) o' h) hf')
    rw [List.cons_append, letterLoop]
    simp only [ownComplete, hnone, List.map_nil, Bool.false_eq_true, if_false, List.nil_append]
    have := ih (fun z hz => hcs z (List.mem_cons_of_mem _ hz)) (pre ++ [y])
    simp only [ownComplete] at this
    rw [this]
    simp

/-- The argument is in the same word, after the letter. -/
theorem dispatch_attached {o : Opt} {prev : Str} (cs : Str) (x : Char) (v : Str) (hq : Quiet parents c prev) (hna : NotAllOptional c)
    (hn : NamesOption parents c ['-', x] o) (hf : o.kind ≠ .flag) (hw : WhenMet E c o) (hd : (cs ++ [x]).head? ≠ some '-')
    (hl : ListedFlags parents c cs) (hcs : ∀ y ∈ cs, ∀ o', NamesOption parents c ['-', y] o' → o'.kind = .flag)
    (hold : ∀ o' ∈ getOptions parents c (decide (Inherits c)) false, ∀ s ∈ o'.strings, IsOld s → ¬ ('-' :: (cs ++ x :: v)) <+: s)
    (heq : ∀ o', ¬ NamesOption parents c (beforeEq ('-' :: (cs ++ x :: v))) o' ∨ '=' ∉ (cs ++ x :: v)) :
    ownDispatch E parents c prev ('-' :: (cs ++ x :: v)) = ([.arg (E.optCode c o) v ('-' :: (cs ++ [x]))], true) := by
  have hloop : DAct.run (ownComplete E parents c) prev ('-' :: (cs ++ x :: v)) .loop = ([.arg (E.optCode c o) v ('-' :: (cs ++ [x]))], true) := by
    simp only [DAct.run, List.tail_cons]
    rw [letterLoop_flags ho hat hk E hna v hn hf hw cs hcs]
    rfl
  obtain ⟨hi1, hi2, -⟩ := info_flags ho hat hk
  have hns := names_short ho hat hn
  have hss : ((infoOf parents c).shortRequired || (infoOf parents c).shortOptional) = true := by
    cases h : o.kind with
    | flag => exact absurd h hf
    | required => rw [hi1.mpr ⟨o, hn.1, h, _, hns.1, x, rfl, hns.2⟩]; rfl
    | optional => rw [hi2.mpr ⟨o, hn.1, h, _, hns.1, x, rfl, hns.2⟩]; simp
  have hall : ((infoOf parents c).shortRequired || (infoOf parents c).longRequired || (infoOf parents c).oldRequired ||
      ((infoOf parents c).shortOptional || (infoOf parents c).longOptional || (infoOf parents c).oldOptional)) = true := by
    rcases Bool.or_eq_true .. ▸ hss with h | h <;> simp [h]
  rw [dispatch_quiet ho hat hk E _ hq, if_pos hall]
  have hhead : (cs ++ x :: v).head? ≠ some '-' := by
    cases cs with
    | nil => simpa using hd
    | cons y cs => simpa using hd
  rw [cur_dash _ _ hhead rfl, hss, hloop]
  have hnot : (infoOf parents c).oldStrings.contains ('-' :: (cs ++ x :: v)) = false := by
    cases hx : (infoOf parents c).oldStrings.contains ('-' :: (cs ++ x :: v)) with
    | false => rfl
    | true =>
      obtain ⟨l, hl, hp, -⟩ := mem_namesOf (List.contains_iff_mem.mp hx)
      obtain ⟨o', hm, hl⟩ := List.mem_flatMap.mp hl
      obtain ⟨qs, y, hy, hxy⟩ := getOptions_from hat hm
      obtain ⟨h1, h2⟩ := ((optStrings_iff (ho.valid _ _ hy o' hxy) l).2.2).mp hl
      exact absurd hp (hold o' hm l h1 h2)
  rw [hnot, Bool.and_false, if_neg (by decide)]
  have hch := clusterHas_append (infoOf parents c).noArgs ((infoOf parents c).requiredArgs ++ (infoOf parents c).optionalArgs) cs v x
    (List.contains_iff_mem.mpr (mem_argLetters ho hat hn.1 hf hns.1)) ((listed_iff ho hat cs).mpr hl)
  rw [hch]
  cases he : (cs ++ x :: v).contains '=' with
  | false => simp
  | true =>
    have hnone := complete_none ho hat hk E hna (s := beforeEq ('-' :: (cs ++ x :: v))) (m := true) (fun o' h _ _ => by
      rcases heq o' with h' | h'
      · exact absurd h h'
      · exact absurd (List.contains_iff_mem.mp he) h')
    have : DAct.run (ownComplete E parents c) prev ('-' :: (cs ++ x :: v)) .eq = ([], false) := by
      simp only [DAct.run, ownComplete, hnone, List.map_nil]
    rw [this]
    cases ((infoOf parents c).oldRequired || (infoOf parents c).oldOptional) <;> simp

end

end CC
