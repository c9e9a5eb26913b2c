import Verif.Lemmas.ZshEach
/-!
# C85: what the completers do in Zsh
-/

namespace CC
open BashCode ZshCompleter

/-- The surroundings that the generator and the script agree on. -/
structure ZshReady (s : Setting) (ctxt : ZshCtxt) : Prop where
  pre : s.pre = ctxt.pre
  metavar : s.metavar = ctxt.metavar
  help : s.help = ctxt.help
  prefixOk : PrefixOk ctxt.pre
  named : NameOk ctxt.base

theorem used_name {pre name f : Str} (h : useHelper zshRepo pre name = .ok f) : f = realName pre name := by
  unfold useHelper at h
  split at h
  · cases h; rfl
  · cases h

theorem good_own {s : Setting} {ctxt : ZshCtxt} (R : ZshReady s ctxt) {c : Comp} {name : String} {args : List Str} {o : ZshObj}
    (h : zshHelper ctxt name args = .ok o) (hn : ∀ c ∈ name.toList, isSafeChar c = true)
    (hk : ∀ w ∈ args, ZshCode.keeps w = true) (ht : texts s c = args)
    (hd : Does s c (.run [.call (helper s name :: args)])) : Good s c o := by
  unfold zshHelper at h
  obtain ⟨f, hf, h⟩ := ok_bind h
  cases h
  rw [used_name hf]
  have := own_args (s := s) (c := c) (args := args) (fun w hw => Or.inl (ht ▸ hw))
  refine good_helper R.prefixOk _ hn args hk this.1 this.2 ?_
  rw [helper_realName, R.pre] at hd
  exact hd

/-- A call of a function of the script. -/
theorem good_name {s : Setting} {c : Comp} {g : Str} (hg : NameOk g) (hd : Does s c (.run [.call [g]])) :
    Good s c (.func [g] true) := by
  refine .call hg.quote hg.not_local (by simp) ?_ ?_ ?_ hd
  · intro w hw; simp at hw; subst hw; exact hg.keeps
  · intro _ w hw; simp at hw; subst hw; exact hg.no (Or.inl rfl)
  · intro _ w hw; simp at hw; subst hw; exact bsOk_none (hg.no (Or.inr rfl))

theorem dir_calls {s : Setting} {d : Option Str} {g : Str} (h : Via s (.directory d) g) : Calls s g [.call (dirWords s d)] := by
  obtain ⟨ws, rfl, hc⟩ := calls_of_via (P := fun ws => ws = dirWords s d) h (by
    intro t ht
    simp only [Does] at ht
    exact ⟨_, rfl, ht⟩)
  exact hc

theorem file_calls {s : Setting} {o : FileOpts} {g : Str} (h : Via s (.file o) g) : ∃ ws, FileWords s o ws ∧ Calls s g [.call ws] :=
  calls_of_via (P := FileWords s o) h (by
    intro t ht
    simp only [Does] at ht
    exact ht)

theorem run_action (t : Str) (w : List Seg) (o : List Tok) :
    run ⟨.word, w, [], o⟩ (S ":::" ++ quote t) = some ⟨.word, w ++ chs (S ":::" ++ t), [], o⟩ := by
  rw [run_append, run_word_safe _ (by decide), Option.bind_some, run_quote_word]
  simp [chs]

theorem readAction_of {t : Str} (h : bsOk t = true) : ZshCode.readAction (S ":::" ++ t) = some (some t) := by
  have : ZshCode.readAction (S ":::" ++ t) = some (some (ZshCode.plainColons t)) := by
    simp [S, ZshCode.readAction, ZshCode.behindMessage]
  rw [this, plainColons_bsOk _ h]

theorem condition_keeps {isList : Bool} {cond : Option Str} {k : Str} {d : Option Str} {ex : List Str}
    (h : KeyFits isList k d ex) : ∀ w ∈ (BashCompleter.keyCondition isList cond k).toList, ZshCode.keeps w = true := by
  intro w hw
  cases cond with
  | none => simp [BashCompleter.keyCondition] at hw
  | some f =>
    simp only [BashCompleter.keyCondition, Option.map_some, Option.toList_some, List.mem_singleton] at hw
    subst hw
    exact plain_keeps h.1

/-- What is known of the lines of the keys. -/
structure KeyLines (s : Setting) (isList : Bool) (cond : Option Str) (ks : KeyDefList) (lines : List Str) : Prop where
  does : ∃ pushes, ReadsAs (joinWith ['\n'] lines) pushes ∧ DoesKeys s isList cond ks pushes ∧
    ∀ p ∈ pushes, ∀ w ∈ ZshCode.words p, ZshCode.keeps w = true

theorem key_line {s : Setting} {isList : Bool} {cond : Option Str} {k : Str} {d : Option Str} {ex : List Str}
    (h : KeyFits isList k d ex) (arg argText : Str) (action : Option Str)
    (ha : ∀ w o, run ⟨.word, w, [], o⟩ arg = some ⟨.word, w ++ chs argText, [], o⟩)
    (hr : ZshCode.readAction argText = some action) (hh : argText = [] ∨ argText.head? = some ':')
    {ks ks' : KeyDefList} {lines : List Str} (hl : KeyLines s isList cond ks lines)
    (hd : ∀ w pushes, ZshCode.readDef w = some (keyDef isList k d ex action) → DoesKeys s isList cond ks pushes →
      DoesKeys s isList cond ks' (.push (BashCompleter.keyCondition isList cond k) [w] :: pushes)) :
    KeyLines s isList cond ks' (zshPushLine isList cond k d ex arg :: lines) := by
  obtain ⟨pushes, h1, h2, h3⟩ := hl.does
  refine ⟨⟨_, keys_join (reads_zshPush isList cond k d ex h.1 arg argText ha) h1,
    hd _ pushes (readDef_key isList k d ex argText action h hr hh) h2, ?_⟩⟩
  intro p hp w hw
  rcases List.mem_cons.mp hp with rfl | hp
  · simp only [ZshCode.words] at hw
    rcases List.mem_append.mp hw with hw | hw
    · exact condition_keeps h w hw
    · simp at hw; subst hw; exact keyText_keeps isList k d ex argText h
  · exact h3 p hp w hw

theorem keyStart_keeps (cond : Option Str) : ∀ p ∈ BashCompleter.keyStart cond, ∀ w ∈ ZshCode.words p, ZshCode.keeps w = true := by
  intro p hp w hw
  cases cond <;> simp [BashCompleter.keyStart] at hp
  · subst hp; simp [ZshCode.words] at hw
  · rcases hp with rfl | rfl <;> simp [ZshCode.words] at hw

theorem key_code {s : Setting} {isList : Bool} {cond : Option Str} {ks : KeyDefList} {lines : List Str}
    (hl : KeyLines s isList cond ks lines) (args : List Str) (hk : ∀ w ∈ args, ZshCode.keeps w = true) (call : Str)
    (hc : call = joinQuoted ("_values".toList :: args)) :
    ∃ pushes, DoesKeys s isList cond ks pushes ∧ ZshCode.read (keyValueCode cond lines call) =
      some (BashCompleter.keyStart cond ++ pushes ++ [.callWith ("_values".toList :: args) "a".toList]) := by
  obtain ⟨pushes, h1, h2, h3⟩ := hl.does
  refine ⟨pushes, h2, zread_of (reads_keyValue cond lines pushes h1 _ (by decide) args call hc) ?_⟩
  intro p hp w hw
  simp only [List.mem_append, List.mem_singleton] at hp
  rcases hp with (hp | hp) | rfl
  · exact keyStart_keeps cond p hp w hw
  · exact h3 p hp w hw
  · simp only [ZshCode.words, List.mem_cons] at hw
    rcases hw with rfl | hw
    · decide
    · exact hk w hw

theorem list_call (ps vs m : Str) : S "_values -s " ++ quote ps ++ S " -S " ++ quote vs ++ S " " ++ quote m =
    joinQuoted ("_values".toList :: ["-s".toList, ps, "-S".toList, vs, m]) := by
  have e1 : quote "_values".toList = "_values".toList := by decide
  have e2 : quote "-s".toList = "-s".toList := by decide
  have e3 : quote "-S".toList = "-S".toList := by decide
  simp only [joinQuoted, List.map_cons, List.map_nil, joinWith, e1, e2, e3]
  simp [S]

theorem pair_call (vs m : Str) : S "_values -S " ++ quote vs ++ S " " ++ quote m =
    joinQuoted ("_values".toList :: ["-S".toList, vs, m]) := by
  have e1 : quote "_values".toList = "_values".toList := by decide
  have e3 : quote "-S".toList = "-S".toList := by decide
  simp only [joinQuoted, List.map_cons, List.map_nil, joinWith, e1, e3]
  simp [S]

mutual
theorem zsh_good {s : Setting} {ctxt : ZshCtxt} (R : ZshReady s ctxt) : ∀ (c : Comp), Fits s c → ∀ (dyn : Dyn),
    (∀ e ∈ dyn, NameOk e.2) → ∀ (r : ZshObj × Dyn), zshCompleter ctxt c dyn = .ok r → (∀ e ∈ r.2, e ∈ s.functions) → Good s c r.1
  | .combine cs, hf, dyn, hd, r, h, hF => by
    simp only [zshCompleter] at h
    obtain ⟨x, hx, h⟩ := ok_bind h
    obtain ⟨g, hg, h⟩ := ok_bind h
    cases h
    simp only [Fits] at hf
    have hk := (Kept.dyn (ctxt := ctxt) hg)
    have hdx := (zsh_kept_all ctxt cs dyn x hx).2 R.named hd
    obtain ⟨ts, h1, h2, h3⟩ := zsh_good_all R cs hf dyn hd x hx (fun e he => hF e (hk.1 e he))
    have hN := addDynFunc_named R.named hdx hg
    refine .combined hN.1 ?_
    simp only [Does]
    refine ⟨g.1, ts, h2, Or.inr ⟨_, hF _ (addDynFunc_spec hg).2, ?_⟩, rfl⟩
    rw [h1]
    refine zread_of (reads_alternative ts h3) ?_
    intro p hp w hw
    simp at hp; subst hp
    simp only [ZshCode.words, List.mem_cons, List.mem_map] at hw
    rcases hw with rfl | ⟨a, _, rfl⟩
    · decide
    · exact keeps_cons (by decide)
  | .list c o, hf, dyn, hd, r, h, hF => by
    simp only [zshCompleter] at h
    obtain ⟨x, hx, h⟩ := ok_bind h
    obtain ⟨g, hg, h⟩ := ok_bind h
    cases h
    simp only [Fits] at hf
    have hk : Kept ctxt x.2 g.2 := getFunction_kept hg
    have hG := zsh_good R c hf.1 dyn hd x hx (fun e he => hF e (hk.1 e he))
    have hfun := function_of_good R.metavar R.named ((zsh_kept ctxt c dyn x hx).2 R.named hd) hf.1 hf.2.1 hG hg hF
    refine good_sequence o g.1 hf.2.2 hfun.keeps hfun.no (by simp [texts, ownWords]) ?_
    simp only [Does]
    exact ⟨g.1, hfun.via, rfl⟩
  | .prefix p c, hf, dyn, hd, r, h, hF => by
    simp only [zshCompleter] at h
    obtain ⟨f, hu, h⟩ := ok_bind h
    obtain ⟨x, hx, h⟩ := ok_bind h
    obtain ⟨g, hg, h⟩ := ok_bind h
    cases h
    simp only [Fits] at hf
    have hk : Kept ctxt x.2 g.2 := getFunction_kept hg
    have hG := zsh_good R c hf.1 dyn hd x hx (fun e he => hF e (hk.1 e he))
    have hfun := function_of_good R.metavar R.named ((zsh_kept ctxt c dyn x hx).2 R.named hd) hf.1 hf.2.1 hG hg hF
    rw [used_name hu]
    have := own_args (s := s) (c := .prefix p c) (args := [p, g.1]) (by
      intro w hw
      simp at hw
      rcases hw with rfl | rfl
      · left; simp [texts, ownWords]
      · exact Or.inr ⟨hfun.no _ (Or.inl rfl), hfun.no _ (Or.inr rfl)⟩)
    refine good_helper R.prefixOk (S "prefix") (by decide) [p, g.1] ?_ this.1 this.2 ?_
    · intro w hw
      simp at hw
      rcases hw with rfl | rfl
      · exact hf.2.2
      · exact hfun.keeps
    · simp only [Does, helper_realName, R.pre]
      exact ⟨g.1, hfun.via, rfl⟩
  | .keyValueList ps vs ks cond, hf, dyn, hd, r, h, hF => by
    simp only [zshCompleter] at h
    obtain ⟨x, hx, h⟩ := ok_bind h
    obtain ⟨g, hg, h⟩ := ok_bind h
    cases h
    simp only [Fits] at hf
    have hk := (Kept.dyn (ctxt := ctxt) hg)
    have hdx := (zsh_kept_keys ctxt true cond ks dyn x hx).2 R.named hd
    have hl := zsh_good_keys R true cond ks hf.1 dyn hd x hx (fun e he => hF e (hk.1 e he))
    have hN := addDynFunc_named R.named hdx hg
    obtain ⟨pushes, h1, h2⟩ := key_code hl ["-s".toList, ps, "-S".toList, vs, s.metavar] (by
      intro w hw
      simp at hw
      rcases hw with rfl | rfl | rfl | rfl | rfl
      · decide
      · exact hf.2 _ (by simp)
      · decide
      · exact hf.2 _ (by simp)
      · exact hf.2 _ (by simp)) _ (list_call ps vs s.metavar)
    refine good_name hN.1 ?_
    simp only [Does]
    refine ⟨g.1, pushes, h1, Or.inr ⟨_, hF _ (addDynFunc_spec hg).2, ?_⟩, rfl⟩
    rw [← R.metavar]
    exact h2
  | .keyValuePair vs ks cond, hf, dyn, hd, r, h, hF => by
    simp only [zshCompleter] at h
    obtain ⟨x, hx, h⟩ := ok_bind h
    obtain ⟨g, hg, h⟩ := ok_bind h
    cases h
    simp only [Fits] at hf
    have hk := (Kept.dyn (ctxt := ctxt) hg)
    have hdx := (zsh_kept_keys ctxt false cond ks dyn x hx).2 R.named hd
    have hl := zsh_good_keys R false cond ks hf.1 dyn hd x hx (fun e he => hF e (hk.1 e he))
    have hN := addDynFunc_named R.named hdx hg
    obtain ⟨pushes, h1, h2⟩ := key_code hl ["-S".toList, vs, s.metavar] (by
      intro w hw
      simp at hw
      rcases hw with rfl | rfl | rfl
      · decide
      · exact hf.2 _ (by simp)
      · exact hf.2 _ (by simp)) _ (pair_call vs s.metavar)
    refine good_name hN.1 ?_
    simp only [Does]
    refine ⟨g.1, pushes, h1, Or.inr ⟨_, hF _ (addDynFunc_spec hg).2, ?_⟩, rfl⟩
    rw [← R.metavar]
    exact h2
  | .void n, hf, dyn, hd, r, h, hF => by
    simp only [zshCompleter] at h
    obtain ⟨o, ho, h⟩ := ok_bind h
    cases h
    simp only [Fits, FitsHere] at hf
    exact good_void R.pre R.prefixOk hf.1.1 hf.1.2 ho
  | .none, hf, dyn, hd, r, h, hF => by
    simp only [zshCompleter] at h; cases h; exact .nothing rfl
  | .commandArg, hf, dyn, hd, r, h, hF => by
    simp only [zshCompleter] at h; cases h
    exact good_library (by decide) [] (by simp) (by simp) (by simp) (by simp only [Does]; rfl)
  | .date f, hf, dyn, hd, r, h, hF => by
    simp only [zshCompleter] at h; cases h
    simp only [Fits] at hf
    have := own_args (s := s) (c := .date f) (args := [S "-f", f]) (by
      intro w hw
      simp at hw
      rcases hw with rfl | rfl
      · right; decide
      · left; simp [texts, ownWords])
    refine good_library (by decide) [S "-f", f] ?_ this.1 this.2 (by simp only [Does]; rfl)
    intro w hw
    simp at hw
    rcases hw with rfl | rfl
    · decide
    · exact hf.2 _ (by simp [ownWords])
  | .choices c, hf, dyn, hd, r, h, hF => by
    simp only [zshCompleter] at h; cases h; exact .choices rfl
  | .command p a b, hf, dyn, hd, r, h, hF => by
    simp only [zshCompleter] at h; cases h; exact .command rfl
  | .directory d, hf, dyn, hd, r, h, hF => by
    simp only [zshCompleter] at h
    obtain ⟨o, ho, h⟩ := ok_bind h
    cases h
    simp only [Fits, FitsHere] at hf
    exact good_directory R.pre R.prefixOk hf.1 hf.2 ho
  | .file o, hf, dyn, hd, r, h, hF => by
    simp only [zshCompleter] at h
    obtain ⟨x, hx, h⟩ := ok_bind h
    cases h
    simp only [Fits, FitsHere] at hf
    exact good_file R.pre R.prefixOk hf.1.1 hf.1.2 hf.2 hx
  | .directoryList d l, hf, dyn, hd, r, h, hF => by
    simp only [zshCompleter] at h
    obtain ⟨o, ho, h⟩ := ok_bind h
    obtain ⟨g, hg, h⟩ := ok_bind h
    cases h
    simp only [Fits, FitsHere] at hf
    have hw : ∀ w ∈ d.toList, ZshCode.keeps w = true := fun w hw => hf.2 w (by simp only [ownWords, List.mem_append]; exact Or.inl hw)
    have hG := good_directory R.pre R.prefixOk hf.1 hw ho
    have hfun := function_of_good R.metavar R.named hd (c := .directory d) (by simp only [Fits]; exact ⟨hf.1, hw⟩) trivial hG hg hF
    refine good_sequence l g.1 (hf.2 _ (by simp [ownWords])) hfun.keeps hfun.no (by simp [texts]) ?_
    simp only [Does]
    exact ⟨g.1, dir_calls hfun.via, rfl⟩
  | .fileList o l, hf, dyn, hd, r, h, hF => by
    simp only [zshCompleter] at h
    obtain ⟨x, ho, h⟩ := ok_bind h
    obtain ⟨g, hg, h⟩ := ok_bind h
    cases h
    simp only [Fits, FitsHere] at hf
    have hw : ∀ w ∈ o.directory.toList, ZshCode.keeps w = true := fun w hw => hf.2 w (by simp only [ownWords, List.mem_append]; exact Or.inl hw)
    have hG := good_file R.pre R.prefixOk hf.1.1 hf.1.2 hw ho
    have hfun := function_of_good R.metavar R.named hd (c := .file o) (by simp only [Fits]; exact ⟨hf.1, hw⟩) trivial hG hg hF
    refine good_sequence l g.1 (hf.2 _ (by simp [ownWords])) hfun.keeps hfun.no (by simp [texts]) ?_
    simp only [Does]
    obtain ⟨ws, h1, h2⟩ := file_calls hfun.via
    exact ⟨g.1, ws, h1, h2, rfl⟩
  | .exec c, hf, dyn, hd, r, h, hF => by
    simp only [zshCompleter] at h
    obtain ⟨o, ho, h⟩ := ok_bind h
    cases h
    simp only [Fits] at hf
    exact good_own R ho (by decide) hf.2 rfl (by simp only [Does])
  | .execFast c, hf, dyn, hd, r, h, hF => by
    simp only [zshCompleter] at h
    obtain ⟨o, ho, h⟩ := ok_bind h
    cases h
    simp only [Fits] at hf
    exact good_own R ho (by decide) hf.2 rfl (by simp only [Does])
  | .execInternal c, hf, dyn, hd, r, h, hF => by
    simp only [zshCompleter] at h; cases h; exact .code rfl
  | .integer o, hf, dyn, hd, r, h, hF => by
    simp only [zshCompleter] at h; cases h
    simp only [Fits] at hf
    exact good_number R.help [] o (by simp) rfl hf.2 (by simp only [Does])
  | .float o, hf, dyn, hd, r, h, hF => by
    simp only [zshCompleter] at h; cases h
    simp only [Fits] at hf
    exact good_number R.help [S "-f"] o (by decide) rfl hf.2 (by simp only [Does]; rfl)
  | .history p, hf, dyn, hd, r, h, hF => by
    simp only [zshCompleter] at h
    obtain ⟨o, ho, h⟩ := ok_bind h
    cases h
    simp only [Fits] at hf
    exact good_own R ho (by decide) hf.2 rfl (by simp only [Does])
  | .mimeFile p, hf, dyn, hd, r, h, hF => by
    simp only [zshCompleter] at h
    obtain ⟨o, ho, h⟩ := ok_bind h
    cases h
    simp only [Fits] at hf
    exact good_own R ho (by decide) hf.2 rfl (by simp only [Does])
  | .ipAddress t, hf, dyn, hd, r, h, hF => by
    simp only [zshCompleter] at h; cases h; exact good_ip s t
  | .keyValueListExec p v c, hf, dyn, hd, r, h, hF => by
    simp only [zshCompleter] at h
    obtain ⟨o, ho, h⟩ := ok_bind h
    cases h
    simp only [Fits] at hf
    exact good_own R ho (by decide) hf.2 rfl (by simp only [Does])
  | .keyValuePairExec v c, hf, dyn, hd, r, h, hF => by
    simp only [zshCompleter] at h
    obtain ⟨o, ho, h⟩ := ok_bind h
    cases h
    simp only [Fits] at hf
    exact good_own R ho (by decide) hf.2 rfl (by simp only [Does])
  | .range a b st, hf, dyn, hd, r, h, hF => by
    simp only [zshCompleter] at h; cases h; exact .range rfl
  | .valueList v o, hf, dyn, hd, r, h, hF => by
    simp only [zshCompleter] at h
    simp only [Fits, FitsHere] at hf
    exact good_valueList R.metavar R.named hd hf.1 ⟨hf.2 _ (by simp [ownWords]), hf.2 _ (by simp [ownWords])⟩ h hF
theorem zsh_good_all {s : Setting} {ctxt : ZshCtxt} (R : ZshReady s ctxt) : ∀ (cs : Comps), FitsAll s cs → ∀ (dyn : Dyn),
    (∀ e ∈ dyn, NameOk e.2) → ∀ (r : List Str × Dyn), zshCompleters ctxt cs dyn = .ok r → (∀ e ∈ r.2, e ∈ s.functions) →
      ∃ ts, r.1 = ts.map (fun t => quote t) ∧ DoesAll s cs ts ∧ ∀ t ∈ ts, '\n' ∉ t
  | .nil, hf, dyn, hd, r, h, hF => by
    simp only [zshCompleters] at h; cases h
    exact ⟨[], rfl, by simp only [DoesAll], by simp⟩
  | .cons c cs, hf, dyn, hd, r, h, hF => by
    simp only [zshCompleters] at h
    obtain ⟨x, hx, h⟩ := ok_bind h
    obtain ⟨a, ha, h⟩ := ok_bind h
    obtain ⟨y, hy, h⟩ := ok_bind h
    cases h
    simp only [FitsAll] at hf
    have k1 : Kept ctxt x.2 a.2 := getAction_kept ha
    have k2 := zsh_kept_all ctxt cs _ y hy
    have hdx := (zsh_kept ctxt c dyn x hx).2 R.named hd
    have hG := zsh_good R c hf.1 dyn hd x hx (fun e he => hF e (k2.1 e (k1.1 e he)))
    obtain ⟨t, hA⟩ := action_of_good R.metavar R.named hdx hf.1 hG ha (fun e he => hF e (k2.1 e he))
    obtain ⟨ts, h1, h2, h3⟩ := zsh_good_all R cs hf.2.2 a.2 (k1.2 R.named hdx) y hy hF
    obtain ⟨task, h4, h5⟩ := hA.does
    refine ⟨t :: ts, by simp [h1, hA.quoted], ?_, ?_⟩
    · simp only [DoesAll]
      exact ⟨t, ts, task, h4, h5, h2, rfl⟩
    · intro u hu
      rcases List.mem_cons.mp hu with rfl | hu
      · exact hA.newline hf.2.1
      · exact h3 u hu
theorem zsh_good_keys {s : Setting} {ctxt : ZshCtxt} (R : ZshReady s ctxt) (isList : Bool) (cond : Option Str) : ∀ (ks : KeyDefList),
    FitsKeys s isList ks → ∀ (dyn : Dyn),
    (∀ e ∈ dyn, NameOk e.2) → ∀ (r : List Str × Dyn), zshKeyDefs ctxt isList cond ks dyn = .ok r → (∀ e ∈ r.2, e ∈ s.functions) →
      KeyLines s isList cond ks r.1
  | .nil, hf, dyn, hd, r, h, hF => by
    simp only [zshKeyDefs] at h; cases h
    exact ⟨⟨[], ReadsAs.nil, by simp only [DoesKeys], by simp⟩⟩
  | .bare k d ex ks, hf, dyn, hd, r, h, hF => by
    simp only [zshKeyDefs] at h
    obtain ⟨y, hy, h⟩ := ok_bind h
    cases h
    simp only [FitsKeys] at hf
    refine key_line hf.1 [] [] none (by intro w o; simp [run, chs]) rfl (Or.inl rfl)
      (zsh_good_keys R isList cond ks hf.2 dyn hd y hy hF) ?_
    intro w pushes h1 h2
    simp only [DoesKeys]
    exact ⟨w, pushes, h1, h2, rfl⟩
  | .cons k d ex c ks, hf, dyn, hd, r, h, hF => by
    rw [zshKeyDefs.eq_def] at h
    simp only [FitsKeys] at hf
    split at h
    · simp at *
    · simp at *
    · rename_i e
      cases e
      obtain ⟨y, hy, h⟩ := ok_bind h
      cases h
      refine key_line hf.1 (S ":::") (S ":::") (some []) (fun w o => run_word_safe _ (by decide) _ _ _) (by decide) (Or.inr rfl)
        (zsh_good_keys R isList cond ks hf.2.2.2 _ hd y hy hF) ?_
      intro w pushes h1 h2
      simp only [DoesKeys]
      exact ⟨w, [], .nothing, pushes, h1, .nothing (by simp), by simp only [Does], h2, rfl⟩
    · rename_i e
      cases e
      obtain ⟨x, hx, h⟩ := ok_bind h
      obtain ⟨a, ha, h⟩ := ok_bind h
      obtain ⟨y, hy, h⟩ := ok_bind h
      cases h
      have k1 : Kept ctxt x.2 a.2 := getAction_kept ha
      have k2 := zsh_kept_keys ctxt isList cond ks _ y hy
      have hdx := (zsh_kept ctxt c _ x hx).2 R.named hd
      have hG := zsh_good R c hf.2.1 _ hd x hx (fun e he => hF e (k2.1 e (k1.1 e he)))
      obtain ⟨t, hA⟩ := action_of_good R.metavar R.named hdx hf.2.1 hG ha (fun e he => hF e (k2.1 e he))
      obtain ⟨task, h4, h5⟩ := hA.does
      rw [hA.quoted]
      refine key_line hf.1 (S ":::" ++ quote t) (S ":::" ++ t) (some t) (fun w o => run_action t w o)
        (readAction_of (hA.backslash hf.2.2.1)) (Or.inr rfl)
        (zsh_good_keys R isList cond ks hf.2.2.2 a.2 (k1.2 R.named hdx) y hy hF) ?_
      intro w pushes h1 h2
      simp only [DoesKeys]
      exact ⟨w, t, task, pushes, h1, h4, h5, h2, rfl⟩
end

/-! ## Generation succeeds -/

/-- The choices of an object are texts. -/
def ObjOk : ZshObj → Prop
  | .choices c => TextChoices c
  | _ => True

theorem dynFunc_total (base code : Str) (dyn : Dyn) (h : DynOk dyn) : ∃ r, addDynFunc base code dyn = .ok r ∧ DynOk r.2 := by
  obtain ⟨n, dyn', h1, h2, _⟩ := addDynamic_spec (dyn.length + 1) base code dyn h (by omega)
  exact ⟨(n, dyn'), by simp [addDynFunc, h1], h2⟩

theorem mapE_total {α β : Type} (f : α → Except Err β) : ∀ (l : List α), (∀ a ∈ l, ∃ b, f a = .ok b) → ∃ r, mapE f l = .ok r
  | [], _ => ⟨[], rfl⟩
  | a :: l, h => by
    obtain ⟨b, hb⟩ := h a (by simp)
    obtain ⟨r, hr⟩ := mapE_total f l (fun x hx => h x (by simp [hx]))
    exact ⟨b :: r, by simp only [mapE, hb, hr]; rfl⟩

theorem listFunction_total (metavar : Str) (n : Int) {l : List Choice} (h : TextChoices (.list l)) :
    ∃ f, zshListFunction metavar n l = .ok f := by
  obtain ⟨r, hr⟩ := mapE_total (fun c => do let e ← escapeColonChoice c; .ok (quote e)) l (by
    intro c hc
    obtain ⟨t, rfl⟩ := h c hc
    exact ⟨_, rfl⟩)
  unfold zshListFunction
  rw [hr]
  exact ⟨_, rfl⟩

theorem zshFunction_total (ctxt : ZshCtxt) (dyn : Dyn) (h : DynOk dyn) (o : ZshObj) (ho : ObjOk o) :
    ∃ r, o.getFunction ctxt dyn = .ok r ∧ DynOk r.2 := by
  cases o with
  | func args b =>
    match args with
    | [] => exact dynFunc_total _ _ _ h
    | [f] => exact ⟨_, rfl, h⟩
    | f :: g :: r => exact dynFunc_total _ _ _ h
  | choices c =>
    cases c with
    | list l =>
      obtain ⟨f, hf⟩ := listFunction_total ctxt.metavar ctxt.lineLength ho
      simp only [ZshObj.getFunction, zshChoicesFunction]
      exact exists_bind hf (dynFunc_total _ _ _ h)
    | table t => exact dynFunc_total _ _ _ h
  | command c =>
    cases c with
    | none => exact ⟨_, rfl, h⟩
    | some code => exact dynFunc_total _ _ _ h
  | range a b s => exact dynFunc_total _ _ _ h
  | combined f => exact ⟨_, rfl, h⟩

theorem zshAction_total (ctxt : ZshCtxt) (dyn : Dyn) (h : DynOk dyn) (o : ZshObj) (ho : ObjOk o) :
    ∃ r, o.getAction ctxt dyn = .ok r ∧ DynOk r.2 := by
  cases o with
  | func args b => exact ⟨_, rfl, h⟩
  | choices c =>
    have hp : ∃ p, zshChoices ctxt.metavar ctxt.lineLength c = .ok p := by
      cases c with
      | list l =>
        obtain ⟨f, hf⟩ := listFunction_total ctxt.metavar ctxt.lineLength ho
        simp only [zshChoices, zshListAction]
        split
        · exact ⟨_, rfl⟩
        · rw [hf]; exact ⟨_, rfl⟩
      | table t => exact ⟨_, rfl⟩
    obtain ⟨p, hp⟩ := hp
    simp only [ZshObj.getAction]
    refine exists_bind hp ?_
    cases p with
    | inline a => exact ⟨_, rfl, h⟩
    | function b => exact dynFunc_total _ _ _ h
  | command c =>
    cases c with
    | none => exact ⟨_, rfl, h⟩
    | some code => exact dynFunc_total _ _ _ h
  | range a b s => exact ⟨_, rfl, h⟩
  | combined f => exact ⟨_, rfl, h⟩

theorem zshHelper_total (ctxt : ZshCtxt) (name : String) (args : List Str) (hl : ∃ l, assocGet zshRepo (S name) = some l) :
    ∃ o, zshHelper ctxt name args = .ok o ∧ ObjOk o := by
  obtain ⟨l, hl⟩ := hl
  exact ⟨.func (realName ctxt.pre (S name) :: args) true, by simp only [zshHelper, useHelper, hl]; rfl, trivial⟩

theorem zshDirectory_total (ctxt : ZshCtxt) (d : Option Str) : ∃ o, zshDirectory ctxt d = .ok o ∧ ObjOk o := by
  unfold zshDirectory
  split
  · exact ⟨_, rfl, trivial⟩
  · split
    · exact ⟨_, rfl, trivial⟩
    · exact zshHelper_total _ _ _ ⟨_, rfl⟩

theorem zshFile_total (ctxt : ZshCtxt) (o : FileOpts) (h : GlobsRead o) : ∃ r, zshFile ctxt o = .ok r ∧ ObjOk r := by
  obtain ⟨globs, hg⟩ := mapE_total bashGlobToZsh o.ignoreGlobs h
  have ha : ∃ a, zshFileArgs o = .ok a := by
    unfold zshFileArgs; rw [hg]; exact ⟨_, rfl⟩
  obtain ⟨a, ha⟩ := ha
  unfold zshFile
  refine exists_bind ha ?_
  split
  · exact ⟨_, rfl, trivial⟩
  · split
    · exact ⟨_, rfl, trivial⟩
    · exact zshHelper_total _ _ _ ⟨_, rfl⟩

theorem ite_total {p : Prop} [Decidable p] {a b : Except Err ZshObj} (ha : ∃ o, a = .ok o ∧ ObjOk o)
    (hb : ∃ o, b = .ok o ∧ ObjOk o) : ∃ o, (if p then a else b) = .ok o ∧ ObjOk o := by
  split
  · exact ha
  · exact hb

theorem zshVoid_total (ctxt : ZshCtxt) (n : Str) : ∃ o, zshVoid ctxt n = .ok o ∧ ObjOk o := by
  unfold zshVoid
  repeat' first
    | apply ite_total
    | exact ⟨_, rfl, trivial⟩
    | exact zshHelper_total _ _ _ ⟨_, rfl⟩

/-- An object that needs no dynamic function. -/
theorem plain_total {x : Except Err ZshObj} {dyn : Dyn} (hd : DynOk dyn) (h : ∃ o, x = .ok o ∧ ObjOk o) :
    ∃ r, (do let o ← x; .ok (o, dyn) : Except Err (ZshObj × Dyn)) = .ok r ∧ DynOk r.2 ∧ ObjOk r.1 := by
  obtain ⟨o, rfl, ho⟩ := h
  exact ⟨_, rfl, hd, ho⟩

mutual
theorem zsh_total (ctxt : ZshCtxt) : ∀ (c : Comp), Accepted c → ∀ (dyn : Dyn), DynOk dyn →
    ∃ r, zshCompleter ctxt c dyn = .ok r ∧ DynOk r.2 ∧ ObjOk r.1
  | .combine cs, ha, dyn, h => by
    simp only [Accepted] at ha
    obtain ⟨r, h1, h2⟩ := zsh_totals ctxt cs ha dyn h
    obtain ⟨g, h3, h4⟩ := dynFunc_total ctxt.base (zshAlternative r.1) r.2 h2
    simp only [zshCompleter]
    exact exists_bind h1 (exists_bind h3 ⟨_, rfl, h4, trivial⟩)
  | .list c o, ha, dyn, h => by
    simp only [Accepted] at ha
    obtain ⟨r, h1, h2, h3⟩ := zsh_total ctxt c ha dyn h
    obtain ⟨g, h4, h5⟩ := zshFunction_total ctxt r.2 h2 r.1 h3
    simp only [zshCompleter]
    exact exists_bind h1 (exists_bind h4 ⟨_, rfl, h5, trivial⟩)
  | .prefix p c, ha, dyn, h => by
    simp only [Accepted] at ha
    obtain ⟨r, h1, h2, h3⟩ := zsh_total ctxt c ha dyn h
    obtain ⟨g, h4, h5⟩ := zshFunction_total ctxt r.2 h2 r.1 h3
    simp only [zshCompleter]
    exact exists_bind (a := realName ctxt.pre (S "prefix")) rfl (exists_bind h1 (exists_bind h4 ⟨_, rfl, h5, trivial⟩))
  | .keyValueList ps vs ks cond, ha, dyn, h => by
    simp only [Accepted] at ha
    obtain ⟨r, h1, h2⟩ := zsh_total_keys ctxt true cond ks ha dyn h
    simp only [zshCompleter]
    refine exists_bind h1 ?_
    obtain ⟨g, h3, h4⟩ := dynFunc_total ctxt.base (keyValueCode cond r.1
      (S "_values -s " ++ quote ps ++ S " -S " ++ quote vs ++ S " " ++ quote ctxt.metavar)) r.2 h2
    exact exists_bind h3 ⟨_, rfl, h4, trivial⟩
  | .keyValuePair vs ks cond, ha, dyn, h => by
    simp only [Accepted] at ha
    obtain ⟨r, h1, h2⟩ := zsh_total_keys ctxt false cond ks ha dyn h
    simp only [zshCompleter]
    refine exists_bind h1 ?_
    obtain ⟨g, h3, h4⟩ := dynFunc_total ctxt.base (keyValueCode cond r.1
      (S "_values -S " ++ quote vs ++ S " " ++ quote ctxt.metavar)) r.2 h2
    exact exists_bind h3 ⟨_, rfl, h4, trivial⟩
  | .void n, _, dyn, h => by simp only [zshCompleter]; exact plain_total h (zshVoid_total ctxt n)
  | .none, _, dyn, h => by simp only [zshCompleter]; exact ⟨_, rfl, h, trivial⟩
  | .commandArg, _, dyn, h => by simp only [zshCompleter]; exact ⟨_, rfl, h, trivial⟩
  | .date f, _, dyn, h => by simp only [zshCompleter]; exact ⟨_, rfl, h, trivial⟩
  | .choices c, ha, dyn, h => by
    simp only [Accepted] at ha
    simp only [zshCompleter]; exact ⟨_, rfl, h, ha⟩
  | .command p a b, _, dyn, h => by simp only [zshCompleter]; exact ⟨_, rfl, h, trivial⟩
  | .directory d, _, dyn, h => by simp only [zshCompleter]; exact plain_total h (zshDirectory_total ctxt d)
  | .file o, ha, dyn, h => by
    simp only [Accepted] at ha
    simp only [zshCompleter]; exact plain_total h (zshFile_total ctxt o ha)
  | .directoryList d l, _, dyn, h => by
    obtain ⟨o, h1, h3⟩ := zshDirectory_total ctxt d
    obtain ⟨g, h4, h5⟩ := zshFunction_total ctxt dyn h o h3
    simp only [zshCompleter]
    exact exists_bind h1 (exists_bind h4 ⟨_, rfl, h5, trivial⟩)
  | .fileList o l, ha, dyn, h => by
    simp only [Accepted] at ha
    obtain ⟨o, h1, h3⟩ := zshFile_total ctxt o ha
    obtain ⟨g, h4, h5⟩ := zshFunction_total ctxt dyn h o h3
    simp only [zshCompleter]
    exact exists_bind h1 (exists_bind h4 ⟨_, rfl, h5, trivial⟩)
  | .exec c, _, dyn, h => by simp only [zshCompleter]; exact plain_total h (zshHelper_total _ _ _ ⟨_, rfl⟩)
  | .execFast c, _, dyn, h => by simp only [zshCompleter]; exact plain_total h (zshHelper_total _ _ _ ⟨_, rfl⟩)
  | .execInternal c, _, dyn, h => by simp only [zshCompleter]; exact ⟨_, rfl, h, trivial⟩
  | .integer o, _, dyn, h => by simp only [zshCompleter]; exact ⟨_, rfl, h, trivial⟩
  | .float o, _, dyn, h => by simp only [zshCompleter]; exact ⟨_, rfl, h, trivial⟩
  | .history p, _, dyn, h => by simp only [zshCompleter]; exact plain_total h (zshHelper_total _ _ _ ⟨_, rfl⟩)
  | .mimeFile p, _, dyn, h => by simp only [zshCompleter]; exact plain_total h (zshHelper_total _ _ _ ⟨_, rfl⟩)
  | .ipAddress t, _, dyn, h => by
    simp only [zshCompleter]
    refine ⟨_, rfl, h, ?_⟩
    simp only [zshIpAddress]
    repeat' split
    all_goals trivial
  | .keyValueListExec p v c, _, dyn, h => by simp only [zshCompleter]; exact plain_total h (zshHelper_total _ _ _ ⟨_, rfl⟩)
  | .keyValuePairExec v c, _, dyn, h => by simp only [zshCompleter]; exact plain_total h (zshHelper_total _ _ _ ⟨_, rfl⟩)
  | .range a b st, _, dyn, h => by simp only [zshCompleter]; exact ⟨_, rfl, h, trivial⟩
  | .valueList v o, _, dyn, h => by
    simp only [zshCompleter, zshValueList]
    split
    · obtain ⟨g, h4, h5⟩ := zshFunction_total ctxt dyn h (.func ([S "_values", ctxt.metavar] ++ zshValueSpecs v) false) trivial
      exact exists_bind h4 ⟨_, rfl, h5, trivial⟩
    · exact ⟨_, rfl, h, trivial⟩
theorem zsh_totals (ctxt : ZshCtxt) : ∀ (cs : Comps), AcceptedAll cs → ∀ (dyn : Dyn), DynOk dyn →
    ∃ r, zshCompleters ctxt cs dyn = .ok r ∧ DynOk r.2
  | .nil, _, dyn, h => ⟨_, by simp only [zshCompleters]; rfl, h⟩
  | .cons c cs, ha, dyn, h => by
    simp only [AcceptedAll] at ha
    obtain ⟨r, h1, h2, h3⟩ := zsh_total ctxt c ha.1 dyn h
    obtain ⟨a, h4, h5⟩ := zshAction_total ctxt r.2 h2 r.1 h3
    obtain ⟨q, h6, h7⟩ := zsh_totals ctxt cs ha.2 a.2 h5
    simp only [zshCompleters]
    exact exists_bind h1 (exists_bind h4 (exists_bind h6 ⟨_, rfl, h7⟩))
theorem zsh_total_keys (ctxt : ZshCtxt) (isList : Bool) (cond : Option Str) : ∀ (ks : KeyDefList), AcceptedKeys ks →
    ∀ (dyn : Dyn), DynOk dyn → ∃ r, zshKeyDefs ctxt isList cond ks dyn = .ok r ∧ DynOk r.2
  | .nil, _, dyn, h => ⟨_, by simp only [zshKeyDefs]; rfl, h⟩
  | .bare k d ex ks, ha, dyn, h => by
    simp only [AcceptedKeys] at ha
    obtain ⟨r, h1, h2⟩ := zsh_total_keys ctxt isList cond ks ha dyn h
    simp only [zshKeyDefs]
    exact exists_bind h1 ⟨_, rfl, h2⟩
  | .cons k d ex c ks, ha, dyn, h => by
    simp only [AcceptedKeys] at ha
    rw [zshKeyDefs.eq_def]
    split
    · simp at *
    · simp at *
    · rename_i e
      cases e
      obtain ⟨r, h1, h2⟩ := zsh_total_keys ctxt isList cond ks ha.2 _ h
      exact exists_bind h1 ⟨_, rfl, h2⟩
    · rename_i e
      cases e
      obtain ⟨r, h1, h2, h3⟩ := zsh_total ctxt c ha.1 _ h
      obtain ⟨a, h4, h5⟩ := zshAction_total ctxt r.2 h2 r.1 h3
      obtain ⟨q, h6, h7⟩ := zsh_total_keys ctxt isList cond ks ha.2 a.2 h5
      exact exists_bind h1 (exists_bind h4 (exists_bind h6 ⟨_, rfl, h7⟩))
end

/-! ## The property -/

/-- **C85.** For every completer that the generator accepts, the action that is written into the script is one
word of the shell, and what it stands for, with the functions of the script, does what the completer is to do.
Partial: the texts must be such that they can be written (`Fits`); the theorems below show where the code fails
without that. -/
theorem C85_zsh_action_partial (ctxt : ZshCtxt) (hp : PrefixOk ctxt.pre) (hb : NameOk ctxt.base) (c : Comp) (ha : Accepted c)
    (dyn : Dyn) (hd : DynOk dyn) (hn : ∀ e ∈ dyn, NameOk e.2) :
    ∃ o dyn' a dyn'', zshCompleter ctxt c dyn = .ok (o, dyn') ∧ o.getAction ctxt dyn' = .ok (a, dyn'') ∧
      DynOk dyn'' ∧ (∀ e ∈ dyn, e ∈ dyn'') ∧ (∀ e ∈ dyn'', NameOk e.2) ∧
      ∀ F, (∀ e ∈ dyn'', e ∈ F) → Fits ⟨ctxt.pre, F, ctxt.metavar, ctxt.help⟩ c →
        ∃ t task, Posix.words a = some [t] ∧ Action ⟨ctxt.pre, F, ctxt.metavar, ctxt.help⟩ t task ∧
          Does ⟨ctxt.pre, F, ctxt.metavar, ctxt.help⟩ c task := by
  obtain ⟨r, h1, h2, h3⟩ := zsh_total ctxt c ha dyn hd
  obtain ⟨a, h4, h5⟩ := zshAction_total ctxt r.2 h2 r.1 h3
  have k1 := zsh_kept ctxt c dyn r h1
  have k2 : Kept ctxt r.2 a.2 := getAction_kept h4
  have hdr := k1.2 hb hn
  refine ⟨r.1, r.2, a.1, a.2, h1, h4, h5, (k1.trans k2).1, k2.2 hb hdr, fun F hF hf => ?_⟩
  have R : ZshReady ⟨ctxt.pre, F, ctxt.metavar, ctxt.help⟩ ctxt := ⟨rfl, rfl, rfl, hp, hb⟩
  have hG := zsh_good R c hf dyn hn r h1 (fun e he => hF e (k2.1 e he))
  obtain ⟨t, hA⟩ := action_of_good R.metavar hb hdr hf hG h4 hF
  obtain ⟨task, h6, h7⟩ := hA.does
  exact ⟨t, task, by rw [hA.quoted]; exact C01_quote_roundtrip t, h6, h7⟩

/-- **C85**, for places that want the name of a function: the function with that name does what the completer
does. -/
theorem C85_zsh_function_partial (ctxt : ZshCtxt) (hp : PrefixOk ctxt.pre) (hb : NameOk ctxt.base) (c : Comp) (ha : Accepted c)
    (hi : NamesFunction c) (dyn : Dyn) (hd : DynOk dyn) (hn : ∀ e ∈ dyn, NameOk e.2) :
    ∃ o dyn' g dyn'', zshCompleter ctxt c dyn = .ok (o, dyn') ∧ o.getFunction ctxt dyn' = .ok (g, dyn'') ∧
      DynOk dyn'' ∧ (∀ e ∈ dyn, e ∈ dyn'') ∧ (∀ e ∈ dyn'', NameOk e.2) ∧
      ∀ F, (∀ e ∈ dyn'', e ∈ F) → Fits ⟨ctxt.pre, F, ctxt.metavar, ctxt.help⟩ c →
        Via ⟨ctxt.pre, F, ctxt.metavar, ctxt.help⟩ c g := by
  obtain ⟨r, h1, h2, h3⟩ := zsh_total ctxt c ha dyn hd
  obtain ⟨g, h4, h5⟩ := zshFunction_total ctxt r.2 h2 r.1 h3
  have k1 := zsh_kept ctxt c dyn r h1
  have k2 : Kept ctxt r.2 g.2 := getFunction_kept h4
  have hdr := k1.2 hb hn
  refine ⟨r.1, r.2, g.1, g.2, h1, h4, h5, (k1.trans k2).1, k2.2 hb hdr, fun F hF hf => ?_⟩
  have R : ZshReady ⟨ctxt.pre, F, ctxt.metavar, ctxt.help⟩ ctxt := ⟨rfl, rfl, rfl, hp, hb⟩
  have hG := zsh_good R c hf dyn hn r h1 (fun e he => hF e (k2.1 e he))
  exact (function_of_good R.metavar hb hdr hf hi hG h4 hF).via

/-! ## Where the code fails -/

/-- `service` is a completer that the validator knows, but in Zsh it does nothing. -/
theorem C85_service (ctxt : ZshCtxt) (dyn : Dyn) : S "service" ∈ voidNames ∧
    zshCompleter ctxt (.void (S "service")) dyn = .ok (.func [S " "] false, dyn) := ⟨by decide +kernel, rfl⟩

/-- A key of `key_value_pair` with a blank becomes two keys: it is not quoted. -/
theorem C85_blank_key : ZshCode.read (zshPushLine false none (S "two words") none [] []) =
    some [.push none [S "two", S "words"]] := by decide +kernel

/-- A key with a colon is taken for a key with an argument: the shell removes the backslash in front of the
colon. -/
theorem C85_colon_key : ZshCode.read (zshPushLine false none (S "a:b") none [] []) = some [.push none [S "a:b"]] ∧
    ZshCode.readDef (S "a:b") = some ⟨[], false, S "a", none, some []⟩ := by decide +kernel

/-- A value of `value_list` with a colon is taken for a value with an argument. -/
theorem C85_colon_value : zshValueSpecs (.list [S "a:b"]) = [S "a:b"] ∧
    ZshCode.readDef (S "a:b") = some ⟨[], false, S "a", none, some []⟩ := by decide +kernel

/-- A value of `value_list` that begins with a star loses it. -/
theorem C85_starred_value : zshValueSpecs (.list [S "*.c"]) = [S "*.c"] ∧
    ZshCode.readDef (S "*.c") = some ⟨[], true, S ".c", none, none⟩ := by decide +kernel

/-- A list of `none` calls a function whose name is a blank. -/
theorem C85_list_of_none (ctxt : ZshCtxt) (dyn : Dyn) :
    zshCompleter ctxt (.list .none ⟨[','], false⟩) dyn = .ok (.func [S "_sequence", S " "] false, dyn) := rfl

/-- A list of `exec_internal` with an argument calls a function whose name has a blank. -/
theorem C85_list_of_code (ctxt : ZshCtxt) (dyn : Dyn) :
    zshCompleter ctxt (.list (.execInternal (S "_values x a b")) ⟨[','], false⟩) dyn =
      .ok (.func [S "_sequence", S "_values x a b"] false, dyn) := rfl

/-- A list of choices of integers makes the generator crash. -/
theorem C85_list_of_integers (ctxt : ZshCtxt) (dyn : Dyn) :
    zshCompleter ctxt (.list (.choices (.list [.int 1])) ⟨[','], false⟩) dyn = .error .crash := rfl

/-- A newline in a text of a combined completer: the line behind it is indented. -/
theorem C85_newline_combined :
    ZshCode.read (zshAlternative [quote (S "{_p__exec 'a\nb'}")]) = some [.call [S "_alternative", S "::{_p__exec 'a\n  b'}"]] := by
  decide +kernel

/-- `\:` in the action of a key loses its backslash. -/
theorem C85_backslash_action :
    ZshCode.readAction (S ":::" ++ S "{_p__exec 'a\\:b'}") = some (some (S "{_p__exec 'a:b'}")) := by decide +kernel

/-- A word that begins with `=` is written without quotes, so that the shell replaces it by the path of a
command. -/
theorem C85_equals (ctxt : ZshCtxt) (dyn : Dyn) :
    (ZshObj.func [S "_dates", S "-f", S "=ls"] false).getAction ctxt dyn = .ok (quote (S "_dates -f =ls"), dyn) ∧
    ZshCode.read (S "_dates -f =ls") = none := ⟨by rfl, by decide +kernel⟩

/-! ## An example -/

/-- Choices, and a list of pairs whose value is a text file below `/tmp`. -/
def zshSample : Comp :=
  .combine (.cons (.choices (.list [.str (S "a"), .str (S "b c")])) (.cons (.list (.keyValuePair ['=']
    (.cons (S "log") (some (S "the [log]")) [] (.file { directory := some (S "/tmp"), extensions := [S "txt", S "md"] })
      (.bare (S "quiet") none [] .nil)) none) { separator := [';'] }) .nil))

/-- The surroundings of the example. -/
def zshSampleCtxt : ZshCtxt := ⟨S "_prog", S "_prog__--out", S "OUT", S "OUT", 80⟩

theorem C85_example : PrefixOk zshSampleCtxt.pre ∧ NameOk zshSampleCtxt.base ∧ Accepted zshSample ∧ NamesFunction zshSample ∧
    (∀ F, Fits ⟨zshSampleCtxt.pre, F, zshSampleCtxt.metavar, zshSampleCtxt.help⟩ zshSample) ∧
    (do let r ← zshCompleter zshSampleCtxt zshSample []; r.1.getAction zshSampleCtxt r.2).toOption =
      some (S "'{_prog__--out0}'", [
        (S "local -a a=()\na+=(log'[the \\[log\\]]':::\"_files -W /tmp -g '*.(#i)(txt|md)'\")\na+=(quiet)\n_values -S = OUT \"${a[@]}\"",
          S "_prog__--out"),
        (S "_alternative \\\n  ::\"(a 'b c')\" \\\n  ::\"_sequence -s ';' _prog__--out\"", S "_prog__--out0")]) := by
  refine ⟨?_, ?_, ?_, by simp [zshSample, NamesFunction], fun F => ?_, by decide +kernel⟩
  · unfold PrefixOk; decide +kernel
  · refine ⟨by decide +kernel, ?_, by decide +kernel⟩
    intro c hc
    have : zshSampleCtxt.base.head? = some '_' := by decide +kernel
    rw [this] at hc; cases hc; exact Or.inr rfl
  · simp [zshSample, Accepted, AcceptedAll, AcceptedKeys, TextChoices, GlobsRead]
  · simp only [zshSample, Fits, FitsAll, FitsKeys, FitsHere, NamesFunction, ChoicesFit, ownWords, texts, Choices.offers, KeyFits,
      Plain, BashCompleter.NotEmpty, and_true, true_and, zshGlobs]
    simp
    and_intros <;> decide +kernel

end CC
