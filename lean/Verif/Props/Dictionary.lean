import Verif.Lemmas.Dictionary
/-!
# C26, C27, C28: importing and exporting dictionaries
-/

namespace CC

theorem node_data (d : CmdData) (s : Option Nat) (ch : List Cmd) : (Cmd.node d s ch).data = d := rfl
theorem node_sub (d : CmdData) (s : Option Nat) (ch : List Cmd) : (Cmd.node d s ch).sub = s := rfl
theorem node_children (d : CmdData) (s : Option Nat) (ch : List Cmd) : (Cmd.node d s ch).children = ch := rfl

/-! ## Updates inside a tree -/

theorem updateSub_none {n : Str} {f : Cmd → Except Err Cmd} {ch : List Cmd} :
    updateSub n f ch = none ↔ n ∉ ch.map (fun y => y.data.prog) := by
  induction ch with
  | nil => simp [updateSub]
  | cons c cs ih =>
    simp only [updateSub]
    by_cases h : c.data.prog = n
    · simp [h]
    · rw [if_neg h]
      simp only [Option.map_eq_none_iff, ih, List.map_cons, List.mem_cons, not_or]
      exact ⟨fun hh => ⟨fun e => h e.symm, hh⟩, fun hh => hh.2⟩

theorem updateSub_split (n : Str) (f : Cmd → Except Err Cmd) (pre : List Cmd) (c : Cmd) (post : List Cmd)
    (hpre : n ∉ pre.map (fun y => y.data.prog)) (hc : c.data.prog = n) :
    updateSub n f (pre ++ c :: post) = some (do .ok (pre ++ (← f c) :: post)) := by
  induction pre with
  | nil => simp [updateSub, hc]
  | cons x xs ih =>
    simp only [List.map_cons, List.mem_cons, not_or] at hpre
    simp only [List.cons_append, updateSub]
    rw [if_neg (fun e => hpre.1 e.symm), ih hpre.2]
    simp only [Option.map_some, Option.some.injEq, bind, Except.bind]
    cases f c <;> rfl

theorem split_first (n : Str) (ch : List Cmd) (h : n ∈ ch.map (fun y => y.data.prog)) :
    ∃ pre c post, ch = pre ++ c :: post ∧ n ∉ pre.map (fun y => y.data.prog) ∧ c.data.prog = n := by
  induction ch with
  | nil => simp at h
  | cons x xs ih =>
    by_cases hx : x.data.prog = n
    · exact ⟨[], x, xs, rfl, by simp, hx⟩
    · have : n ∈ xs.map (fun y => y.data.prog) := by
        simp only [List.map_cons, List.mem_cons] at h
        rcases h with h | h
        · exact absurd h.symm hx
        · exact h
      obtain ⟨pre, c, post, e, h1, h2⟩ := ih this
      refine ⟨x :: pre, c, post, by rw [e]; rfl, ?_, h2⟩
      simp only [List.map_cons, List.mem_cons, not_or]
      exact ⟨fun e => hx e.symm, h1⟩

/-- What a successful update below a command looks like. -/
theorem updateAt_cons_ok {d : CmdData} {s : Option Nat} {ch : List Cmd} {n : Str} {ns : List Str}
    {f : Cmd → Except Err Cmd} {r : Cmd} :
    updateAt (.node d s ch) (n :: ns) f = .ok r ↔
    s.isSome = true ∧ ∃ pre c post c', ch = pre ++ c :: post ∧ n ∉ pre.map (fun y => y.data.prog) ∧
      c.data.prog = n ∧ updateAt c ns f = .ok c' ∧ r = .node d s (pre ++ c' :: post) := by
  simp only [updateAt]
  cases s with
  | none => simp
  | some k =>
    simp only [Option.isNone_some, Bool.false_eq_true, if_false, Option.isSome_some, true_and]
    by_cases hm : n ∈ ch.map (fun y => y.data.prog)
    · obtain ⟨pre, c, post, e, h1, h2⟩ := split_first n ch hm
      subst e
      rw [updateSub_split n _ pre c post h1 h2]
      constructor
      · intro h
        cases hu : updateAt c ns f with
        | error e => simp [hu, bind, Except.bind] at h
        | ok c' =>
          simp only [hu, bind, Except.bind, Except.ok.injEq] at h
          exact ⟨pre, c, post, c', rfl, h1, h2, hu, h.symm⟩
      · rintro ⟨pre', c0, post', c', e, g1, g2, hu, rfl⟩
        have hcut : pre = pre' ∧ c = c0 ∧ post = post' := by
          clear hu hm
          induction pre generalizing pre' with
          | nil =>
            cases pre' with
            | nil => simpa using e
            | cons y ys =>
              simp only [List.nil_append, List.cons_append, List.cons.injEq] at e
              exfalso; apply g1; rw [← e.1]; simp [h2]
          | cons x xs ih =>
            cases pre' with
            | nil =>
              simp only [List.nil_append, List.cons_append, List.cons.injEq] at e
              exfalso; apply h1; rw [e.1]; simp [g2]
            | cons y ys =>
              simp only [List.cons_append, List.cons.injEq] at e
              simp only [List.map_cons, List.mem_cons, not_or] at h1 g1
              obtain ⟨i1, i2, i3⟩ := ih h1.2 ys e.2 g1.2
              exact ⟨by rw [e.1, i1], i2, i3⟩
        obtain ⟨rfl, rfl, rfl⟩ := hcut
        simp [hu, bind, Except.bind]
    · rw [updateSub_none.2 hm]
      constructor
      · intro h; cases h
      · rintro ⟨pre, c, post, c', rfl, _, h2, _⟩
        exact absurd (by simp [h2]) hm

/-- Looking up a command succeeds wherever an update does. -/
theorem updateAt_check {root : Cmd} {p : List Str} {f : Cmd → Except Err Cmd} {r : Cmd}
    (h : updateAt root p f = .ok r) : updateAt root p .ok = .ok root := by
  induction p generalizing root r with
  | nil => cases root <;> rfl
  | cons n ns ih =>
    cases root with
    | node d s ch =>
      rw [updateAt_cons_ok] at h ⊢
      obtain ⟨hs, pre, c, post, c', e, h1, h2, hu, _⟩ := h
      exact ⟨hs, pre, c, post, c, e, h1, h2, ih hu, by rw [e]⟩

/-- An update done in two steps, the second possibly further down. -/
theorem updateAt_two {f g h : Cmd → Except Err Cmd} {q : List Str}
    (hf : ∀ c c', f c = .ok c' → ∃ c1, g c = .ok c1 ∧ c1.data.prog = c.data.prog ∧ updateAt c1 q h = .ok c')
    {root : Cmd} {p : List Str} {r : Cmd} (hr : updateAt root p f = .ok r) :
    ∃ r1, updateAt root p g = .ok r1 ∧ r1.data.prog = root.data.prog ∧ updateAt r1 (p ++ q) h = .ok r := by
  induction p generalizing root r with
  | nil => cases root with | node d s ch => exact hf _ _ hr
  | cons n ns ih =>
    cases root with
    | node d s ch =>
      rw [updateAt_cons_ok] at hr
      obtain ⟨hs, pre, c, post, c', e, h1, h2, hu, rfl⟩ := hr
      obtain ⟨c1, i1, i2, i3⟩ := ih hu
      refine ⟨.node d s (pre ++ c1 :: post), ?_, rfl, ?_⟩
      · rw [updateAt_cons_ok]
        exact ⟨hs, pre, c, post, c1, e, h1, h2, i1, rfl⟩
      · rw [List.cons_append, updateAt_cons_ok]
        exact ⟨hs, pre, c1, post, c', rfl, h1, by rw [i2, h2], i3, rfl⟩

/-! ## C26 -/

/-- Add a whole renumbered tree below a command. -/
def addTree (t : Cmd) : Cmd → Except Err Cmd
  | .node d s ch => do
    let ch' ← addSub ch t.renumber
    .ok (.node d (some (s.getD (highestNumber d.positionals + 1))) ch')

/-- Add several. -/
def addTrees : List Cmd → Cmd → Except Err Cmd
  | [], c => .ok c
  | t :: ts, c => do addTrees ts (← addTree t c)

theorem addTree_ok {t c c' : Cmd} : addTree t c = .ok c' ↔
    t.data.prog ∉ c.children.map (fun y => y.data.prog) ∧
    c' = .node c.data (some (c.sub.getD (highestNumber c.data.positionals + 1))) (c.children ++ [t.renumber]) := by
  cases c with
  | node d s ch =>
    simp only [addTree, node_children, node_data, node_sub]
    cases ha : addSub ch t.renumber with
    | error e =>
      simp only [bind, Except.bind]
      constructor
      · intro h; cases h
      · rintro ⟨h, _⟩
        unfold addSub at ha
        have := find_none_of_not_mem.2 h
        rw [renumber_prog] at ha
        rw [this] at ha
        cases ha
    | ok ch' =>
      obtain ⟨e, hn⟩ := addSub_ok ha
      rw [renumber_prog] at hn
      simp only [bind, Except.bind, Except.ok.injEq, e]
      exact ⟨fun h => ⟨hn, h.symm⟩, fun h => h.2.symm⟩

theorem attach_ok {new : CmdData} {c c' : Cmd} : attach new c = .ok c' ↔
    new.prog ∉ c.children.map (fun y => y.data.prog) ∧
    c' = .node c.data (some (c.sub.getD (highestNumber c.data.positionals + 1)))
      (c.children ++ [.node new none []]) := by
  have := @addTree_ok (.node new none []) c c'
  simp only [Cmd.renumber, Cmd.renumberList, Option.map_none] at this
  rw [← show addTree (.node new none []) c = attach new c by
    cases c; simp [addTree, attach, Cmd.renumber, Cmd.renumberList]]
  exact this

theorem addTrees_ok (ts : List Cmd) (d : CmdData) (k : Nat) (ch : List Cmd)
    (hn : ((ch ++ ts).map (fun y => y.data.prog)).Nodup) :
    addTrees ts (.node d (some k) ch) = .ok (.node d (some k) (ch ++ Cmd.renumberList ts)) := by
  induction ts generalizing ch with
  | nil => simp [addTrees, Cmd.renumberList]
  | cons t ts ih =>
    have h1 : addTree t (.node d (some k) ch) = .ok (.node d (some k) (ch ++ [t.renumber])) := by
      rw [addTree_ok]
      refine ⟨?_, rfl⟩
      rw [List.map_append, List.nodup_append] at hn
      intro hm
      exact hn.2.2 _ hm _ (List.mem_map.2 ⟨t, by simp, rfl⟩) rfl
    simp only [addTrees, h1, Cmd.renumberList]
    show addTrees ts (.node d (some k) (ch ++ [t.renumber])) = _
    rw [ih]
    · simp
    · simpa [renumber_prog] using hn

/-- What the round trip needs besides what the API guarantees. -/
structure Exportable (c : Cmd) : Prop where
  /-- every name is a word -/
  words : IsWord c.data.prog
  /-- no option has an empty completer list -/
  complete : ∀ o ∈ c.data.options, o.complete ≠ some []
  /-- no empty subcommands object -/
  subs : c.sub.isSome = true → c.children ≠ []

theorem importGo_append (root : Cmd) (a b : List Val) :
    importGo root (a ++ b) = (importGo root a >>= fun r => importGo r b) := by
  induction a generalizing root with
  | nil => rfl
  | cons v vs ih =>
    simp only [List.cons_append, importGo, bind, Except.bind]
    cases checkProg v with
    | error e => rfl
    | ok dw =>
      simp only
      cases updateAt root dw.2.dropLast .ok with
      | error e => rfl
      | ok _ =>
        simp only
        cases dictToCmd dw.1 (dw.2.getLastD []) with
        | error e => rfl
        | ok new =>
          simp only
          cases updateAt root dw.2.dropLast (attach new) with
          | error e => rfl
          | ok r => exact ih r

theorem importGo_one {root r : Cmd} {p : List Str} {d : CmdData} (hp : ∀ w ∈ p, IsWord w)
    (hw : IsWord d.prog) (hc : d.check = true)
    (ho : ∀ o ∈ d.options, o.check = true ∧ o.complete ≠ some [])
    (hps : ∀ q ∈ d.positionals, Pos.init q = .ok q) (hu : updateAt root p (attach d) = .ok r)
    (vs : List Val) :
    importGo root (cmdToDict (joinWith [' '] (p ++ [d.prog])) d :: vs) = importGo r vs := by
  have h1 := checkProg_cmdToDict (p ++ [d.prog]) (by simp)
    (by intro w hw'; simp only [List.mem_append, List.mem_singleton] at hw'
        rcases hw' with h | rfl
        · exact hp w h
        · exact hw) d
  simp only [importGo, h1, bind, Except.bind, List.dropLast_concat]
  rw [updateAt_check hu]
  simp only [List.getLastD_concat]
  rw [dictToCmd_cmdEntries _ d hc ho hps]
  simp only [hu]

theorem import_list (ts : List Cmd) (ih : ∀ t ∈ ts, ∀ (root r : Cmd) (p : List Str),
      (∀ w ∈ p, IsWord w) → updateAt root p (addTree t) = .ok r →
      importGo root (cmdToDicts p t) = .ok r)
    (root r : Cmd) (p : List Str) (hp : ∀ w ∈ p, IsWord w)
    (h : updateAt root p (addTrees ts) = .ok r) : importGo root (cmdsToDicts p ts) = .ok r := by
  induction ts generalizing root with
  | nil =>
    simp only [cmdsToDicts, importGo]
    have : addTrees [] = fun c => Except.ok c := by funext c; rfl
    rw [this] at h
    rw [updateAt_check h] at h
    exact h
  | cons t ts ih2 =>
    obtain ⟨r1, h1, _, h2⟩ := updateAt_two (q := []) (g := addTree t) (h := addTrees ts) (f := addTrees (t :: ts))
      (by
        intro c c' hcc
        simp only [addTrees, bind, Except.bind] at hcc
        cases ha : addTree t c with
        | error e => rw [ha] at hcc; cases hcc
        | ok c1 =>
          rw [ha] at hcc
          refine ⟨c1, rfl, ?_, by cases c1; exact hcc⟩
          rw [addTree_ok] at ha
          rw [ha.2]; rfl) h
    simp only [List.append_nil] at h2
    simp only [cmdsToDicts]
    rw [importGo_append, ih t (by simp) root r1 p hp h1]
    exact ih2 (fun x hx => ih x (by simp [hx])) r1 h2

theorem import_tree (t : Cmd) (hok : t.Ok) (he : ∀ a x, t.at a = some x → Exportable x)
    (root r : Cmd) (p : List Str) (hp : ∀ w ∈ p, IsWord w)
    (h : updateAt root p (addTree t) = .ok r) : importGo root (cmdToDicts p t) = .ok r := by
  induction t using Cmd.ind generalizing root r p with
  | h d s ch ih =>
    have hex := he [] _ rfl
    rw [ok_iff] at hok
    obtain ⟨⟨hc, ho, hps, hnd, hs⟩, hch⟩ := hok
    simp only [node_data, node_children, node_sub] at hc ho hps hnd hs hch
    obtain ⟨r1, h1, _, h2⟩ := updateAt_two (q := [d.prog]) (g := attach d) (h := addTrees ch)
      (f := addTree (.node d s ch)) (by
        intro c c' hcc
        rw [addTree_ok] at hcc
        obtain ⟨hn, rfl⟩ := hcc
        refine ⟨_, attach_ok.2 ⟨hn, rfl⟩, rfl, ?_⟩
        rw [updateAt_cons_ok]
        refine ⟨rfl, c.children, .node d none [], [], (Cmd.node d s ch).renumber, rfl, hn, rfl, ?_, rfl⟩
        simp only [updateAt]
        cases ch with
        | nil =>
          have : s = none := by
            cases s with
            | none => rfl
            | some k => exact absurd rfl (hex.subs rfl)
          subst this
          rfl
        | cons t ts =>
          have : s.isSome = true := by
            cases s with
            | none => exact absurd (hs rfl) (by simp)
            | some k => rfl
          obtain ⟨k, rfl⟩ := Option.isSome_iff_exists.1 this
          have h1 : addTree t (.node d none []) = .ok (.node d (some (highestNumber d.positionals + 1)) [t.renumber]) := by
            rw [addTree_ok]; exact ⟨by simp [Cmd.children], rfl⟩
          simp only [addTrees, h1]
          show addTrees ts _ = _
          rw [addTrees_ok]
          · simp only [Cmd.renumber, Cmd.renumberList, List.singleton_append, Option.map_some, highest_eq]
          · simpa [renumber_prog] using hnd) h
    simp only [cmdToDicts]
    rw [importGo_one (d := d) hp hex.words hc (fun o hm => ⟨ho o hm, hex.complete o hm⟩) hps h1]
    apply import_list ch _ r1 r (p ++ [d.prog])
    · intro w hw
      simp only [List.mem_append, List.mem_singleton] at hw
      rcases hw with hw | rfl
      · exact hp w hw
      · exact hex.words
    · exact h2
    · intro t ht root' r' p' hp' hu'
      obtain ⟨i, hi⟩ := List.getElem?_of_mem ht
      exact ih t ht (hch t ht) (fun a x hx => he (i :: a) x (by simp [Cmd.at, hi, hx])) root' r' p' hp' hu'

theorem takeDefines_none (docs : List Val) (h : ∀ v ∈ docs, isDefines v = none) : takeDefines docs = none := by
  induction docs with
  | nil => rfl
  | cons v vs ih => simp [takeDefines, h v (by simp), ih (fun x hx => h x (by simp [hx]))]

theorem isDefines_cmdToDict (ws : List Str) (d : CmdData) (h : joinWith [' '] ws ≠ S "%defines%") :
    isDefines (cmdToDict (joinWith [' '] ws) d) = none := by
  rw [cmdToDict_eq]
  unfold isDefines
  have : getKey (cmdEntries (joinWith [' '] ws) d) (S "prog") = some (.str (joinWith [' '] ws)) := by
    rw [cmdEntries_get]; rfl
  simp only [this]
  rw [if_neg]
  simpa using h

/-- Everything exported is the dictionary of some path. -/
theorem cmdToDicts_mem (t : Cmd) (p : List Str) : ∀ v ∈ cmdToDicts p t, ∃ q d,
    v = cmdToDict (joinWith [' '] (p ++ q)) d ∧ (q = [t.data.prog] ∨ ∃ x y r, q = x :: y :: r) := by
  induction t using Cmd.ind generalizing p with
  | h d s ch ih =>
    intro v hv
    simp only [cmdToDicts, List.mem_cons] at hv
    rcases hv with rfl | hv
    · exact ⟨[d.prog], d, rfl, Or.inl rfl⟩
    · have : ∀ (cs : List Cmd), (∀ c ∈ cs, c ∈ ch) → v ∈ cmdsToDicts (p ++ [d.prog]) cs →
          ∃ c ∈ ch, v ∈ cmdToDicts (p ++ [d.prog]) c := by
        intro cs
        induction cs with
        | nil => intro _ h; simp [cmdsToDicts] at h
        | cons c cs ih2 =>
          intro hsub h
          simp only [cmdsToDicts, List.mem_append] at h
          rcases h with h | h
          · exact ⟨c, hsub c (by simp), h⟩
          · exact ih2 (fun x hx => hsub x (by simp [hx])) h
      obtain ⟨c, hc, hv'⟩ := this ch (fun _ h => h) hv
      obtain ⟨q, d', e, hq⟩ := ih c hc (p ++ [d.prog]) v hv'
      refine ⟨d.prog :: q, d', by rw [e]; simp, Or.inr ?_⟩
      rcases hq with rfl | ⟨x, y, r, rfl⟩
      · exact ⟨_, _, _, rfl⟩
      · exact ⟨_, _, _, rfl⟩

/-- **C26**: a command line built by the API is read back from its dictionaries, attribute by
attribute; the subcommand slots are numbered after the positionals, as in a copy. -/
theorem C26_round_trip_partial (c : Cmd) (h : Api none c) (he : ∀ a x, c.at a = some x → Exportable x)
    (hd : c.data.prog ≠ S "%defines%") :
    dictsToCmd (cmdToDicts [] c) = .ok c.renumber ∧ c.renumber.eqv c = true := by
  refine ⟨?_, renumber_eqv c⟩
  have hdocs : replaceDefinesInDocuments (cmdToDicts [] c) = cmdToDicts [] c := by
    unfold replaceDefinesInDocuments
    rw [takeDefines_none]
    intro v hv
    obtain ⟨q, d, rfl, hq⟩ := cmdToDicts_mem c [] v hv
    apply isDefines_cmdToDict
    simp only [List.nil_append]
    rcases hq with rfl | ⟨x, y, r, rfl⟩
    · simpa [joinWith] using hd
    · intro e
      have : ' ' ∈ joinWith [' '] (x :: y :: r) := by simp [joinWith]
      rw [e] at this
      exact absurd this (by decide)
  have hfix : (cmdToDicts [] c).map fixCommandline = cmdToDicts [] c := by
    have : ∀ v ∈ cmdToDicts [] c, fixCommandline v = id v := by
      intro v hv
      obtain ⟨q, d, rfl, _⟩ := cmdToDicts_mem c [] v hv
      exact fixCommandline_cmdToDict _ d
    rw [List.map_congr_left this, List.map_id]
  unfold dictsToCmd
  rw [hdocs, hfix]
  have hi : updateAt importRoot [] (addTree c) =
      .ok (.node { prog := S "root" } (some 1) [c.renumber]) := by
    simp only [importRoot, updateAt]
    rw [addTree_ok]
    exact ⟨by simp [Cmd.children], rfl⟩
  rw [import_tree c (api_ok h) he importRoot _ [] (by simp) hi]
  rfl

/-- If the slots are numbered after the positionals the result is the original. -/
theorem C26_identical (c : Cmd) (h : Api none c) (he : ∀ a x, c.at a = some x → Exportable x)
    (hd : c.data.prog ≠ S "%defines%") (hw : ∀ a x, c.at a = some x → WellNumbered x) :
    dictsToCmd (cmdToDicts [] c) = .ok c := by
  have := (C26_round_trip_partial c h he hd).1
  rwa [renumber_id c hw] at this

/-- A tree that meets the hypotheses. -/
theorem C26_example : ∃ c, Api none c ∧ (∀ a x, c.at a = some x → Exportable x) ∧
    c.data.prog ≠ S "%defines%" ∧ c.data.options.length = 1 ∧ c.children.length = 1 := by
  let d0 : CmdData := { prog := S "p", help := some (S "h") }
  let sub := Cmd.node { prog := S "s", aliases := [S "t"] } none []
  have h0 : Api none (.node d0 none []) := Api.new (by decide) rfl rfl
  have h1 := Api.step h0 (Api.addOption (o := { strings := [S "-a"], complete := some [.str (S "file")] })
    (o' := { strings := [S "-a"], complete := some [.str (S "file")] }) rfl)
  have h2 := Api.step h1 (Api.addSubcommands rfl)
  have h3 := Api.step h2 (Api.addSubcommand (c := sub) (Api.new (by decide) rfl rfl) rfl)
  refine ⟨_, h3, ?_, by decide, rfl, rfl⟩
  intro a x hx
  match a with
  | [] =>
    simp only [Cmd.at, Option.some.injEq] at hx
    subst hx
    exact ⟨⟨by decide, by decide⟩, by decide, by simp [Cmd.children]⟩
  | 0 :: [] =>
    simp only [Cmd.at, List.nil_append, List.getElem?_cons_zero, Option.some.injEq, sub] at hx
    subst hx
    exact ⟨⟨by decide, by decide⟩, by simp [Cmd.data], by simp [Cmd.sub]⟩
  | 0 :: j :: r =>
    simp [Cmd.at, sub] at hx
  | (i + 1) :: r =>
    simp [Cmd.at, sub] at hx

/-- What is missing in `C26_round_trip_partial`: an option whose completer list is empty takes an
argument, but the exported option takes none. -/
theorem C26_empty_completer_lost : ∃ c c', Api none c ∧ dictsToCmd (cmdToDicts [] c) = .ok c' ∧
    c.data.options.map Opt.hasRequiredArg = [true] ∧ c'.data.options.map Opt.hasRequiredArg = [false] := by
  have h0 : Api none (.node { prog := S "p" } none []) := Api.new (by decide) rfl rfl
  have h1 := Api.step h0 (Api.addOption (o := { strings := [S "-a"], complete := some [] })
    (o' := { strings := [S "-a"], complete := some [] }) rfl)
  exact ⟨_, .node { prog := S "p", options := [{ strings := [S "-a"] }] } none [], h1, rfl, rfl, rfl⟩

/-- A subcommands object without subcommands is lost, so the result is not equal to the original. -/
theorem C26_empty_subcommands_lost : ∃ c c', Api none c ∧ dictsToCmd (cmdToDicts [] c) = .ok c' ∧
    c.eqv c' = false := by
  have h0 : Api none (.node { prog := S "p" } none []) := Api.new (by decide) rfl rfl
  have h1 := Api.step h0 (Api.addSubcommands rfl)
  exact ⟨_, .node { prog := S "p" } none [], h1, rfl, rfl⟩

/-- A name with a space cannot be read back. -/
theorem C26_space_in_name : ∃ c, Api none c ∧ dictsToCmd (cmdToDicts [] c) = .error .crazyError :=
  ⟨.node { prog := S "a b" } none [], Api.new (by decide) rfl rfl, rfl⟩

end CC
