import Verif.Props.Application
import Verif.Lemmas.HelpConverter
import Verif.Lemmas.KernelRfl
/-!
# C99: installing, batches, Python files, the exit status
-/

namespace CC

open App

/-! ## Installing -/

/-- The files of different programs are different. -/
theorem C99_paths (E : AppEnv) {a b : Str} {k : OutKind} {p : Str} (h1 : InstalledAt E a k p) (h2 : InstalledAt E b k p) : a = b := by
  generalize hq : p = q at h2
  cases h1 <;> cases h2 <;> simp_all

/-- A script is installed into the directory for it, if the name of the program has no slash. -/
theorem C99_inside_partial (E : AppEnv) {prog : Str} {k : OutKind} {p : Str} (hs : '/' ∉ prog) (h : InstalledAt E prog k p) :
    ∃ d n, p = d ++ ['/'] ++ n ∧ '/' ∉ n ∧
      ((k = .bash ∧ d = (E.pkgConfig (S "bash-completion")).getD (S "/usr/share/bash-completion/completions")) ∨
       (k = .fish ∧ d = (E.pkgConfig (S "fish")).getD (S "/usr/share/fish/vendor_completions.d")) ∨
       (k = .zsh ∧ d = S "/usr/share/zsh/site-functions")) := by
  cases h with
  | @bash d hd => exact ⟨d, prog, rfl, hs, .inl ⟨rfl, by rw [hd]; rfl⟩⟩
  | bash' hd => exact ⟨S "/usr/share/bash-completion/completions", prog, by rw [show S "/usr/share/bash-completion/completions/" = S "/usr/share/bash-completion/completions" ++ ['/'] by decide], hs, .inl ⟨rfl, by rw [hd]; rfl⟩⟩
  | @fish d hd => exact ⟨d, prog ++ S ".fish", by simp, by simp [hs]; decide, .inr (.inl ⟨rfl, by rw [hd]; rfl⟩)⟩
  | fish' hd => exact ⟨S "/usr/share/fish/vendor_completions.d", prog ++ S ".fish", by rw [show S "/usr/share/fish/vendor_completions.d/" = S "/usr/share/fish/vendor_completions.d" ++ ['/'] by decide]; simp, by simp [hs]; decide, .inr (.inl ⟨rfl, by rw [hd]; rfl⟩)⟩
  | zsh => exact ⟨S "/usr/share/zsh/site-functions", '_' :: prog, by rw [show S "/usr/share/zsh/site-functions/_" = S "/usr/share/zsh/site-functions" ++ ['/'] ++ ['_'] by decide]; simp, by simp [hs], .inr (.inr ⟨rfl, rfl⟩)⟩

/-- The options for removing an installed script. -/
def AppOpts.toUninstall (o : AppOpts) : AppOpts := { o with install := false, uninstall := true }

theorem wanted_uninstall {o : AppOpts} {c : Settings} (h : WantedSettings o c) : WantedSettings o.toUninstall c :=
  ⟨h.debug, h.functionPrefix, h.abbreviateCommands, h.abbreviateOptions, h.repeatableOptions, h.inheritOptions, h.optionStacking, h.longSep,
   h.vimModeline, h.bashVersion, h.zshCompdef, h.fishInline, h.includeFiles, h.comments, h.keepComments, h.bounded, h.unbounded, h.hidden, h.final,
   h.groups, h.repeatable, h.when_⟩

/-- Installing a script and uninstalling it leaves everything as it was. -/
theorem C99_install_uninstall (E : AppEnv) (hr : ReadsIncluded E) (o : AppOpts) (w : Disk) (hins : o.install = true) {t p : Str}
    (hw : Wish E o w t (.file p)) (h1 : E.writable p = true) (h2 : E.removable p = true) (hnew : w.files p = none)
    (hinc : p ∉ o.includeFile.getD []) :
    (generate E o w).result = .ok () ∧ (w.after E (generate E o w).acts).files p = some t ∧
    (generate E o.toUninstall (w.after E (generate E o w).acts)).result = .ok () ∧
    (w.after E (generate E o w).acts).after E (generate E o.toUninstall (w.after E (generate E o w).acts)).acts = w := by
  obtain ⟨hok, hdel⟩ := C99_succeeds E o w hw h1
  obtain ⟨d1, d2, d3, d4, d5⟩ := hdel
  generalize hw1 : w.after E (generate E o w).acts = w1 at d1 d2 d3 d4 d5 ⊢
  have hwish : Wish E o.toUninstall w1 t (.gone p) := by
    cases hw with
    | help hh hy hf ht hask =>
      cases hask with
      | file a _ _ => rw [hins] at a; cases a
      | install _ hat => rw [hy] at hat; cases hat
    | @definition c _ _ hd hren hask =>
      have hat : InstalledAt E c.data.prog o.shell p := by
        cases hask with
        | file a _ _ => rw [hins] at a; cases a
        | install _ hat => exact hat
      refine .definition (c := c) ?_ ?_ (.uninstall rfl rfl hat)
      · cases hd with
        | @json s _ hk hf hj =>
          refine .json hk ?_ hj
          have : o.definitionFile ≠ p := by rintro rfl; rw [hnew] at hf; cases hf
          exact (d2 _ this).trans hf
        | @yaml s _ hk hf hj =>
          refine .yaml hk ?_ hj
          have : o.definitionFile ≠ p := by rintro rfl; rw [hnew] at hf; cases hf
          exact (d2 _ this).trans hf
      · have hfile : ∀ conf, WantedSettings o conf → ∀ q ∈ conf.includeFiles, w1.files q = w.files q := by
          intro conf hc q hq
          rw [hc.includeFiles] at hq
          exact d2 q (by rintro rfl; exact hinc hq)
        cases hren with
        | json hs _ => rw [hs] at hat; cases hat
        | yaml hs _ => rw [hs] at hat; cases hat
        | bash hs hc ht => exact .bash hs (wanted_uninstall hc) ((hr.bash _ _ _ _ (hfile _ hc)).trans ht)
        | fish hs hc ht => exact .fish hs (wanted_uninstall hc) ((hr.fish _ _ _ _ (hfile _ hc)).trans ht)
        | zsh hs hc ht => exact .zsh hs (wanted_uninstall hc) ((hr.zsh _ _ _ _ (hfile _ hc)).trans ht)
  obtain ⟨hok2, hdel2⟩ := C99_succeeds E o.toUninstall w1 hwish ⟨by rw [d1]; simp, h2⟩
  obtain ⟨-, e1, e2, e3, e4, e5⟩ := hdel2
  refine ⟨hok, d1, hok2, ?_⟩
  generalize w1.after E (generate E o.toUninstall w1).acts = w2 at e1 e2 e3 e4 e5 ⊢
  obtain ⟨f2, o2, m2, p2⟩ := w2
  obtain ⟨f, oo, m, pp⟩ := w
  simp only [Disk.mk.injEq]
  refine ⟨?_, e3.trans d3, e4.trans d4, e5.trans d5⟩
  funext q
  by_cases hq : q = p
  · rw [hq]; exact e1.trans hnew.symm
  · exact (e2 q hq).trans (d2 q hq)

/-! ## Batches -/

theorem parse_plain {E : AppEnv} {args : List Str} (n : Nat) (h1 : E.askManual args = .ok none) (h2 : E.askBatch args = .ok none) :
    parseArgs E (n + 1) args = AppM.give (E.parse args) := by
  funext w
  unfold parseArgs
  rw [give_next, h1]
  simp only [askedFor]
  rw [give_next, h2]

theorem strip_spaces {l : Str} (h : ∀ c ∈ l, pyIsSpace c = true) : strip l = [] := by
  cases hs : strip l with
  | nil => rfl
  | cons c t =>
    exfalso
    obtain ⟨a, h1, h2, h3⟩ := lstrip_trimmed l
    have hl : lstrip l = [] := by
      have : ∀ s : Str, (∀ c ∈ s, pyIsSpace c = true) → lstrip s = [] := by
        intro s
        induction s with
        | nil => intro _; rfl
        | cons c s ih =>
          intro hc
          unfold lstrip
          rw [if_pos (hc c (by simp))]
          exact ih (fun x hx => hc x (by simp [hx]))
      exact this l h
    unfold strip at hs
    rw [hl] at hs
    cases hs

theorem comment_line {a b : Str} (h : ∀ c ∈ a, pyIsSpace c = true) : ∃ t, strip (a ++ '#' :: b) = '#' :: t := by
  have hl : ∀ a : Str, (∀ c ∈ a, pyIsSpace c = true) → lstrip (a ++ '#' :: b) = '#' :: b := by
    intro a
    induction a with
    | nil => intro _; rfl
    | cons c s ih =>
      intro hc
      rw [List.cons_append]
      unfold lstrip
      rw [if_pos (hc c (by simp))]
      exact ih (fun x hx => hc x (by simp [hx]))
  unfold strip
  rw [hl a h]
  obtain ⟨e, h1, h2, -⟩ := rstrip_trimmed ('#' :: b)
  cases hr : rstrip ('#' :: b) with
  | nil =>
    rw [hr, List.nil_append] at h1
    have := h2 '#' (by rw [← h1]; simp)
    exact absurd this (by decide)
  | cons c t =>
    rw [hr, List.cons_append, List.cons.injEq] at h1
    exact ⟨t, by rw [h1.1]⟩

theorem batch_runs (E : AppEnv) (n : Nat) {ls : List Str} {os : List AppOpts} (h : Jobs E ls os) : ∀ w,
    Runs E os w (batchLines E (fun a => AppM.next E (parseArgs E (n + 1) a) (generate E)) ls w).acts
      (batchLines E (fun a => AppM.next E (parseArgs E (n + 1) a) (generate E)) ls w).result := by
  induction h with
  | nil => intro w; exact .nil
  | empty hl _ ih =>
    intro w
    unfold batchLines
    rw [if_pos (by rw [strip_spaces hl]; rfl)]
    exact ih w
  | comment hl ha _ ih =>
    intro w
    unfold batchLines
    subst hl
    obtain ⟨t, ht⟩ := comment_line ha
    rw [if_pos (by rw [ht]; simp [startsWith])]
    exact ih w
  | @job l ls os args o h1 h2 hs hm hb hp _ ih =>
    intro w
    unfold batchLines
    have hc : ((strip l).isEmpty || startsWith (strip l) ['#']) = false := by
      cases hl : strip l with
      | nil => exact absurd hl h1
      | cons c t =>
        rw [hl] at h2
        have : c ≠ '#' := by simpa using h2
        simp [startsWith, this]
    rw [if_neg (by rw [hc]; simp), give_next, hs]
    simp only
    have hone : AppM.next E (parseArgs E (n + 1) args) (generate E) w = generate E o w := by
      rw [parse_plain n hm hb, give_next, hp]
    cases hg : (generate E o w).result with
    | error x =>
      rw [next_error (x := x) (by rw [hone, hg]), hone]
      exact .fail hg
    | ok u =>
      rw [next_ok (a := u) (by rw [hone, hg]), hone]
      exact .next hg (ih _)

/-- A batch runs its jobs one after the other until one fails; the exit status is 0 if none does. -/
theorem C99_batch (E : AppEnv) (n : Nat) (w : Disk) {args : List Str} {f s : Str} {os : List AppOpts} (hm : E.askManual args = .ok none)
    (hb : E.askBatch args = .ok (some f)) (hne : f ≠ []) (hf : w.files f = some s) (hj : Jobs E (splitOn '\n' s) os) :
    ∃ r, Runs E os w (mainRun E (n + 2) args w).1 r ∧
      (mainRun E (n + 2) args w).2 = match r with | .ok _ => 0 | .error x => parseStatus x := by
  have hr := batch_runs E n hj w
  have hp : parseArgs E (n + 2) args w = AppM.next E (batchLines E (fun a => AppM.next E (parseArgs E (n + 1) a) (generate E)) (splitOn '\n' s))
      (fun _ => AppM.give (.error (.exit 0))) w := by
    conv => lhs; unfold parseArgs
    rw [give_next, hm]
    simp only
    rw [show askedFor none = none from rfl]
    simp only
    rw [give_next, hb]
    simp only
    have ha : askedFor (some f) = some f := by
      cases f with
      | nil => exact absurd rfl hne
      | cons c t => rfl
    rw [ha]
    simp only
    rw [read_next, hf]
  cases hx : (batchLines E (fun a => AppM.next E (parseArgs E (n + 1) a) (generate E)) (splitOn '\n' s) w).result with
  | error x =>
    rw [hx] at hr
    rw [next_error hx] at hp
    refine ⟨.error x, ?_, ?_⟩
    · unfold mainRun; rw [hp]; exact hr
    · unfold mainRun; rw [hp]
  | ok u =>
    rw [hx] at hr
    rw [next_ok hx] at hp
    refine ⟨.ok u, ?_, ?_⟩
    · unfold mainRun; rw [hp]; simp only [AppM.give, List.append_nil]; exact hr
    · unfold mainRun; rw [hp]; rfl

/-! ## The exit status -/

/-- Without `--manual` and `--batch` the exit status of a run is 0 exactly if it has done what was asked for. -/
theorem C99_status_partial (E : AppEnv) (hx : NoExit E) (n : Nat) (w : Disk) {args : List Str} {o : AppOpts} (h1 : E.askManual args = .ok none)
    (h2 : E.askBatch args = .ok none) (h3 : E.parse args = .ok o) (hp : o.inputType ≠ .python) (hi : InstallsScripts o) :
    ((mainRun E (n + 1) args w).2 = 0 ↔ ∃ t pl, Wish E o w t pl ∧ Allowed E w pl) ∧
    ((mainRun E (n + 1) args w).2 = 0 → ∃ t pl, Wish E o w t pl ∧ Delivered w (w.after E (mainRun E (n + 1) args w).1) t pl) ∧
    ((mainRun E (n + 1) args w).2 ≠ 0 → w.after E (mainRun E (n + 1) args w).1 = w) := by
  have hm : mainRun E (n + 1) args w = ((generate E o w).acts, match (generate E o w).result with | .error x => runStatus x | .ok _ => 0) := by
    unfold mainRun
    rw [parse_plain n h1 h2]
    simp only [AppM.give, h3, after_nil, List.nil_append]
    rfl
  rw [hm]
  rcases run_shape E o w hp with ⟨x, h, hne⟩ | ⟨t, pl, ha, h, hw⟩
  · have hs : runStatus x ≠ 0 := by
      have := hne hx
      cases x with
      | exit n => exact absurd rfl (this n)
      | _ => simp [runStatus]
    rw [h]
    refine ⟨⟨fun e => absurd e hs, ?_⟩, fun e => absurd e hs, fun _ => rfl⟩
    rintro ⟨t, pl, hw, ha⟩
    have := (C99_succeeds E o w hw ha).1
    rw [h] at this
    cases this
  · rw [h]
    refine ⟨⟨fun _ => ⟨t, pl, hw hi, ha⟩, fun _ => rfl⟩, fun _ => ⟨t, pl, hw hi, placing_delivers E w t pl ha⟩, fun e => absurd rfl e⟩

/-! ## Python files -/

theorem dirName_eq {d n : Str} (hd : d ≠ []) (hl : d.getLast? ≠ some '/') (hn : '/' ∉ n) : dirName (d ++ '/' :: n) = d := by
  have h1 : ((d ++ '/' :: n).reverse.dropWhile (· != '/')).reverse = d ++ ['/'] := by
    have e : (d ++ '/' :: n).reverse = n.reverse ++ '/' :: d.reverse := by simp
    have h : ∀ r : List Char, '/' ∉ r → (r ++ '/' :: d.reverse).dropWhile (· != '/') = '/' :: d.reverse := by
      intro r
      induction r with
      | nil => intro _; exact List.dropWhile_cons_of_neg (by decide)
      | cons c r ih =>
        intro hr
        rw [List.cons_append, List.dropWhile_cons_of_pos, ih (by simp at hr; exact hr.2)]
        simp at hr
        simpa using Ne.symm hr.1
    rw [e, h _ (by simpa using hn)]
    simp
  unfold dirName
  simp only
  rw [h1]
  have hrev : ∃ c t, d.reverse = c :: t ∧ c ≠ '/' := by
    cases hr : d.reverse with
    | nil => exact absurd (List.reverse_eq_nil_iff.mp hr) hd
    | cons c t =>
      refine ⟨c, t, rfl, ?_⟩
      rintro rfl
      apply hl
      rw [List.getLast?_eq_head?_reverse, hr]
      rfl
  obtain ⟨c, t, hr, hc⟩ := hrev
  have hdm : d = t.reverse ++ [c] := by
    have := congrArg List.reverse hr
    simpa using this
  rw [if_neg]
  · rw [List.reverse_append, hr]
    show (List.dropWhile (· == '/') ('/' :: c :: t)).reverse = d
    rw [List.dropWhile_cons_of_pos (by decide), List.dropWhile_cons_of_neg (by simpa using hc), hdm]
    simp
  · rw [List.all_eq_true]
    intro h
    have := h c (by rw [hdm]; simp)
    simp at this
    exact hc this

theorem find_module {w : Disk} {name d : Str} (hd : (w.files (joinPath d (name ++ S ".py"))).isSome = true) : ∀ {l : List Str}, d ∈ l →
    (∀ q ∈ l, q ≠ d → w.files (joinPath q (name ++ S ".py")) = none) → findModule w name l = some (joinPath d (name ++ S ".py"))
  | [], h, _ => by cases h
  | q :: l, h, ho => by
    unfold findModule
    by_cases e : q = d
    · subst e; rw [if_pos hd]
    · rw [if_neg (by rw [ho q (by simp) e]; simp)]
      refine find_module hd ?_ (fun x hx => ho x (by simp [hx]))
      simp only [List.mem_cons] at h
      rcases h with h | h
      · exact absurd h.symm e
      · exact h

/-- A Python file `d/n.py` is executed once and what it defines is used, if no module `n` was loaded before, no other directory
that Python searches has a file `n.py`, and the code ends without an exception. -/
theorem C99_python_partial (E : AppEnv) (w : Disk) {d n : Str} (v : Option Str) (hd : d ≠ []) (hl : d.getLast? ≠ some '/') (hn : '/' ∉ n) (hdot : '.' ∉ n)
    (hnot : ∀ e ∈ w.modules, e.1 ≠ n) (hother : ∀ q ∈ w.path, q ≠ d → w.files (joinPath q (n ++ S ".py")) = none)
    (hf : w.files (d ++ '/' :: (n ++ S ".py")) ≠ none) (hr : E.raises (d ++ '/' :: (n ++ S ".py")) = none) :
    loadPython E (d ++ '/' :: (n ++ S ".py")) v w =
      ⟨(if w.path.contains d then [] else [.addPath d]) ++ [.exec (d ++ '/' :: (n ++ S ".py")), .loaded n (d ++ '/' :: (n ++ S ".py"))],
       E.python (d ++ '/' :: (n ++ S ".py")) v⟩ := by
  have hns : '/' ∉ n ++ S ".py" := by simp [hn]; decide
  have hb : baseName (d ++ '/' :: (n ++ S ".py")) = n ++ S ".py" := by
    have := baseName_eq (d := d ++ ['/']) hns (.inr (by simp))
    simpa using this
  have hlow : (S ".py").isSuffixOf (lower (n ++ S ".py")) = true := by
    have e : lower (n ++ S ".py") = lower n ++ S ".py" := by
      unfold lower
      rw [List.map_append]
      congr 1
    rw [e, List.isSuffixOf_iff_suffix]
    exact ⟨_, rfl⟩
  have htake : (n ++ S ".py").take ((n ++ S ".py").length - 3) = n := by
    have : (n ++ S ".py").length - 3 = n.length := by simp [S]
    rw [this, List.take_left]
  have hj : joinPath d (n ++ S ".py") = d ++ '/' :: (n ++ S ".py") := by
    unfold joinPath
    rw [if_neg hl]
    simp
  have himp : ∀ w' : Disk, w'.files = w.files → w'.modules = w.modules → d ∈ w'.path →
      (∀ q ∈ w'.path, q ≠ d → w'.files (joinPath q (n ++ S ".py")) = none) →
      importModule E n w' = ⟨[.exec (d ++ '/' :: (n ++ S ".py")), .loaded n (d ++ '/' :: (n ++ S ".py"))], .ok (d ++ '/' :: (n ++ S ".py"))⟩ := by
    intro w' e1 e2 h1 h2
    unfold importModule
    have hnone : w'.modules.find? (fun e => e.1 = n) = none := by
      rw [List.find?_eq_none]
      intro e he
      rw [e2] at he
      simpa using hnot e he
    rw [hnone]
    simp only
    rw [if_neg (by simpa using hdot)]
    have hsome : (w'.files (joinPath d (n ++ S ".py"))).isSome = true := by
      rw [hj, e1, Option.isSome_iff_ne_none]
      exact hf
    rw [find_module hsome h1 h2, hj]
    simp only
    rw [hr]
  have hfile : importFile E (d ++ '/' :: (n ++ S ".py")) w =
      ⟨(if w.path.contains d then [] else [.addPath d]) ++ [.exec (d ++ '/' :: (n ++ S ".py")), .loaded n (d ++ '/' :: (n ++ S ".py"))],
       .ok (d ++ '/' :: (n ++ S ".py"))⟩ := by
    unfold importFile
    rw [hb, if_pos hlow, htake, dirName_eq hd hl hns, if_neg (by simpa using hd), next_ok (a := ()) rfl]
    by_cases hc : w.path.contains d = true
    · have : (addDirectory d w).acts = [] := by unfold addDirectory; simp only; rw [if_pos hc]
      rw [this, after_nil, himp w rfl rfl (by simpa using hc) hother, if_pos hc]
    · have : (addDirectory d w).acts = [.addPath d] := by unfold addDirectory; simp only; rw [if_neg hc]
      rw [this, if_neg hc]
      have hw' : w.after E [.addPath d] = { w with path := w.path ++ [d] } := rfl
      rw [hw', himp { w with path := w.path ++ [d] } rfl rfl (by simp) (by
        intro q hq hne
        simp only [List.mem_append, List.mem_singleton] at hq
        rcases hq with hq | hq
        · exact hother q hq hne
        · exact absurd hq hne)]
  unfold loadPython
  rw [hfile]

/-- What a run does with the command line that a Python file defines. -/
theorem C99_python_delivers (E : AppEnv) (o : AppOpts) (w : Disk) (hp : o.inputType = .python) (hi : InstallsScripts o) :
    ((generate E o w).result = .ok () → ∃ c t pl, (loadDefinition E o w).result = .ok c ∧ Rendered E o (w.after E (loadDefinition E o w).acts) c t ∧
      Asked E o c.data.prog pl ∧ Delivered (w.after E (loadDefinition E o w).acts) (w.after E (generate E o w).acts) t pl) ∧
    (∀ x, (generate E o w).result = .error x → w.after E (generate E o w).acts = w.after E (loadDefinition E o w).acts) := by
  rw [generate_deliver E (by rw [hp]; decide)]
  cases hl : (loadDefinition E o w).result with
  | error x => rw [next_error hl]; exact ⟨fun h => (nomatch h), fun _ _ => rfl⟩
  | ok c =>
    rw [next_ok hl]
    simp only [after_append]
    rcases deliver_shape E o c (w.after E (loadDefinition E o w).acts) with ⟨x, h, -⟩ | ⟨t, pl, hr, ha, h, hk⟩
    · rw [h]; exact ⟨fun h => (nomatch h), fun _ _ => rfl⟩
    · rw [h]
      exact ⟨fun _ => ⟨c, t, pl, rfl, hr, hk hi, placing_delivers E _ t pl ha⟩, fun x hx => (nomatch hx)⟩

/-! ## Examples and what is not so -/

/-- A command without options. -/
def namedCmd (name : Str) : Cmd := .node { prog := name } none []

/-- An environment for examples: the content of a file is the name of the program, its script is the name with a sign behind it.
The arguments are the output, the input and the file. -/
def exampleAppEnv : AppEnv where
  json s := if s.isEmpty then .error .decode else .ok (namedCmd s)
  yaml s := if s.isEmpty then .error .decode else .ok (namedCmd s)
  python p _ := .ok (namedCmd p)
  raises p := if p = S "d/exit.py" then some (.exit 0) else if p = S "d/raise.py" then some .other else none
  execute _ w := w
  mainModule _ := .error .crazy
  help s := .ok s
  toJson c := .ok c.data.prog
  toYaml c := .ok c.data.prog
  bash c _ _ := .ok (c.data.prog ++ S "!")
  fish c _ _ := .ok (c.data.prog ++ S "?")
  zsh c _ _ := .ok (c.data.prog ++ S "%")
  pkgConfig _ := none
  writable _ := true
  removable _ := true
  askManual args := .ok (if args = [S "--manual"] then some (S "all") else none)
  askBatch args := .ok (match args with | [a, f] => if a = S "--batch" then some f else none | _ => none)
  parse args := match args with
    | [k, f] => .ok { shell := if k = S "json" then .json else .bash, definitionFile := f }
    | [k, i, f] => .ok { shell := if k = S "json" then .json else .bash, inputType := if i = S "python" then .python else .auto, definitionFile := f }
    | _ => .error .argument
  manual t := .ok t
  split s := .ok (splitOn ' ' s)

/-- The files of the examples. -/
def exampleDisk : Disk where
  files p :=
    if p = S "p.json" then some (S "p") else if p = S "bad.json" then some [] else if p = S "q.yaml" then some (S "q") else if p = S "old" then some (S "old")
    else if p = S "jobs" then some (S "# jobs\njson p.json\n\n  bash q.yaml") else if p = S "nested" then some (S "json p.json\n--batch jobs\njson q.yaml")
    else if p = S "a/tool.py" then some [] else if p = S "b/tool.py" then some [] else if p = S "d/exit.py" then some []
    else if p = S "d/raise.py" then some []
    else none

theorem example_no_exit : NoExit exampleAppEnv where
  json s n := by unfold exampleAppEnv; simp only; split <;> simp
  yaml s n := by unfold exampleAppEnv; simp only; split <;> simp
  help s n := by unfold exampleAppEnv; simp
  toJson s n := by unfold exampleAppEnv; simp
  toYaml s n := by unfold exampleAppEnv; simp
  bash c s f n := by unfold exampleAppEnv; simp
  fish c s f n := by unfold exampleAppEnv; simp
  zsh c s f n := by unfold exampleAppEnv; simp

theorem example_reads : ReadsIncluded exampleAppEnv where
  bash _ _ _ _ _ := rfl
  fish _ _ _ _ _ := rfl
  zsh _ _ _ _ _ := rfl

/-- The settings of a command line without options. -/
theorem default_settings (k : OutKind) (f : Str) (b : Bool) : WantedSettings { shell := k, definitionFile := f, install := b } {} := by
  apply config_wanted
  rfl

/-- The hypotheses hold for installing a Bash script. -/
theorem C99_example : Wish exampleAppEnv { shell := .bash, definitionFile := S "p.json", install := true } exampleDisk (S "p!")
      (.file (S "/usr/share/bash-completion/completions/p")) ∧
    exampleDisk.files (S "/usr/share/bash-completion/completions/p") = none ∧
    InstallsScripts { shell := .bash, definitionFile := S "p.json", install := true } ∧
    Jobs exampleAppEnv (splitOn '\n' (S "# jobs\njson p.json\n\n  bash q.yaml"))
      [{ shell := .json, definitionFile := S "p.json" }, { shell := .bash, definitionFile := S "q.yaml" }] := by
  refine ⟨?_, by decide +kernel, ?_, ?_⟩
  · refine .definition (c := namedCmd (S "p")) ?_ ?_ ?_
    · refine .json (s := S "p") (.inr ⟨rfl, [], S "p", S "json", rfl, by decide, by decide, by decide, by decide, ⟨'p', by decide, by decide⟩, .inl rfl⟩)
        (by decide +kernel) rfl
    · exact .bash rfl (default_settings _ _ _) rfl
    · exact .install rfl (.bash' rfl)
  · rintro (h | h) <;> cases h
  · have e : splitOn '\n' (S "# jobs\njson p.json\n\n  bash q.yaml") = [S "# jobs", S "json p.json", [], S "  bash q.yaml"] := by decide +kernel
    rw [e]
    refine .comment (a := []) (b := S " jobs") (by decide) (by simp) ?_
    refine .job (args := [S "json", S "p.json"]) (by decide +kernel) (by decide +kernel) ?_ rfl rfl rfl ?_
    · show Except.ok (splitOn ' ' (strip (S "json p.json"))) = _
      rw [show splitOn ' ' (strip (S "json p.json")) = [S "json", S "p.json"] by decide +kernel]
    · refine .empty (by simp) ?_
      refine .job (args := [S "bash", S "q.yaml"]) (by decide +kernel) (by decide +kernel) ?_ rfl rfl rfl .nil
      show Except.ok (splitOn ' ' (strip (S "  bash q.yaml"))) = _
      rw [show splitOn ' ' (strip (S "  bash q.yaml")) = [S "bash", S "q.yaml"] by decide +kernel]

/-- A run that ends before its time leaves a file that was there empty: the old content is lost, the new is not there. -/
theorem C99_truncated : let o : AppOpts := { shell := .bash, definitionFile := S "p.json", outputFile := some (S "old") }
    exampleDisk.files (S "old") = some (S "old") ∧ (generate exampleAppEnv o exampleDisk).result = .ok () ∧
    [.truncate (S "old")] <+: (generate exampleAppEnv o exampleDisk).acts ∧ (exampleDisk.after exampleAppEnv [.truncate (S "old")]).files (S "old") = some [] := by
  refine ⟨by decide +kernel, by kernel_rfl, ?_, by decide +kernel⟩
  exact ⟨[.append (S "old") 'p', .append (S "old") '!'], by kernel_rfl⟩

/-- With JSON or YAML as output `--install-system-wide` and `--uninstall-system-wide` are ignored: the text is printed. -/
theorem C99_ignored : ∀ b : Bool, let o : AppOpts := { shell := .json, definitionFile := S "p.json", install := b, uninstall := !b }
    (generate exampleAppEnv o exampleDisk).result = .ok () ∧ (generate exampleAppEnv o exampleDisk).acts = [.print (S "p\n")] := by
  intro b
  cases b <;> exact ⟨by kernel_rfl, by kernel_rfl⟩

/-- An installed script cannot be removed once its definition is not valid any more. -/
theorem C99_uninstall_needs_definition :
    (generate exampleAppEnv { shell := .bash, definitionFile := S "bad.json", uninstall := true } exampleDisk).result = .error .decode := by kernel_rfl

/-- A program whose name has slashes is installed elsewhere. -/
theorem C99_outside : ∃ prog p, InstalledAt exampleAppEnv prog .zsh p ∧ ∀ n, p = S "/usr/share/zsh/site-functions" ++ ['/'] ++ n → '/' ∈ n := by
  refine ⟨S "/../../../../home/x", _, .zsh, fun n h => ?_⟩
  have e : S "/usr/share/zsh/site-functions/_" ++ S "/../../../../home/x" = S "/usr/share/zsh/site-functions" ++ ['/'] ++ S "_/../../../../home/x" := by
    decide +kernel
  rw [e] at h
  rw [← List.append_cancel_left h]
  decide

/-- The second of two Python files with the same name is not read: the first is used for both. -/
theorem C99_same_name :
    let first : AppOpts := { shell := .json, inputType := .python, definitionFile := S "a/tool.py" }
    let second : AppOpts := { shell := .json, inputType := .python, definitionFile := S "b/tool.py" }
    (generate exampleAppEnv second exampleDisk).acts =
      [.addPath (S "b"), .exec (S "b/tool.py"), .loaded (S "tool") (S "b/tool.py"), .print (S "b/tool.py\n")] ∧
    (generate exampleAppEnv second (exampleDisk.after exampleAppEnv (generate exampleAppEnv first exampleDisk).acts)).acts =
      [.addPath (S "b"), .print (S "a/tool.py\n")] := by
  refine ⟨by kernel_rfl, by kernel_rfl⟩

/-- A Python file that ends with `sys.exit(0)` ends the program with the exit status 0, and nothing is written. -/
theorem C99_exits : mainRun exampleAppEnv 5 [S "json", S "python", S "d/exit.py"] exampleDisk = ([.addPath (S "d"), .exec (S "d/exit.py")], 0) := by
  kernel_rfl

/-- A Python file that raises an exception is executed twice, and then `__main__` is searched. -/
theorem C99_twice : mainRun exampleAppEnv 5 [S "json", S "python", S "d/raise.py"] exampleDisk =
    ([.addPath (S "d"), .exec (S "d/raise.py"), .exec (S "d/raise.py")], 3) := by kernel_rfl

/-- A batch in a batch ends both: the last line is not run, and the exit status is 0. -/
theorem C99_nested : mainRun exampleAppEnv 5 [S "--batch", S "nested"] exampleDisk = ([.print (S "p\n"), .print (S "p\n"), .print (S "q!\n")], 0) ∧
    mainRun exampleAppEnv 5 [S "json", S "q.yaml"] exampleDisk = ([.print (S "q\n")], 0) := ⟨by kernel_rfl, by kernel_rfl⟩

end CC
