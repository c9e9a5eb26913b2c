import Verif.Lemmas.Application
/-!
# C99: what a run of the program does to the outside
-/

namespace CC

open App

/-- The actions that put a text at a place. -/
def placing (t : Str) : Place → List Act
  | .screen => [.print (t ++ ['\n'])]
  | .file p => .truncate p :: t.map (.append p)
  | .gone p => [.remove p]

theorem placing_delivers (E : AppEnv) (w : Disk) (t : Str) (pl : Place) (h : Allowed E w pl) : Delivered w (w.after E (placing t pl)) t pl := by
  cases pl with
  | screen => show { w with out := w.out ++ (t ++ ['\n']) } = _; rw [List.append_assoc]
  | file p =>
    show Delivered w (w.after E (.truncate p :: t.map (.append p))) t (.file p)
    rw [write_after]
    refine ⟨by simp [setFile], fun q hq => by simp [setFile, hq], rfl, rfl, rfl⟩
  | gone p => exact ⟨h.1, if_pos rfl, fun q hq => if_neg hq, rfl, rfl, rfl⟩

/-! ## Loading -/

theorem auto_json (E : AppEnv) {o : AppOpts} (w : Disk) (ha : o.inputType = .auto) (h : HasExtension o.definitionFile (S "json")) :
    loadDefinition E o w = AppM.next E (readFile o.definitionFile) (fun s => AppM.give (E.json s)) w := by
  unfold loadDefinition
  rw [ha]
  simp only
  rw [if_pos ((extension_iff _ (by decide)).mpr h)]

theorem auto_yaml (E : AppEnv) {o : AppOpts} (w : Disk) (ha : o.inputType = .auto)
    (h : HasExtension o.definitionFile (S "yaml") ∨ HasExtension o.definitionFile (S "yml")) :
    loadDefinition E o w = AppM.next E (readFile o.definitionFile) (fun s => AppM.give (E.yaml s)) w := by
  have h' : fileExtension o.definitionFile = S "yaml" ∨ fileExtension o.definitionFile = S "yml" := by
    rcases h with h | h
    · exact .inl ((extension_iff _ (by decide)).mpr h)
    · exact .inr ((extension_iff _ (by decide)).mpr h)
  unfold loadDefinition
  rw [ha]
  simp only
  rw [if_neg, if_pos h']
  intro e
  rcases h' with h' | h' <;> (rw [e] at h'; revert h'; decide)

theorem load_of_defined {E : AppEnv} {o : AppOpts} {w : Disk} {c : Cmd} (h : DefinedBy E o w c) : loadDefinition E o w = ⟨[], .ok c⟩ := by
  cases h with
  | @json s _ hk hf hj =>
    have : loadDefinition E o w = AppM.next E (readFile o.definitionFile) (fun s => AppM.give (E.json s)) w := by
      rcases hk with hk | ⟨ha, hk⟩
      · unfold loadDefinition; rw [hk]
      · exact auto_json E w ha hk
    rw [this, read_next, hf]
    simp only [AppM.give]
    rw [hj]
  | @yaml s _ hk hf hj =>
    have : loadDefinition E o w = AppM.next E (readFile o.definitionFile) (fun s => AppM.give (E.yaml s)) w := by
      rcases hk with hk | ⟨ha, hk⟩
      · unfold loadDefinition; rw [hk]
      · exact auto_yaml E w ha hk
    rw [this, read_next, hf]
    simp only [AppM.give]
    rw [hj]

theorem load_shape (E : AppEnv) (o : AppOpts) (w : Disk) (hp : o.inputType ≠ .python) :
    (∃ c, DefinedBy E o w c ∧ loadDefinition E o w = ⟨[], .ok c⟩) ∨ ∃ x, loadDefinition E o w = ⟨[], .error x⟩ ∧ (NoExit E → ∀ n, x ≠ .exit n) := by
  have hjson : ∀ (h : o.inputType = .json ∨ (o.inputType = .auto ∧ HasExtension o.definitionFile (S "json"))),
      loadDefinition E o w = AppM.next E (readFile o.definitionFile) (fun s => AppM.give (E.json s)) w →
      (∃ c, DefinedBy E o w c ∧ loadDefinition E o w = ⟨[], .ok c⟩) ∨ ∃ x, loadDefinition E o w = ⟨[], .error x⟩ ∧ (NoExit E → ∀ n, x ≠ .exit n) := by
    intro h e
    rw [e, read_next]
    cases hf : w.files o.definitionFile with
    | none => exact .inr ⟨_, rfl, fun _ _ => by simp⟩
    | some s =>
      simp only [AppM.give]
      cases hj : E.json s with
      | error x => exact .inr ⟨x, rfl, fun hn n e => hn.json s n (by rw [hj, e])⟩
      | ok c => exact .inl ⟨c, .json h hf hj, rfl⟩
  have hyaml : ∀ (h : o.inputType = .yaml ∨ (o.inputType = .auto ∧ (HasExtension o.definitionFile (S "yaml") ∨ HasExtension o.definitionFile (S "yml")))),
      loadDefinition E o w = AppM.next E (readFile o.definitionFile) (fun s => AppM.give (E.yaml s)) w →
      (∃ c, DefinedBy E o w c ∧ loadDefinition E o w = ⟨[], .ok c⟩) ∨ ∃ x, loadDefinition E o w = ⟨[], .error x⟩ ∧ (NoExit E → ∀ n, x ≠ .exit n) := by
    intro h e
    rw [e, read_next]
    cases hf : w.files o.definitionFile with
    | none => exact .inr ⟨_, rfl, fun _ _ => by simp⟩
    | some s =>
      simp only [AppM.give]
      cases hj : E.yaml s with
      | error x => exact .inr ⟨x, rfl, fun hn n e => hn.yaml s n (by rw [hj, e])⟩
      | ok c => exact .inl ⟨c, .yaml h hf hj, rfl⟩
  cases hk : o.inputType with
  | python => exact absurd hk hp
  | help => right; unfold loadDefinition; rw [hk]; exact ⟨_, rfl, fun _ _ => by simp⟩
  | json => exact hjson (.inl hk) (by unfold loadDefinition; rw [hk])
  | yaml => exact hyaml (.inl hk) (by unfold loadDefinition; rw [hk])
  | auto =>
    by_cases h1 : HasExtension o.definitionFile (S "json")
    · exact hjson (.inr ⟨hk, h1⟩) (auto_json E w hk h1)
    · by_cases h2 : HasExtension o.definitionFile (S "yaml") ∨ HasExtension o.definitionFile (S "yml")
      · exact hyaml (.inr ⟨hk, h2⟩) (auto_yaml E w hk h2)
      · right
        unfold loadDefinition
        rw [hk]
        simp only
        rw [if_neg (fun e => h1 ((extension_iff _ (by decide)).mp e)), if_neg]
        · exact ⟨_, rfl, fun _ _ => by simp⟩
        · rintro (e | e)
          · exact h2 (.inl ((extension_iff _ (by decide)).mp e))
          · exact h2 (.inr ((extension_iff _ (by decide)).mp e))

/-! ## The text and its place -/

/-- The rest of `generate` once the definition is loaded. -/
def deliver (E : AppEnv) (o : AppOpts) (c : Cmd) : AppM Unit :=
  if o.shell = .json then AppM.next E (AppM.give (E.toJson c)) (fun t => writeStringToFile E t o.outputFile)
  else if o.shell = .yaml then AppM.next E (AppM.give (E.toYaml c)) (fun t => writeStringToFile E t o.outputFile)
  else AppM.next E (makeScript E o c) (fun t =>
    if o.install || o.uninstall then
      if o.install then writeStringToFile E t (some (systemFile E o c))
      else removeFile E (systemFile E o c)
    else writeStringToFile E t o.outputFile)

theorem generate_deliver (E : AppEnv) {o : AppOpts} (hh : o.inputType ≠ .help) : generate E o = AppM.next E (loadDefinition E o) (deliver E o) := by
  unfold generate
  rw [if_neg hh]
  rfl

/-- The place for the output, if nothing is installed. -/
def plainPlace (o : AppOpts) : Place := match o.outputFile with | none => .screen | some p => .file p

theorem write_shape (E : AppEnv) (t : Str) (o : AppOpts) (w : Disk) :
    (Allowed E w (plainPlace o) ∧ writeStringToFile E t o.outputFile w = ⟨placing t (plainPlace o), .ok ()⟩) ∨
    (¬ Allowed E w (plainPlace o) ∧ writeStringToFile E t o.outputFile w = ⟨[], .error .other⟩) := by
  unfold plainPlace writeStringToFile
  cases o.outputFile with
  | none => exact .inl ⟨trivial, rfl⟩
  | some p =>
    by_cases h : E.writable p = true
    · exact .inl ⟨h, by simp only; rw [if_pos h]; rfl⟩
    · exact .inr ⟨h, by simp only; rw [if_neg h]⟩

theorem plain_asked (E : AppEnv) {o : AppOpts} (prog : Str) (h1 : o.install = false) (h2 : o.uninstall = false) : Asked E o prog (plainPlace o) := by
  unfold plainPlace
  cases ho : o.outputFile with
  | none => exact .screen h1 h2 ho
  | some p => exact .file h1 h2 ho

theorem installed_at (E : AppEnv) {o : AppOpts} (c : Cmd) (h1 : o.shell ≠ .json) (h2 : o.shell ≠ .yaml) : InstalledAt E c.data.prog o.shell (systemFile E o c) := by
  unfold systemFile
  cases hs : o.shell with
  | json => exact absurd hs h1
  | yaml => exact absurd hs h2
  | bash =>
    simp only [bashCompletionFile]
    cases hd : E.pkgConfig (S "bash-completion") with
    | none =>
      have := InstalledAt.bash' (E := E) (prog := c.data.prog) hd
      have e : S "/usr/share/bash-completion/completions/" = S "/usr/share/bash-completion/completions" ++ ['/'] := by decide
      rw [e] at this
      exact this
    | some d => exact .bash hd
  | fish =>
    simp only [fishCompletionFile]
    cases hd : E.pkgConfig (S "fish") with
    | none =>
      have := InstalledAt.fish' (E := E) (prog := c.data.prog) hd
      have e : S "/usr/share/fish/vendor_completions.d/" = S "/usr/share/fish/vendor_completions.d" ++ ['/'] := by decide
      rw [e] at this
      exact this
    | some d => exact .fish hd
  | zsh =>
    have := InstalledAt.zsh (E := E) (prog := c.data.prog)
    have e : S "/usr/share/zsh/site-functions/_" = S "/usr/share/zsh/site-functions" ++ S "/_" := by decide
    rw [e] at this
    exact this

theorem installed_unique {E : AppEnv} {prog : Str} {k : OutKind} {p q : Str} (h1 : InstalledAt E prog k p) (h2 : InstalledAt E prog k q) : p = q := by
  cases h1 <;> cases h2 <;> simp_all

/-- What happens once the definition is loaded. -/
theorem deliver_shape (E : AppEnv) (o : AppOpts) (c : Cmd) (w : Disk) :
    (∃ x, deliver E o c w = ⟨[], .error x⟩ ∧ (NoExit E → ∀ n, x ≠ .exit n)) ∨
    ∃ t pl, Rendered E o w c t ∧ Allowed E w pl ∧ deliver E o c w = ⟨placing t pl, .ok ()⟩ ∧
      (((o.shell = .json ∨ o.shell = .yaml) → o.install = false ∧ o.uninstall = false) → Asked E o c.data.prog pl) := by
  unfold deliver
  by_cases hj : o.shell = .json
  · rw [if_pos hj, give_next]
    cases ht : E.toJson c with
    | error x => exact .inl ⟨x, rfl, fun hn n e => hn.toJson c n (by rw [ht, e])⟩
    | ok t =>
      simp only
      rcases write_shape E t o w with ⟨ha, hw⟩ | ⟨-, hw⟩
      · exact .inr ⟨t, _, .json hj ht, ha, hw, fun h => plain_asked E _ (h (.inl hj)).1 (h (.inl hj)).2⟩
      · exact .inl ⟨_, hw, fun _ _ => by simp⟩
  rw [if_neg hj]
  by_cases hy : o.shell = .yaml
  · rw [if_pos hy, give_next]
    cases ht : E.toYaml c with
    | error x => exact .inl ⟨x, rfl, fun hn n e => hn.toYaml c n (by rw [ht, e])⟩
    | ok t =>
      simp only
      rcases write_shape E t o w with ⟨ha, hw⟩ | ⟨-, hw⟩
      · exact .inr ⟨t, _, .yaml hy ht, ha, hw, fun h => plain_asked E _ (h (.inr hy)).1 (h (.inr hy)).2⟩
      · exact .inl ⟨_, hw, fun _ _ => by simp⟩
  rw [if_neg hy]
  have hm : (∃ x, makeScript E o c w = ⟨[], .error x⟩ ∧ (NoExit E → ∀ n, x ≠ .exit n)) ∨ ∃ t, Rendered E o w c t ∧ makeScript E o c w = ⟨[], .ok t⟩ := by
    unfold makeScript
    cases hc : configFromOptions o with
    | none => exact .inl ⟨_, rfl, fun _ _ => by simp⟩
    | some conf =>
      have hw := config_wanted hc
      cases hs : o.shell with
      | json => exact absurd hs hj
      | yaml => exact absurd hs hy
      | bash =>
        simp only
        cases ht : E.bash c conf w.files with
        | error x => exact .inl ⟨x, rfl, fun hn n e => hn.bash c conf w.files n (by rw [ht, e])⟩
        | ok t => exact .inr ⟨t, .bash hs hw ht, rfl⟩
      | fish =>
        simp only
        cases ht : E.fish c conf w.files with
        | error x => exact .inl ⟨x, rfl, fun hn n e => hn.fish c conf w.files n (by rw [ht, e])⟩
        | ok t => exact .inr ⟨t, .fish hs hw ht, rfl⟩
      | zsh =>
        simp only
        cases ht : E.zsh c conf w.files with
        | error x => exact .inl ⟨x, rfl, fun hn n e => hn.zsh c conf w.files n (by rw [ht, e])⟩
        | ok t => exact .inr ⟨t, .zsh hs hw ht, rfl⟩
  rcases hm with ⟨x, hm, hx⟩ | ⟨t, hr, hm⟩
  · left
    exact ⟨x, by rw [next_error (x := x) (by rw [hm]), hm], hx⟩
  · rw [next_ok (a := t) (by rw [hm]), hm]
    simp only [List.nil_append, after_nil]
    cases hi : o.install with
    | true =>
      simp only [Bool.true_or, if_true]
      unfold writeStringToFile
      by_cases hw : E.writable (systemFile E o c) = true
      · right
        exact ⟨t, .file (systemFile E o c), hr, hw, by simp only; rw [if_pos hw]; rfl, fun _ => .install hi (installed_at E c hj hy)⟩
      · left; simp only; rw [if_neg hw]; exact ⟨_, rfl, fun _ _ => by simp⟩
    | false =>
      cases hu : o.uninstall with
      | true =>
        simp only [Bool.or_true, if_true, Bool.false_eq_true, if_false]
        unfold removeFile
        cases hf : w.files (systemFile E o c) with
        | none => exact .inl ⟨_, rfl, fun _ _ => by simp⟩
        | some s =>
          by_cases hw : E.removable (systemFile E o c) = true
          · right
            exact ⟨t, .gone (systemFile E o c), hr, ⟨by rw [hf]; simp, hw⟩, by simp only; rw [if_pos hw]; rfl,
              fun _ => .uninstall hi hu (installed_at E c hj hy)⟩
          · left; simp only; rw [if_neg hw]; exact ⟨_, rfl, fun _ _ => by simp⟩
      | false =>
        simp only [Bool.or_false, Bool.false_eq_true, if_false]
        rcases write_shape E t o w with ⟨ha, hw⟩ | ⟨-, hw⟩
        · exact .inr ⟨t, _, hr, ha, hw, fun _ => plain_asked E _ hi hu⟩
        · exact .inl ⟨_, hw, fun _ _ => by simp⟩

/-- Installing and uninstalling are for scripts of shells. -/
def InstallsScripts (o : AppOpts) : Prop := (o.shell = .json ∨ o.shell = .yaml) → o.install = false ∧ o.uninstall = false

theorem run_shape (E : AppEnv) (o : AppOpts) (w : Disk) (hp : o.inputType ≠ .python) :
    (∃ x, generate E o w = ⟨[], .error x⟩ ∧ (NoExit E → ∀ n, x ≠ .exit n)) ∨
    ∃ t pl, Allowed E w pl ∧ generate E o w = ⟨placing t pl, .ok ()⟩ ∧ (InstallsScripts o → Wish E o w t pl) := by
  by_cases hh : o.inputType = .help
  · unfold generate
    rw [if_pos hh]
    by_cases hy : o.shell = .yaml
    · rw [if_neg (by simp [hy]), read_next]
      cases hf : w.files o.definitionFile with
      | none => exact .inl ⟨_, rfl, fun _ _ => by simp⟩
      | some s =>
        simp only
        rw [give_next]
        cases ht : E.help s with
        | error x => exact .inl ⟨_, rfl, fun hn n e => hn.help s n (by rw [ht, e])⟩
        | ok t =>
          simp only
          rcases write_shape E t o w with ⟨ha, hw⟩ | ⟨-, hw⟩
          · exact .inr ⟨t, _, ha, hw, fun h => .help hh hy hf ht (plain_asked E _ (h (.inr hy)).1 (h (.inr hy)).2)⟩
          · exact .inl ⟨_, hw, fun _ _ => by simp⟩
    · rw [if_pos hy]; exact .inl ⟨_, rfl, fun _ _ => by simp⟩
  · rw [generate_deliver E hh]
    rcases load_shape E o w hp with ⟨c, hd, hl⟩ | ⟨x, hl, hx⟩
    · rw [next_ok (a := c) (by rw [hl]), hl]
      simp only [List.nil_append, after_nil]
      rcases deliver_shape E o c w with ⟨x, h, hx⟩ | ⟨t, pl, hr, ha, h, hk⟩
      · exact .inl ⟨x, by rw [h], hx⟩
      · exact .inr ⟨t, pl, ha, by rw [h], fun hi => .definition hd hr (hk hi)⟩
    · exact .inl ⟨x, by rw [next_error (x := x) (by rw [hl]), hl], hx⟩

/-! ## The theorems about one run -/

/-- A run that succeeds has put the text that was asked for at the place that was asked for, and has changed nothing else. -/
theorem C99_delivers_partial (E : AppEnv) (o : AppOpts) (w : Disk) (hp : o.inputType ≠ .python) (hi : InstallsScripts o)
    (hok : (generate E o w).result = .ok ()) : ∃ t pl, Wish E o w t pl ∧ Delivered w (w.after E (generate E o w).acts) t pl := by
  rcases run_shape E o w hp with ⟨x, h, -⟩ | ⟨t, pl, ha, h, hw⟩
  · rw [h] at hok; cases hok
  · refine ⟨t, pl, hw hi, ?_⟩
    rw [h]
    exact placing_delivers E w t pl ha

/-- A run that fails has changed nothing: the text is made before the file is opened. -/
theorem C99_nothing (E : AppEnv) (o : AppOpts) (w : Disk) (hp : o.inputType ≠ .python) {x : AppErr} (hx : (generate E o w).result = .error x) :
    (generate E o w).acts = [] ∧ w.after E (generate E o w).acts = w := by
  rcases run_shape E o w hp with ⟨y, h, -⟩ | ⟨t, pl, ha, h, hw⟩
  · rw [h]; exact ⟨rfl, rfl⟩
  · rw [h] at hx; cases hx

/-- A run succeeds if what is asked for can be made and the system lets the program put it there. -/
theorem C99_succeeds (E : AppEnv) (o : AppOpts) (w : Disk) {t : Str} {pl : Place} (h : Wish E o w t pl) (ha : Allowed E w pl) :
    (generate E o w).result = .ok () ∧ Delivered w (w.after E (generate E o w).acts) t pl := by
  have key : generate E o w = ⟨placing t pl, .ok ()⟩ := by
    cases h with
    | @help s _ _ hh hy hf ht hask =>
      unfold generate
      rw [if_pos hh, if_neg (by simp [hy]), read_next, hf]
      simp only
      rw [give_next, ht]
      simp only
      have hpl : pl = plainPlace o := by
        cases hask with
        | screen a b c => simp [plainPlace, c]
        | file a b c => simp [plainPlace, c]
        | install _ hat => rw [hy] at hat; cases hat
        | uninstall _ _ hat => rw [hy] at hat; cases hat
      subst hpl
      rcases write_shape E t o w with ⟨-, hw⟩ | ⟨hn, -⟩
      · exact hw
      · exact absurd ha hn
    | @definition c _ _ hd hr hask =>
      have hh : o.inputType ≠ .help := by
        intro e
        cases hd with
        | json hk _ _ => rw [e] at hk; rcases hk with hk | ⟨hk, -⟩ <;> cases hk
        | yaml hk _ _ => rw [e] at hk; rcases hk with hk | ⟨hk, -⟩ <;> cases hk
      rw [generate_deliver E hh, next_ok (a := c) (by rw [load_of_defined hd]), load_of_defined hd]
      simp only [List.nil_append, after_nil]
      have hplain : o.shell = .json ∨ o.shell = .yaml → pl = plainPlace o := by
        intro hs
        cases hask with
        | screen a b c => simp [plainPlace, c]
        | file a b c => simp [plainPlace, c]
        | install _ hat => rcases hs with hs | hs <;> (rw [hs] at hat; cases hat)
        | uninstall _ _ hat => rcases hs with hs | hs <;> (rw [hs] at hat; cases hat)
      have hscript : o.shell ≠ .json → o.shell ≠ .yaml → makeScript E o c w = ⟨[], .ok t⟩ → deliver E o c w = ⟨placing t pl, .ok ()⟩ := by
        intro hj hy hm
        unfold deliver
        rw [if_neg hj, if_neg hy, next_ok (a := t) (by rw [hm]), hm]
        simp only [List.nil_append, after_nil]
        cases hask with
        | screen a b d =>
          rw [a, b, d]; rfl
        | @file p a b d =>
          rw [a, b, d]
          have hw : E.writable p = true := ha
          simp only [Bool.or_false, Bool.false_eq_true, if_false, writeStringToFile, hw, if_true]
          rfl
        | @install p a hat =>
          rw [a]
          have hp := installed_unique (installed_at E c hj hy) hat
          have hw : E.writable p = true := ha
          simp only [Bool.true_or, if_true, writeStringToFile, hp, hw]
          rfl
        | @uninstall p a b hat =>
          rw [a, b]
          have hp := installed_unique (installed_at E c hj hy) hat
          have hw : w.files p ≠ none ∧ E.removable p = true := ha
          simp only [Bool.or_true, if_true, Bool.false_eq_true, if_false, removeFile, hp, hw.2]
          cases hf : w.files p with
          | none => exact absurd hf hw.1
          | some s => rfl
      have hd2 : deliver E o c w = ⟨placing t pl, .ok ()⟩ := by
        cases hr with
        | json hs ht =>
          unfold deliver
          rw [if_pos hs, give_next, ht]
          simp only
          rcases write_shape E t o w with ⟨-, hw⟩ | ⟨hn, -⟩
          · rw [hplain (.inl hs)]; exact hw
          · rw [hplain (.inl hs)] at ha; exact absurd ha hn
        | yaml hs ht =>
          unfold deliver
          rw [if_neg (by rw [hs]; decide), if_pos hs, give_next, ht]
          simp only
          rcases write_shape E t o w with ⟨-, hw⟩ | ⟨hn, -⟩
          · rw [hplain (.inr hs)]; exact hw
          · rw [hplain (.inr hs)] at ha; exact absurd ha hn
        | bash hs hwt ht =>
          refine hscript (by rw [hs]; decide) (by rw [hs]; decide) ?_
          unfold makeScript
          rw [config_iff.mpr hwt, hs]
          simp only
          rw [ht]
        | fish hs hwt ht =>
          refine hscript (by rw [hs]; decide) (by rw [hs]; decide) ?_
          unfold makeScript
          rw [config_iff.mpr hwt, hs]
          simp only
          rw [ht]
        | zsh hs hwt ht =>
          refine hscript (by rw [hs]; decide) (by rw [hs]; decide) ?_
          unfold makeScript
          rw [config_iff.mpr hwt, hs]
          simp only
          rw [ht]
      rw [hd2]
  rw [key]
  exact ⟨rfl, placing_delivers E w t pl ha⟩

/-- At every moment of a run only the file that was asked for is different; it is as it was, or holds a beginning of the text. -/
theorem C99_crash_partial (E : AppEnv) (o : AppOpts) (w : Disk) (hp : o.inputType ≠ .python) (hi : InstallsScripts o)
    {l : List Act} (hl : l <+: (generate E o w).acts) :
    w.after E l = w ∨ ∃ t pl, Wish E o w t pl ∧ match pl with
      | .screen => (w.after E l).files = w.files ∧ (w.after E l).out = w.out ++ t ++ ['\n']
      | .file p => (∀ q, q ≠ p → (w.after E l).files q = w.files q) ∧ (∃ s, s <+: t ∧ (w.after E l).files p = some s) ∧ (w.after E l).out = w.out
      | .gone p => (∀ q, q ≠ p → (w.after E l).files q = w.files q) ∧ (w.after E l).files p = none ∧ (w.after E l).out = w.out := by
  rcases run_shape E o w hp with ⟨y, h, -⟩ | ⟨t, pl, ha, h, hw⟩
  · rw [h] at hl
    left
    rw [List.prefix_nil.mp hl]
    rfl
  · rw [h] at hl
    cases l with
    | nil => exact .inl rfl
    | cons a l =>
      right
      refine ⟨t, pl, hw hi, ?_⟩
      cases pl with
      | screen =>
        simp only [placing] at hl
        obtain ⟨r, hr⟩ := hl
        simp only [List.cons_append, List.cons.injEq, List.append_eq_nil_iff] at hr
        obtain ⟨rfl, rfl, -⟩ := hr
        exact ⟨rfl, by show w.out ++ (t ++ ['\n']) = _; simp⟩
      | file p =>
        simp only [placing] at hl
        obtain ⟨r, hr⟩ := hl
        simp only [List.cons_append, List.cons.injEq] at hr
        obtain ⟨rfl, hr⟩ := hr
        obtain ⟨s, s', e, hs, -⟩ := List.append_eq_map_iff.mp hr
        rw [← hs, write_after]
        exact ⟨fun q hq => if_neg hq, ⟨s, ⟨s', e.symm⟩, if_pos rfl⟩, rfl⟩
      | gone p =>
        simp only [placing] at hl
        obtain ⟨r, hr⟩ := hl
        simp only [List.cons_append, List.cons.injEq, List.append_eq_nil_iff] at hr
        obtain ⟨rfl, rfl, -⟩ := hr
        exact ⟨fun q hq => if_neg hq, if_pos rfl, rfl⟩

/-- Code is executed only if a Python file was asked for. -/
theorem C99_executes (E : AppEnv) (o : AppOpts) (w : Disk) {p : Str} (h : .exec p ∈ (generate E o w).acts) : o.inputType = .python := by
  by_cases hp : o.inputType = .python
  · exact hp
  · exfalso
    rcases run_shape E o w hp with ⟨y, e, -⟩ | ⟨t, pl, ha, e, hw⟩
    · rw [e] at h; cases h
    · rw [e] at h
      cases pl <;> simp [placing] at h

end CC
