import Verif.Lemmas.ZshFileSpecs
/-!
# C93: the text of the Zsh functions runs and calls `_arguments` with what was computed

`Spec/ZshText.lean` says how Zsh reads a text of functions and what a call of a function does. Here the text of the
functions (`Model/ZshFile.lean`) is read and run. C70 to C72 say what the run of the functions means; the last theorem
puts both together.
-/

namespace CC
open ZshLex ZshText ZshArgs
open ShellGrammar (Denotes)

/-! ## Specification -/

/-- The texts of a command can be written down in Zsh, each on one line. -/
structure OneLine (isRegex : Str → Bool) (act : ZshActions) (x : Cmd) : Prop where
  /-- No option is captured. -/
  captures : ∀ o ∈ x.data.options, ∀ v, o.capture = some v → v = []
  /-- Zsh reads the texts of the options, and they are on one line. -/
  options : ∀ o ∈ x.data.options, ReadableOption act o ∧ LineOption act o
  positionals : ∀ p ∈ x.data.positionals, '\n' ∉ positionalMessage p ∧ LineAction (act.positional p)
  choices : x.sub.isSome = true → LineAction (act.choices (subNames x))
  /-- The words that stand for subcommands: on one line, not the word that ends a `case`, and without `=` in front. -/
  subcommands : ∀ d ∈ x.children, d.data.prog ≠ [] ∧ ∀ w, SelectsSub x d w → '\n' ∉ w ∧ w ≠ S "esac" ∧ noEquals w
  /-- The conditions: what is accepted is a list of commands (C07), and its words are on one line and without `=` in front. -/
  conditions : ∀ w, ((∃ o ∈ x.data.options, o.when_ = some w) ∨ ∃ p ∈ x.data.positionals, p.when_ = some w) → ∀ ts, parseWhen isRegex w = .ok ts →
    (∃ e, Denotes ts e) ∧ ∀ k, .cmd k ∈ ts → condClean k ∧ condWords k
  wraps : NoWraps x

/-- Words at whose end there is no line break, neither as typed nor without quotes. -/
def NoBreakAtEnd (q : Str → Str) (words : List Str) : Prop :=
  ∀ w ∈ words, w.getLast? ≠ some '\n' ∧ (q w).getLast? ≠ some '\n'

/-! ## Lemmas -/

namespace ZshLex

theorem cluster_positionals (a : ZshArrays) (next : Option Str) (s : Str) : (zshCluster a next s).positionals = [] := by
  induction s with
  | nil => rfl
  | cons c t ih =>
    rw [zshCluster]
    split
    · exact ih
    · split
      · split
        · rfl
        · cases next <;> rfl
      · split
        · rfl
        · exact ih

theorem zshWord_positionals (long short old : Bool) (a : ZshArrays) (arg : Str) (next : Option Str) :
    ∀ x ∈ (zshWord long short old a arg next).positionals, x = arg := by
  have hnext : ∀ o, (zshNext o next).positionals = [] := fun o => by cases next <;> rfl
  have hold : ∀ e, zshOld a next arg = some e → e.positionals = [] := by
    intro e h
    unfold zshOld at h
    split at h
    · split at h
      · cases h; rfl
      · cases h
    · split at h
      · cases h; exact hnext _
      · split at h
        · cases h; rfl
        · cases h
  intro x hx
  unfold zshWord at hx
  split at hx
  · split at hx
    · simp at hx
    · split at hx
      · split at hx
        · rw [hnext] at hx; simp at hx
        · simp at hx
      · simp at hx
  · split at hx
    · split at hx
      · rename_i e he
        cases old with
        | true => rw [hold e (by simpa using he)] at hx; simp at hx
        | false => simp at he
      · split at hx
        · rw [cluster_positionals] at hx; simp at hx
        · simp at hx
    · simpa using hx

theorem zshLoop_positionals (long short old : Bool) (a : ZshArrays) (q : Str → Str) : ∀ (ws : List Str) (p : Parsed) (skip : Bool),
    ∀ x ∈ (zshLoop long short old a q p skip ws).positionals, x ∈ p.positionals ∨ ∃ w ∈ ws, x = w ∨ x = q w := by
  intro ws
  induction ws with
  | nil => intro p skip x hx; exact Or.inl hx
  | cons w ws ih =>
    intro p skip x hx
    cases skip with
    | true =>
      rw [zshLoop] at hx
      rcases ih p false x hx with h | ⟨y, hy, h⟩
      · exact Or.inl h
      · exact Or.inr ⟨y, by simp [hy], h⟩
    | false =>
      rw [zshLoop] at hx
      split at hx
      · rcases List.mem_append.mp hx with h | h
        · exact Or.inl h
        · exact Or.inr ⟨x, by simp [h], Or.inl rfl⟩
      · rcases ih _ _ x hx with h | ⟨y, hy, h⟩
        · simp only [Parsed.apply] at h
          rcases List.mem_append.mp h with h | h
          · exact Or.inl h
          · exact Or.inr ⟨w, by simp, Or.inr (zshWord_positionals _ _ _ _ _ _ x h)⟩
        · exact Or.inr ⟨y, by simp [hy], h⟩

theorem query_breaks {root : Cmd} {q : Str → Str} {words : List Str} (h : NoBreakAtEnd q words) (t : Str) :
    ∀ w ∈ (zshQueryOf root t q words).positionals, w.getLast? ≠ some '\n' := by
  intro w hw
  unfold zshQueryOf zshQueryInit at hw
  rcases zshLoop_positionals _ _ _ _ _ _ _ _ w hw with h' | ⟨y, hy, rfl | rfl⟩
  · simp at h'
  · exact (h w hy).1
  · exact (h y hy).2

theorem makeIdentifier_id (s : Str) : ∀ c ∈ makeIdentifier s, idChar c = true := by
  rcases C04_make_identifier_valid s with h | ⟨c, cs, h, h1, h2⟩
  · rw [h]; simp
  · rw [h]
    intro d hd
    unfold idChar isAsciiAlnum
    rcases List.mem_cons.mp hd with rfl | hd
    · rcases h1 with h1 | rfl
      · simp [Char.isAlphanum, h1]
      · rfl
    · rcases h2 d hd with h | rfl
      · simp [h]
      · rfl

theorem name_id (pre : Str) (parents : List Cmd) (c : Cmd) : ∀ x ∈ zshName pre parents c, idChar x = true := by
  unfold zshName completionFuncname
  rw [List.append_nil]
  exact makeIdentifier_id _

theorem name_ne {pre : Str} (hne : pre ≠ []) (hp : ∀ c ∈ pre, idChar c = true) (parents : List Cmd) (c : Cmd) : zshName pre parents c ≠ [] := by
  unfold zshName completionFuncname
  rw [List.append_nil]
  intro h
  rw [C04_make_identifier_empty] at h
  obtain ⟨x, r, rfl⟩ := List.exists_cons_of_ne_nil hne
  have hx := hp x (by simp)
  have : x ∈ joinWith ['_'] ((x :: r) :: ((parents ++ [c]).map (·.data.prog)).tail) := by
    cases ((parents ++ [c]).map (·.data.prog)).tail <;> simp [joinWith]
  have h' := h x this
  unfold idChar isAsciiAlnum at hx
  simp [h'] at hx

theorem chain_at {root : Cmd} {qs : List Cmd} {c : Cmd} (h : At root qs c) : ∀ x ∈ qs ++ [c], ∃ rs, At root rs x := by
  induction h with
  | root => intro x hx; simp at hx; subst hx; exact ⟨[], .root⟩
  | @child qs c d h hd ih =>
    intro x hx
    rcases List.mem_append.mp hx with hx | hx
    · exact ih x hx
    · simp at hx; subst hx; exact ⟨_, .child h hd⟩

theorem table_line {root : Cmd} {parents : List Cmd} {c : Cmd} (hat : At root parents c)
    (h : ∀ rs x, At root rs x → ∀ o ∈ x.data.options, ∀ s ∈ o.strings, SimpleOption s) :
    '\n' ∉ queryOptionStrings (getOptions parents c true false) ∧ noEquals (queryOptionStrings (getOptions parents c true false)) := by
  have hf : ∀ e ∈ tableOf (getOptions parents c true false), '\n' ∉ queryField e.2 e.1 ∧ (queryField e.2 e.1).head? = some '-' := by
    intro e he
    obtain ⟨x, o, hn, hs, -⟩ := (mem_table hat e.1 e.2).mp he
    obtain ⟨hx, ho⟩ := nearest_mem hn
    obtain ⟨rs, hrs⟩ := chain_at hat x hx
    have hsim := h rs x hrs o ho e.1 hs
    have hb := simple_break hsim
    have hh : ∀ t : Str, (e.1 ++ t).head? = some '-' := fun t => by rw [List.head?_append, hsim.1]; rfl
    cases hk : e.2 with
    | required => exact ⟨by simpa [queryField] using hb, hh _⟩
    | optional => exact ⟨by simpa [queryField] using hb, hh _⟩
    | flag => exact ⟨hb, by simpa [queryField] using hh []⟩
  rw [queryOptionStrings_eq]
  generalize tableOf (getOptions parents c true false) = table at hf
  constructor
  · apply joinWith_break (by decide)
    intro x hx
    obtain ⟨e, he, rfl⟩ := List.mem_map.mp hx
    exact (hf e he).1
  · intro hh
    cases table with
    | nil => simp [joinWith] at hh
    | cons e r =>
      have h1 := (hf e (by simp)).2
      have : (joinWith [' '] ((e :: r).map (fun e => queryField e.2 e.1))).head? = some '-' := by
        cases r with
        | nil => simpa [joinWith] using h1
        | cons y ys =>
          rw [List.map_cons, List.map_cons, joinWith, List.append_assoc, List.head?_append, h1]; rfl
      rw [this] at hh
      cases hh

/-- The functions of a program whose texts can be written down. -/
theorem functions_ok {isRegex : Str → Bool} {act : ZshActions} {root : Cmd} (hl : ∀ rs x, At root rs x → OneLine isRegex act x)
    {pre : Str} (hne : pre ≠ []) (hp : ∀ c ∈ pre, idChar c = true) {parents : List Cmd} {c : Cmd} (hat : At root parents c)
    {f : ZshFunction} (hf : zshFunction isRegex act parents c = .ok f) : FunctionOk pre parents c f ∧ FunctionRuns parents c f := by
  obtain ⟨as, has, h1, -, hinit⟩ := zshFunction_ok hf
  obtain ⟨hfrom, -, -⟩ := mem_zshArgs hat (hl _ _ hat).wraps has
  have hc := hl _ _ hat
  have hname : ∀ qs d, IsWord (zshName pre qs d) ∧ '\n' ∉ zshName pre qs d := fun qs d =>
    ⟨isWord_id (name_ne hne hp qs d) (name_id pre qs d), id_break (name_id pre qs d)⟩
  have htab : ∀ t, f.init = some t → '\n' ∉ t ∧ noEquals t := by
    intro t ht
    rw [hinit] at ht
    split at ht
    · cases ht
      exact table_line hat (fun rs x hx o ho => ((hl rs x hx).options o ho).1.simple)
    · cases ht
  have hvar : ∀ d ∈ c.children, variations c d ≠ [] ∧ ∀ w ∈ variations c d, '\n' ∉ w ∧ w ≠ S "esac" ∧ noEquals w := by
    intro d hd
    obtain ⟨k1, k2⟩ := hc.subcommands d hd
    refine ⟨List.ne_nil_of_mem ((mem_variations c d k1 d.data.prog).mpr (Or.inl rfl)), fun w hw => k2 w ((mem_variations c d k1 w).mp hw)⟩
  have hspec : ∀ a ∈ f.args, IsWord a.1.spec ∧ '\n' ∉ a.1.spec := by
    intro a ha
    cases hfrom a.1 (h1 a ha).1 with
    | option x o _ hn h =>
      obtain ⟨hx, ho⟩ := nearest_mem hn
      obtain ⟨rs, hrs⟩ := chain_at hat x (scope_sub hx)
      exact optionArg_line ho (fun q hq => ((hl rs x hrs).options q hq).1) ((hl rs x hrs).options o ho).2 h
    | positional qs x rest p _ he hpm h =>
      obtain ⟨rs, hrs⟩ := chain_at hat x (by rw [he]; simp)
      exact positionalArg_line ((hl rs x hrs).positionals p hpm).1 ((hl rs x hrs).positionals p hpm).2 h
    | subcommands qs x rest n k _ he hs h =>
      obtain ⟨rs, hrs⟩ := chain_at hat x (by rw [he]; simp)
      exact subArg_line ((hl rs x hrs).choices (by rw [hs]; rfl)) h
  have hcond : ∀ a ∈ f.args, ∀ x, a.2 = some x → zshGenerate x.1 = .ok x.2 ∧ (∃ e, Denotes x.1 e) ∧ ∀ k, .cmd k ∈ x.1 → condClean k ∧ condWords k := by
    intro a ha x hx
    obtain ⟨hm, hcode⟩ := h1 a ha
    rw [hx] at hcode
    unfold zshCode at hcode
    cases hw : a.1.when_ with
    | none => rw [hw] at hcode; cases hcode
    | some w =>
      rw [hw] at hcode
      simp only at hcode
      obtain ⟨ts, hts, hcode⟩ := bind_ok hcode
      obtain ⟨code, hcd, hcode⟩ := bind_ok hcode
      cases hcode
      refine ⟨hcd, ?_⟩
      rcases from_when (hfrom a.1 hm) with e | ⟨w', e, hw'⟩
      · rw [e] at hw; cases hw
      · rw [e] at hw
        cases hw
        rcases hw' with ⟨x, o, hn, ho⟩ | ⟨x, hx, p, hp, hpw⟩
        · obtain ⟨hx, hox⟩ := nearest_mem hn
          obtain ⟨rs, hrs⟩ := chain_at hat x (scope_sub hx)
          exact (hl rs x hrs).conditions w (Or.inl ⟨o, hox, ho⟩) ts hts
        · obtain ⟨rs, hrs⟩ := chain_at hat x hx
          exact (hl rs x hrs).conditions w (Or.inr ⟨p, hp, hpw⟩) ts hts
  constructor
  · refine ⟨?_, (hname _ _).1, fun d _ => hname _ d, fun t ht => (htab t ht).1, fun d hd => ⟨(hvar d hd).1, fun h => ((hvar d hd).2 _ h).2.1 rfl, fun w hw => ((hvar d hd).2 w hw).1⟩,
      fun a ha => ⟨(hspec a ha).1, fun x hx => ⟨(hcond a ha x hx).2.1, fun k hk => ((hcond a ha x hx).2.2 k hk).1⟩⟩, fun a ha => (hspec a ha).2⟩
    unfold zshCaptures
    rw [List.filterMap_eq_nil_iff]
    intro o ho
    cases hcap : o.capture with
    | none => rfl
    | some v => rw [hc.captures o ho v hcap]
  · exact ⟨fun t ht => (htab t ht).2, fun d hd w hw => ((hvar d hd).2 w hw).2.2,
      fun a ha => ⟨fun x hx => (hcond a ha x hx).1, fun x hx => ⟨(hcond a ha x hx).2.1, fun k hk => ((hcond a ha x hx).2.2 k hk).2⟩⟩⟩

theorem mapE_fst {α β : Type} {g : α → Except Err β} : ∀ {l : List α} {ys : List (α × β)},
    mapE (fun e => do let f ← g e; .ok (e, f)) l = .ok ys → ys.map (·.1) = l
  | [], ys, h => by simp [mapE] at h; subst h; rfl
  | x :: xs, ys, h => by
    simp only [mapE] at h
    obtain ⟨y, hy, h⟩ := bind_ok h
    obtain ⟨r, hr, h⟩ := bind_ok h
    cases h
    obtain ⟨f, -, hy⟩ := bind_ok hy
    cases hy
    rw [List.map_cons, mapE_fst hr]

end ZshLex

/-! ## Theorems -/

/-- **C93 (partial)** Zsh reads the text of the functions as functions with different names, and a call of the function of
the program ends in the function of the command that the model finds (C70), after one call of `_arguments` with the words
that the model computes (C71, C72); if the command has no options, arguments or subcommands, without such a call.
Missing: captured options (C92), wrapped commands (C88), texts with line breaks, words with `=` in front, a subcommand
`esac`, and functions with equal names (C42). For the latter see the witnesses below. -/
theorem C93_runs_partial (isRegex : Str → Bool) (act : ZshActions) (rx : Bool → Str → Str → Bool) (pre : Str) (stacking : Bool) (root : Cmd)
    (q : Str → Str) (prog : Str) (words : List Str) (hne : pre ≠ []) (hp : ∀ c ∈ pre, c.isAlphanum = true ∨ c = '_')
    (hnames : ((root.walk []).map (fun e => zshName pre e.1 e.2)).Nodup)
    (hl : ∀ parents c, At root parents c → OneLine isRegex act c) (hb : NoBreakAtEnd q words)
    (text : Str) (ht : zshFileText isRegex act pre stacking root = .ok text)
    (r : ZshEnd) (hr : zshComplete isRegex act rx root q words = .ok r) :
    ∃ table v, ZshText.read text = some table ∧ (table.map (·.1)).Nodup ∧
      Runs (zshHelperEnv pre rx root q (prog :: words)) table (zshName pre [] root) { known := {} } (zshName pre r.parents r.cmd) v ∧
      v.known = r.parsed ∧
      (v.calls = [(if stacking then [S "-S", S "-s", S "-w"] else [S "-S"], r.elements)] ∨ (v.calls = [] ∧ r.elements = [])) := by
  have hid : ∀ c ∈ pre, idChar c = true := by
    intro c hc
    unfold idChar isAsciiAlnum
    rcases hp c hc with h | rfl
    · simp [h]
    · rfl
  unfold zshFileText at ht
  obtain ⟨fs, hfs, ht⟩ := bind_ok ht
  cases ht
  unfold zshScript at hfs
  obtain ⟨a1, a2, -⟩ := mapE_mem hfs
  have hfst := mapE_fst hfs
  have hmem : ∀ e ∈ fs, At root e.1.1 e.1.2 ∧ zshFunction isRegex act e.1.1 e.1.2 = .ok e.2 := by
    intro e he
    obtain ⟨y, hy, hfy⟩ := a2 e he
    obtain ⟨f, hf, hfy⟩ := bind_ok hfy
    cases hfy
    exact ⟨(mem_walk_iff root y.1 y.2).mp hy, hf⟩
  have hok : ∀ e ∈ fs, FunctionOk pre e.1.1 e.1.2 e.2 := fun e he => (functions_ok hl hne hid (hmem e he).1 (hmem e he).2).1
  have hfne : fs ≠ [] := by
    rintro rfl
    have h1 := (mem_walk_iff root [] root).mpr .root
    rw [← hfst] at h1
    simp at h1
  have hread := read_file hid stacking fs hfne hok
  have hnd : ((fs.map (funEntry pre stacking)).map (·.1)).Nodup := by
    have : (fs.map (funEntry pre stacking)).map (·.1) = (root.walk []).map (fun e => zshName pre e.1 e.2) := by
      rw [← hfst, List.map_map, List.map_map]
      rfl
    rw [this]; exact hnames
  have hall : ∀ parents c, At root parents c → ∀ f, zshFunction isRegex act parents c = .ok f → FunctionRuns parents c f ∧
      lookup (fs.map (funEntry pre stacking)) (zshName pre parents c) = some (bodyStmts pre stacking parents c f) := by
    intro parents c hat f hf
    refine ⟨(functions_ok hl hne hid hat hf).2, ?_⟩
    obtain ⟨y, hy, hfy⟩ := a1 (parents, c) ((mem_walk_iff root parents c).mpr hat)
    obtain ⟨f', hf', hfy⟩ := bind_ok hfy
    cases hfy
    simp only at hf'
    rw [hf] at hf'
    cases hf'
    exact lookup_nodup hnd (e := funEntry pre stacking ((parents, c), f)) (List.mem_map.mpr ⟨_, hy, rfl⟩)
  have hq := query_breaks (root := root) hb
  obtain ⟨f, v, -, -, h3, h4, h5, h6⟩ := simulates hid rx root q (prog :: words) stacking (zshFunction isRegex act) _ hall hq root [] .root
    { known := {} } (by simp) r hr
  refine ⟨_, v, hread, hnd, h3, h4, ?_⟩
  rw [h6]
  by_cases ha : f.args = []
  · right
    rw [if_pos ha]
    refine ⟨rfl, ?_⟩
    rw [h5]
    unfold ZshFunction.elements
    rw [ha]; rfl
  · left
    rw [if_neg ha]
    rfl

/-- **C93 (partial)** What was typed decides which options are offered, now for the text of the functions: for a command
line that leads to a command, the call of the program's function ends with one call of `_arguments`, whose words are
read as elements that offer the options of the command and of its parents as C71 says. Missing: as above, and see C71. -/
theorem C93_offers_partial (isRegex : Str → Bool) (act : ZshActions) (rx : Bool → Str → Str → Bool) (pre : Str) (stacking : Bool) (root : Cmd)
    (hne : pre ≠ []) (hp : ∀ c ∈ pre, c.isAlphanum = true ∨ c = '_')
    (hnames : ((root.walk []).map (fun e => zshName pre e.1 e.2)).Nodup)
    (hl : ∀ parents c, At root parents c → OneLine isRegex act c)
    (text : Str) (ht : zshFileText isRegex act pre stacking root = .ok text)
    (hc : CleanTree root) (hpl : PlainTree root) (kind : List Cmd → Cmd → Str → Option ArgKind) (hk : TellsKinds root kind)
    (its : List Item) (e : Ending) (parents : List Cmd) (c : Cmd) (hty : TypedFor root kind its e parents c)
    (q : Str → Str) (prog : Str) (raws : List Str) (hraw : raws.map q = its.flatMap Item.words ++ e.words)
    (hq : ∀ pre w post, raws = pre ++ w :: post → q w = ['-', '-'] → post.map q = post) (hb : NoBreakAtEnd q raws)
    (hr : ReadableZsh act parents c) (hw : WhensSafe isRegex parents c)
    (hline : ParsesLine isRegex parents c ∨ ∀ w, ¬ ConditionHere parents c w) :
    ∃ table v elements els, ZshText.read text = some table ∧
      Runs (zshHelperEnv pre rx root q (prog :: raws)) table (zshName pre [] root) { known := {} } (zshName pre parents c) v ∧
      (v.calls = [(if stacking then [S "-S", S "-s", S "-w"] else [S "-S"], elements)] ∨ (v.calls = [] ∧ elements = [])) ∧
      ZshArgs.ReadsAs elements els ∧ ∀ given s,
        Offers els given s ↔
          (∃ x o, Nearest (zshScope parents c) x o ∧ s ∈ o.strings ∧ o.hidden = false ∧ WhenTrueOf isRegex rx (lineOf its e) o.when_) ∧
          ∀ y p, Nearest (zshScope parents c) y p → WhenTrueOf isRegex rx (lineOf its e) p.when_ → (∃ g ∈ p.strings, g ∈ given) →
            ¬ RulesOutString y p s := by
  obtain ⟨fs, hfs⟩ : ∃ fs, zshScript isRegex act root = .ok fs := by
    unfold zshFileText at ht
    obtain ⟨fs, hfs, -⟩ := bind_ok ht
    exact ⟨fs, hfs⟩
  obtain ⟨hat, f, p, hf, hrun, -⟩ := zsh_run rx hc hpl hk hfs hty hraw hq
  obtain ⟨r, els, h1, h2, h3⟩ := C71_offers_partial isRegex act rx root hc hpl kind hk fs hfs its e parents c hty q raws hraw hq hr hw hline
  obtain ⟨table, v, k1, -, k3, -, k5⟩ := C93_runs_partial isRegex act rx pre stacking root q prog raws hne hp hnames hl hb text ht r h1
  rw [hrun] at h1
  cases h1
  exact ⟨table, v, _, els, k1, k3, k5, h2, h3⟩

/-! ## An example -/

/-- A subcommand with a condition and a help text that must be quoted. -/
def zshFileRun : Cmd := .node { prog := S "run", aliases := [S "r"], inheritOptions := .val true, positionals := [{ number := 1, metavar := some (S "FILE") }], options := [{ strings := [S "--out"], help := some (S "don't: [x]"), complete := some [.str (S "file")], repeatable := .val false, longSep := .both }, { strings := [S "--force"], when_ := some (S "has_option --out"), repeatable := .val false, longSep := .both }] } none []

/-- A program with this subcommand. -/
def zshFileRoot : Cmd := .node { prog := S "prog", inheritOptions := .val true, options := [{ strings := [S "-v", S "--verbose"], repeatable := .val true, longSep := .both }, { strings := [S "--quiet"], groups := some [S "g"], repeatable := .val false, longSep := .both }, { strings := [S "--loud"], groups := some [S "g"], repeatable := .val false, longSep := .both }] } (some 1) [zshFileRun]

theorem zshFile_all : ∀ parents c, At zshFileRoot parents c → (parents = [] ∧ c = zshFileRoot) ∨ (parents = [zshFileRoot] ∧ c = zshFileRun) := by
  intro parents c h
  induction h with
  | root => exact Or.inl ⟨rfl, rfl⟩
  | @child parents c d _ hd ih =>
    rcases ih with ⟨rfl, rfl⟩ | ⟨rfl, rfl⟩
    · right; exact ⟨rfl, by simpa [zshFileRoot, Cmd.children] using hd⟩
    · simp [zshFileRun, Cmd.children] at hd

theorem zshFile_when : parseWhen (fun _ => true) (S "has_option --out") = .ok [.cmd (.hasOption [S "--out"])] := by
  have h : (parseWhen (fun _ => true) (S "has_option --out")).toOption = some [.cmd (.hasOption [S "--out"])] := by decide +kernel
  cases e : parseWhen (fun _ => true) (S "has_option --out") with
  | error e' => rw [e] at h; simp [Except.toOption] at h
  | ok ts => rw [e] at h; simp only [Except.toOption, Option.some.injEq] at h; rw [h]

theorem zshFile_oneLine : ∀ parents c, At zshFileRoot parents c → OneLine (fun _ => true) exampleActions c := by
  intro parents c h
  have hc : c = zshFileRoot ∨ c = zshFileRun := by rcases zshFile_all _ _ h with ⟨-, rfl⟩ | ⟨-, rfl⟩ <;> simp
  have hfiles : LineAction (S "_files") :=
    ⟨⟨S "_files", by decide, by decide, by intro c h; simp [S] at h; subst h; decide, by simp [S, BackslashPaired]⟩, by decide,
      by intro c h; simp [S] at h; subst h; decide⟩
  have hsubs : LineAction (S "_subcommands") :=
    ⟨⟨S "_subcommands", by decide, by decide, by intro c h; simp [S] at h; subst h; decide, by simp [S, BackslashPaired]⟩, by decide,
      by intro c h; simp [S] at h; subst h; decide⟩
  have hoo : ∀ o ∈ c.data.options, o.strings ≠ [] ∧ o.longSep = .both ∧ (o.help = none ∨ o.help = some (S "don't: [x]")) ∧ o.metavar = none ∧ o.capture = none ∧
      ∀ s ∈ o.strings, s.head? = some '-' ∧ 2 ≤ s.length ∧ s.getLast? ≠ some '-' ∧ ∀ c ∈ s, c.isAlphanum = true ∨ c = '-' ∨ c = '_' ∨ c = '.' := by
    rcases hc with rfl | rfl <;> decide +kernel
  have hhelp : ∀ o : Opt, (o.help = none ∨ o.help = some (S "don't: [x]")) → ∀ d, o.help = some d → BackslashBefore d ∧ '\n' ∉ d := by
    intro o ho d hd
    rcases ho with e | e <;> rw [e] at hd
    · cases hd
    · cases hd; exact ⟨by simp [S, BackslashBefore], by decide⟩
  have hpos : ∀ p ∈ c.data.positionals, p.when_ = none ∧ positionalMessage p = S "FILE" := by
    rcases hc with rfl | rfl <;> decide +kernel
  have hwhen : ∀ o ∈ c.data.options, o.when_ = none ∨ o.when_ = some (S "has_option --out") := by
    rcases hc with rfl | rfl <;> decide +kernel
  refine ⟨?_, ?_, ?_, ?_, ?_, ?_, ?_⟩
  · intro o ho v hv
    rw [(hoo o ho).2.2.2.2.1] at hv; cases hv
  · intro o ho
    obtain ⟨h1, h2, h3, h4, -, h6⟩ := hoo o ho
    refine ⟨⟨h1, h6, by rw [h2]; decide, fun d hd => (hhelp o h3 d hd).1, fun _ m hm => (by rw [h4] at hm; cases hm), fun _ => hfiles.word⟩,
      ⟨fun d hd => (hhelp o h3 d hd).2, fun m hm => (by rw [h4] at hm; cases hm), fun _ => hfiles⟩⟩
  · intro p hp
    rw [(hpos p hp).2]
    exact ⟨by decide, hfiles⟩
  · intro _; exact hsubs
  · intro d hd
    rcases hc with rfl | rfl
    · simp [zshFileRoot, Cmd.children] at hd
      subst hd
      refine ⟨by decide, ?_⟩
      have key : ∀ w : Str, w = S "run" ∨ w = S "r" → '\n' ∉ w ∧ w ≠ S "esac" ∧ noEquals w := by
        rintro w (rfl | rfl) <;> exact ⟨by decide, by decide, by intro h; simp [S] at h⟩
      rintro w (h | h | ⟨h, -⟩)
      · exact key w (Or.inl h)
      · exact key w (Or.inr (by simpa [zshFileRun, Cmd.data] using h))
      · simp [zshFileRun, Cmd.data] at h
    · simp [zshFileRun, Cmd.children] at hd
  · intro w hw ts hts
    have e : w = S "has_option --out" := by
      rcases hw with ⟨o, ho, hw⟩ | ⟨p, hp, hw⟩
      · rcases hwhen o ho with e | e <;> rw [e] at hw
        · cases hw
        · cases hw; rfl
      · rw [(hpos p hp).1] at hw; cases hw
    subst e
    rw [zshFile_when] at hts
    cases hts
    refine ⟨⟨_, .pipe (.cmd _)⟩, ?_⟩
    intro k hk
    simp at hk
    subst hk
    exact ⟨by intro s hs; simp at hs; subst hs; decide, by intro s hs; simp at hs; subst hs; intro h; simp [S] at h⟩
  · intro w hw
    rcases hc with rfl | rfl <;> simp [zshFileRoot, zshFileRun, Cmd.data] at hw

/-- The hypotheses of `C93_runs_partial` hold of a program with a subcommand, a group, a condition and a quoted help
text, and the run calls `_arguments` with the elements of the subcommand. -/
theorem C93_example :
    let words := [S "--quiet", S "r", S "--out", S "x", []]
    let rx := fun (_ : Bool) (_ _ : Str) => false
    ((zshFileRoot.walk []).map (fun e => zshName (S "_prog") e.1 e.2)).Nodup ∧
    (∀ parents c, At zshFileRoot parents c → OneLine (fun _ => true) exampleActions c) ∧ NoBreakAtEnd id words ∧
    ∃ text table v, zshFileText (fun _ => true) exampleActions (S "_prog") true zshFileRoot = .ok text ∧ ZshText.read text = some table ∧
      table.map (·.1) = [S "_prog", S "_prog_run"] ∧
      Runs (zshHelperEnv (S "_prog") rx zshFileRoot id (S "prog" :: words)) table (S "_prog") { known := {} } (S "_prog_run") v ∧
      v.calls = [([S "-S", S "-s", S "-w"],
        [S "'(--out)'--out=\"[don't\\\\: \\\\[x\\\\]]\":' ':_files", S "'*'{-v,--verbose}", S "'(--loud --quiet)'--quiet", S "'(--quiet --loud)'--loud",
         S "1:command1:_subcommands", S "2:FILE:_files", S "'(--force)'--force"])] := by
  intro words rx
  have hnames : ((zshFileRoot.walk []).map (fun e => zshName (S "_prog") e.1 e.2)) = [S "_prog", S "_prog_run"] := by decide +kernel
  have hb : NoBreakAtEnd id words := by
    have : ∀ w ∈ words, w.getLast? ≠ some '\n' := by decide
    exact fun w hw => ⟨this w hw, this w hw⟩
  refine ⟨by rw [hnames]; decide, zshFile_oneLine, hb, ?_⟩
  have ht : (zshFileText (fun _ => true) exampleActions (S "_prog") true zshFileRoot).toOption.isSome = true := by decide +kernel
  cases htext : zshFileText (fun _ => true) exampleActions (S "_prog") true zshFileRoot with
  | error e => rw [htext] at ht; simp [Except.toOption] at ht
  | ok text =>
  have hr : (zshComplete (fun _ => true) exampleActions rx zshFileRoot id words).toOption.map
        (fun r => (zshName (S "_prog") r.parents r.cmd, r.elements)) = some (S "_prog_run",
      [S "'(--out)'--out=\"[don't\\\\: \\\\[x\\\\]]\":' ':_files", S "'*'{-v,--verbose}", S "'(--loud --quiet)'--quiet", S "'(--quiet --loud)'--loud",
         S "1:command1:_subcommands", S "2:FILE:_files", S "'(--force)'--force"]) := by decide +kernel
  cases hrr : zshComplete (fun _ => true) exampleActions rx zshFileRoot id words with
  | error e => rw [hrr] at hr; simp [Except.toOption] at hr
  | ok r =>
  rw [hrr] at hr
  simp only [Except.toOption, Option.map_some, Option.some.injEq, Prod.mk.injEq] at hr
  obtain ⟨table, v, k1, -, k3, -, k5⟩ := C93_runs_partial (fun _ => true) exampleActions rx (S "_prog") true zshFileRoot id (S "prog") words
    (by decide) (by decide) (by rw [hnames]; decide) zshFile_oneLine hb text htext r hrr
  have htab : (zshFileText (fun _ => true) exampleActions (S "_prog") true zshFileRoot).toOption.map
      (fun t => (ZshText.read t).map (fun b => b.map (·.1))) = some (some [S "_prog", S "_prog_run"]) := by decide +kernel
  rw [htext] at htab
  simp only [Except.toOption, Option.map_some, Option.some.injEq] at htab
  rw [k1] at htab
  simp only [Option.map_some, Option.some.injEq] at htab
  refine ⟨text, table, v, rfl, k1, htab, ?_, ?_⟩
  · rw [hr.1] at k3
    have : zshName (S "_prog") [] zshFileRoot = S "_prog" := by decide +kernel
    rw [this] at k3
    exact k3
  · rw [hr.2] at k5
    rcases k5 with k5 | ⟨-, k5⟩
    · simpa using k5
    · cases k5

/-! ## Where the text is wrong -/

/-- The full claim, without the conditions on the texts: that the text is read at all and that `_arguments` gets what was computed. -/
def ZshTextRuns : Prop :=
  ∀ (root : Cmd) (words : List Str) (text : Str) (r : ZshEnd),
    (∀ parents c, At root parents c → NoWraps c ∧ ∀ o ∈ c.data.options, o.capture = none) →
    ((root.walk []).map (fun e => zshName (S "_prog") e.1 e.2)).Nodup →
    zshFileText (fun _ => true) exampleActions (S "_prog") false root = .ok text →
    zshComplete (fun _ => true) exampleActions (fun _ _ _ => false) root id words = .ok r →
    ∃ table v, ZshText.read text = some table ∧
      Runs (zshHelperEnv (S "_prog") (fun _ _ _ => false) root id (S "prog" :: words)) table (S "_prog") { known := {} } (zshName (S "_prog") r.parents r.cmd) v ∧
      (v.calls = [([S "-S"], r.elements)] ∨ (v.calls = [] ∧ r.elements = []))

/-- A program whose option has a help text on two lines. -/
def zshFileBreak : Cmd := .node { prog := S "prog", inheritOptions := .val false, options := [{ strings := [S "-v"], help := some (S "a\nb"), repeatable := .val true, longSep := .both }] } none []

/-- The code of a function is indented, also within quotes: a help text on two lines gets two blanks that nobody wrote. -/
theorem C93_line_break :
    ((zshFileText (fun _ => true) exampleActions (S "_prog") false zshFileBreak).toOption.bind ZshText.read =
      some [(S "_prog", [.locals [.array (S "args") [S "'*'-v'[a\n  b]'"]], .list [.cmd (.call [S "_arguments", S "-S", S "\"${args[@]}\""])]])]) ∧
    ((zshComplete (fun _ => true) exampleActions (fun _ _ _ => false) zshFileBreak id [[]]).toOption.map (·.elements) = some [S "'*'-v'[a\nb]'"]) := by
  decide +kernel

/-- A program with a subcommand. -/
def zshFileNamed (s : Str) : Cmd := .node { prog := S "prog", inheritOptions := .val false } (some 1) [.node { prog := s, inheritOptions := .val false } none []]

/-- A subcommand with the name `esac` ends the `case` before its time: Zsh does not read the text. -/
theorem C93_esac : (zshFileText (fun _ => true) exampleActions (S "_prog") false (zshFileNamed (S "esac"))).toOption.map ZshText.read = some none := by
  decide +kernel

/-- The name of a subcommand that begins with `=` is written without quotes (`=` is one of the characters that `shell.py`
38 does not quote): Zsh replaces it by the path of a command. -/
theorem C93_equals : (zshFileText (fun _ => true) exampleActions (S "_prog") false (zshFileNamed (S "=x"))).toOption.map
      (fun t => (ZshText.read t).map (fun b => b.flatMap (fun f => f.2.filterMap (fun s => match s with | .arm ps _ => some ps | _ => none)))) =
    some (some [[S "=x"]]) ∧ literal (S "=x") = none := by
  decide +kernel

theorem C93_not_always : ¬ ZshTextRuns := by
  intro h
  have hat : ∀ parents c, At (zshFileNamed (S "esac")) parents c → NoWraps c ∧ ∀ o ∈ c.data.options, o.capture = none := by
    intro parents c hc
    have : c.data.wraps = none ∧ c.data.options = [] ∧ (c.children = [] ∨ c = zshFileNamed (S "esac")) := by
      induction hc with
      | root => exact ⟨rfl, rfl, Or.inr rfl⟩
      | @child parents c d _ hd ih =>
        rcases ih.2.2 with e | e
        · rw [e] at hd; cases hd
        · subst e
          simp [zshFileNamed, Cmd.children] at hd
          subst hd
          exact ⟨rfl, rfl, Or.inl rfl⟩
    exact ⟨fun w hw => (by rw [this.1] at hw; cases hw), fun o ho => (by rw [this.2.1] at ho; cases ho)⟩
  have he := C93_esac
  cases ht : zshFileText (fun _ => true) exampleActions (S "_prog") false (zshFileNamed (S "esac")) with
  | error e => rw [ht] at he; simp [Except.toOption] at he
  | ok text =>
  rw [ht] at he
  simp only [Except.toOption, Option.map_some, Option.some.injEq] at he
  have hc : (zshComplete (fun _ => true) exampleActions (fun _ _ _ => false) (zshFileNamed (S "esac")) id [[]]).toOption.isSome = true := by decide +kernel
  cases hr : zshComplete (fun _ => true) exampleActions (fun _ _ _ => false) (zshFileNamed (S "esac")) id [[]] with
  | error e => rw [hr] at hc; simp [Except.toOption] at hc
  | ok r =>
  obtain ⟨table, v, k, -⟩ := h _ [[]] text r hat (by decide +kernel) ht hr
  rw [he] at k
  cases k

end CC
