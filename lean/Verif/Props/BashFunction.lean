import Verif.Lemmas.BashScript
/-!
# C66: the Bash script completes the argument of the option at the cursor; C67: and the right positional
-/

namespace CC

/-- The words typed before the cursor. -/
abbrev typedWords (its : List Item) (e : Ending) : List Str := its.flatMap Item.words ++ e.words

section
variable {root : Cmd} {parse : List Str → Str → List Str → BState} (hparse : IsParser root parse) (hc : CleanTree root) (hn : CleanNames root)
  (ho : CleanOptions root) {optAt : List Str → Str → Option Opt} (hopt : KnowsOptions root optAt)
  {its : List Item} {e : Ending} {parents : List Cmd} {c : Cmd} (ht : Typed root optAt its e parents c)

theorem known_own {n : Str} {o : Opt} (h : NamesOption parents c n o) : KnownOption parents c n o :=
  ⟨[], (parents, c), ((chainEntries [] parents).filter (fun e => decide (Inherits e.2))).reverse, rfl, h, by simp⟩

include hopt in
theorem optAt_own {ps : List Str} (hr : Reached root ps parents c) {n : Str} {o : Opt} (h : NamesOption parents c n o) :
    optAt ps n = some o := (hopt _ _ _ hr n o).mpr (known_own h)

include hc in
theorem no_sub_yet {ps : List Str} (hr : Reached root ps parents c) :
    ∀ n w, SubPlace parents c n → ps[n]? = some w → ∀ d ∈ c.children, ¬ SelectsSub c d w := by
  intro n w hs hp
  have hrM := (reached_iff hc _ _ _).mp hr
  have := (reached_slot hc.toM hrM).2 n ((subSlot_iff (hc.numbered _ _ (reached_at hrM)) n).mpr hs)
  rw [List.getElem?_eq_none this] at hp
  cases hp

theorem before_mono {n m : Nat} (h : BeforeCommandArg parents c n) (hm : m ≤ n) : BeforeCommandArg parents c m :=
  fun p hp hpc => Nat.le_trans hm (h p hp hpc)

theorem worth_option {o : Opt} (h : o ∈ c.data.options) (h1 : S "--help" ∉ o.strings) (h2 : S "--version" ∉ o.strings) :
    WorthCompleting c := Or.inr (Or.inr ⟨o, h, h1, h2⟩)

theorem tryAll_head {E : BEnv} {ln : BLine} {es : List BEvent} (h : runOwn E ln parents c = .ok (es, true)) (l : List (List Cmd × Cmd)) :
    tryAll E ln ((parents, c) :: l) = .ok (es, true) := by
  simp [tryAll, h, bind, Except.bind]

theorem tryAll_skip {E : BEnv} {ln : BLine} (l1 : List (List Cmd × Cmd)) (h : ∀ x ∈ l1, runOwn E ln x.1 x.2 = .ok ([], false))
    (l : List (List Cmd × Cmd)) : tryAll E ln (l1 ++ l) = tryAll E ln l := by
  induction l1 with
  | nil => rfl
  | cons x l1 ih =>
    rw [List.cons_append, tryAll, h x (List.mem_cons_self ..)]
    simp only [bind, Except.bind, Bool.false_eq_true, if_false]
    rw [ih (fun y hy => h y (List.mem_cons_of_mem _ hy))]
    cases tryAll E ln l <;> simp

/-- How a missing argument is announced by the last word. -/
theorem ending_asks {kind : Str → Option ArgKind} {n : Str} (he : e.Valid kind) (hn : e.incomplete = some n) :
    kind n = some .required ∧ ∃ prev, e.words = [prev] ∧ ((prev = n ∧ (IsLong n ∨ IsOld n)) ∨
      ∃ cs x, e = .cluster cs x ∧ n = ['-', x] ∧ prev = '-' :: (cs ++ [x]) ∧ (cs ++ [x]).head? ≠ some '-' ∧ ClusterOk kind prev) := by
  cases e with
  | done => simp [Ending.incomplete] at hn
  | dashes ws => simp [Ending.incomplete] at hn
  | word m =>
    simp only [Ending.incomplete, Option.some.injEq] at hn
    subst hn
    refine ⟨he.2, m, rfl, Or.inl ⟨rfl, ?_⟩⟩
    rcases he.1 with h | h
    · exact Or.inl h.1
    · exact Or.inr h.1
  | cluster cs x =>
    simp only [Ending.incomplete, Option.some.injEq] at hn
    subst hn
    exact ⟨he.2.2.1, _, rfl, Or.inr ⟨cs, x, rfl, rfl, rfl, he.1, he.2.2.2⟩⟩

theorem not_dash {cur : Str} (hcur : ∀ r, cur ≠ '-' :: r) : startsWith cur ['-'] = false := by
  cases hs : startsWith cur ['-'] with
  | false => rfl
  | true => obtain ⟨r, h⟩ := startsWith_dash hs; exact absurd h (hcur r)

theorem no_pos {root : Cmd} (h : (bashParts root).positionals = false) {parents : List Cmd} {c : Cmd} (hat : At root parents c) :
    c.data.positionals = [] := by
  have hm : c ∈ root.all := at_all hat
  simp only [bashParts, List.any_eq_false] at h
  have := h c hm
  simp only [Bool.or_eq_true, not_or, Bool.not_eq_true'] at this
  simpa using this.1

theorem no_children {root : Cmd} (hc : CleanTree root) (h : (bashParts root).positionals = false) {parents : List Cmd} {c : Cmd} (hat : At root parents c) :
    c.children = [] := by
  cases hch : c.children with
  | nil => rfl
  | cons d ds =>
    have := (no_positionals hc.toM h (At.child hat (by rw [hch]; exact List.mem_cons_self ..))).1
    simp at this

theorem ending_no_more {n : Str} (hn : e.incomplete = some n) (cur : Str) (post : List Str) : endingPositionals cur post e = [] := by
  cases e with
  | done => simp [Ending.incomplete] at hn
  | dashes ws => simp [Ending.incomplete] at hn
  | word m => rfl
  | cluster cs x => rfl

include hparse hc hn ho hopt ht

/-- The line when the word at the cursor does not begin with `-` and is not the argument of an option. -/
theorem script_word (hplain : e = .done ∨ ∃ ws, e = .dashes ws) (E : BEnv) (prog cur : Str) (post : List Str)
    (hpost : e = .done ∨ post = []) {parents' : List Cmd} {c' : Cmd} {ps : List Str} (hps : ps = its.flatMap Item.positionals ++ e.positionals)
    (hr : Reached root ps parents' c') (hw : WorthCompleting c') (hcur : ∀ r, cur ≠ '-' :: r)
    (hsub : SubPlace parents' c' ps.length → ∀ d ∈ c'.children, ¬ SelectsSub c' d cur) :
    ∃ ln : BLine, bashComplete E parse prog root (typedWords its e) cur post = some (tryAll E ln (inheritedFrom parents' c')) ∧
      ln.prev = ((typedWords its e).getLast?).getD prog ∧ ln.cur = cur ∧
      (ln.positionals = ps ++ [cur] ∨ ((bashParts root).positionals = false ∧ ln.positionals = [])) := by
  have hmore : its.flatMap Item.positionals ++ endingPositionals cur post e = ps ++ [cur] := by
    rw [hps]
    rcases hplain with rfl | ⟨ws, rfl⟩
    · have : endingPositionals cur post .done = [cur] := by
        match cur, hcur with
        | [], _ => rfl
        | [a], _ => simp [endingPositionals]
        | a :: b :: r, h =>
          have : a ≠ '-' := fun ha => h (b :: r) (by rw [ha])
          simp only [endingPositionals]
          split
          · rename_i heq; simp at heq; exact absurd heq.1 this
          · rfl
      rw [this]; simp [Ending.positionals]
    · rcases hpost with h | rfl
      · cases h
      · simp [endingPositionals, Ending.positionals]
  obtain ⟨ln, hrun, hprev, hlcur, -, hpos⟩ := script_line hparse hc hn ho hopt ht E prog cur post rfl
    (ps := ps) (by rw [hmore]; simp) hr hw (by
      intro n w hs hp d hd
      rw [hmore] at hp
      have hrM := (reached_iff hc _ _ _).mp hr
      have hle := (reached_slot hc.toM hrM).2 n ((subSlot_iff (hc.numbered _ _ (reached_at hrM)) n).mpr hs)
      rcases Nat.lt_or_ge ps.length n with h | h
      · rw [List.getElem?_eq_none (by simp; omega)] at hp; cases hp
      · have : n = ps.length := by omega
        subst this
        simp at hp
        subst hp
        exact hsub hs d hd)
  refine ⟨ln, hrun, hprev, hlcur, ?_⟩
  rw [← hmore]; exact hpos

/-- **C66 (partial)** If the words before the cursor end with an option that must have an argument (`--name`, `-old` or
`-xyo`), then the completer of that option runs, and nothing else, whatever the word at the cursor is. This is for an
option of the command itself, whose condition holds; the other letters in its word are flags that the command lists.
Missing: options of parents (see `C66_inherited_partial`); commands with a list of completers that is empty; the
arguments of commands that are positionals; `--help` and `--version`. -/
theorem C66_next_partial (E : BEnv) (prog cur : Str) (post : List Str) {n : Str} {o : Opt} (hinc : e.incomplete = some n)
    (hno : NamesOption parents c n o) (hw : WhenMet E c o) (hk : HasCompleters c) (hw1 : S "--help" ∉ o.strings) (hw2 : S "--version" ∉ o.strings)
    (hb : BeforeCommandArg parents c (its.flatMap Item.positionals).length)
    (hl : ∀ cs x, e = .cluster cs x → ListedFlags parents c cs) :
    bashComplete E parse prog root (typedWords its e) cur post = some (.ok ([.arg (E.optCode c o) cur []], true)) := by
  have hr := ht.reached
  have hat := reached_at ((reached_iff hc _ _ _).mp hr)
  obtain ⟨hreq, prev, hwords, hasks⟩ := ending_asks ht.ending hinc
  simp only [optAt_own hopt hr hno, Option.map_some, Option.some.injEq] at hreq
  obtain ⟨ln, hrun, hprev, hcur, -, hpos⟩ := script_line hparse hc hn ho hopt ht E prog cur post (ending_no_more hinc cur post)
    (ps := its.flatMap Item.positionals) (by simp) hr (worth_option hno.1 hw1 hw2) (by simpa using no_sub_yet hc hr)
  rw [hrun]
  congr 1
  refine tryAll_head ?_ _
  have hlen : ln.positionals.length ≤ (its.flatMap Item.positionals).length := by
    rcases hpos with h | h <;> simp [h]
  have hp : ln.prev = prev := by rw [hprev, hwords, List.getLast?_concat]; rfl
  refine runOwn_arg ho hat E ln (before_mono hb hlen) ⟨o, hno.1, (kind_args (hk o hno.1)).mp (by rw [hreq]; decide)⟩ ?_
  rw [hp, hcur]
  refine dispatch_next ho hat hk E cur hno hreq hw ?_
  rcases hasks with h | ⟨cs, x, rfl, h1, h2, h3, h4⟩
  · exact Or.inl h
  · refine Or.inr ⟨cs, x, h1, h2, h3, hl cs x rfl, ?_⟩
    intro hcs o' hname
    have hlen : prev.length ≠ 2 := by
      rw [h2]; simp [hcs]
    have := h4.2 (names_noEq ho hat hname) hlen
    simp only [optAt_own hopt hr hname, Option.map_some] at this
    cases this

/-- **C66 (partial)** If the word at the cursor is `--name=VALUE` or `-old=VALUE`, then the completer of that option
runs for VALUE, and nothing else. Missing: as above; the word before must not ask for an argument; and some option of
the command must have an argument that is not optional or a condition (see `C66_only_optional`). -/
theorem C66_equals_partial (hdone : e = .done) (E : BEnv) (prog : Str) (post : List Str) {n v : Str} {o : Opt}
    (hst : IsLong n ∨ IsOld n) (hno : NamesOption parents c n o) (hf : o.kind ≠ .flag)
    (hw : WhenMet E c o) (hk : HasCompleters c) (hna : NotAllOptional c) (hw1 : S "--help" ∉ o.strings) (hw2 : S "--version" ∉ o.strings)
    (hb : BeforeCommandArg parents c (its.flatMap Item.positionals).length)
    (hq : Quiet parents c (((typedWords its e).getLast?).getD prog)) :
    bashComplete E parse prog root (typedWords its e) (n ++ '=' :: v) post = some (.ok ([.arg (E.optCode c o) v []], true)) := by
  subst hdone
  have hr := ht.reached
  have hat := reached_at ((reached_iff hc _ _ _).mp hr)
  have hmore : endingPositionals (n ++ '=' :: v) post .done = [] := by
    rcases hst with ⟨a, r, rfl⟩ | ⟨a, b, r, rfl, -⟩ <;> rfl
  obtain ⟨ln, hrun, hprev, hcur, -, hpos⟩ := script_line hparse hc hn ho hopt ht E prog (n ++ '=' :: v) post hmore
    (ps := its.flatMap Item.positionals) (by simp) hr (worth_option hno.1 hw1 hw2) (by simpa using no_sub_yet hc hr)
  rw [hrun]
  congr 1
  refine tryAll_head ?_ _
  have hlen : ln.positionals.length ≤ (its.flatMap Item.positionals).length := by
    rcases hpos with h | h <;> simp [h]
  refine runOwn_arg ho hat E ln (before_mono hb hlen) ⟨o, hno.1, (kind_args (hk o hno.1)).mp hf⟩ ?_
  rw [hprev, hcur]
  exact dispatch_eq ho hat hk E v hq hna hno hf hw hst

/-- **C66 (partial)** If the word at the cursor is `-xyoVALUE`, where `x` and `y` are flags and `o` has an argument, then
the completer of `-o` runs for VALUE, and what it finds gets the prefix `-xyo`. Missing: as above; and the word must not
begin an old-style option of the command or be one with `=`. -/
theorem C66_attached_partial (hdone : e = .done) (E : BEnv) (prog : Str) (post : List Str) {cs v : Str} {x : Char} {o : Opt}
    (hno : NamesOption parents c ['-', x] o) (hf : o.kind ≠ .flag) (hd : (cs ++ [x]).head? ≠ some '-')
    (hl : ListedFlags parents c cs) (hcs : ∀ y ∈ cs, ∀ o', NamesOption parents c ['-', y] o' → o'.kind = .flag)
    (hold : ∀ o' ∈ getOptions parents c (decide (Inherits c)) false, ∀ s ∈ o'.strings, IsOld s → ¬ ('-' :: (cs ++ x :: v)) <+: s)
    (heq : ∀ s t, '-' :: (cs ++ x :: v) = s ++ '=' :: t → ∀ o', ¬ NamesOption parents c s o')
    (hw : WhenMet E c o) (hk : HasCompleters c) (hna : NotAllOptional c) (hw1 : S "--help" ∉ o.strings) (hw2 : S "--version" ∉ o.strings)
    (hb : BeforeCommandArg parents c (its.flatMap Item.positionals).length)
    (hq : Quiet parents c (((typedWords its e).getLast?).getD prog)) :
    bashComplete E parse prog root (typedWords its e) ('-' :: (cs ++ x :: v)) post =
      some (.ok ([.arg (E.optCode c o) v ('-' :: (cs ++ [x]))], true)) := by
  subst hdone
  have hr := ht.reached
  have hat := reached_at ((reached_iff hc _ _ _).mp hr)
  have hmore : endingPositionals ('-' :: (cs ++ x :: v)) post .done = [] := by
    cases cs <;> rfl
  obtain ⟨ln, hrun, hprev, hcur, -, hpos⟩ := script_line hparse hc hn ho hopt ht E prog ('-' :: (cs ++ x :: v)) post hmore
    (ps := its.flatMap Item.positionals) (by simp) hr (worth_option hno.1 hw1 hw2) (by simpa using no_sub_yet hc hr)
  rw [hrun]
  congr 1
  refine tryAll_head ?_ _
  have hlen : ln.positionals.length ≤ (its.flatMap Item.positionals).length := by
    rcases hpos with h | h <;> simp [h]
  refine runOwn_arg ho hat E ln (before_mono hb hlen) ⟨o, hno.1, (kind_args (hk o hno.1)).mp hf⟩ ?_
  rw [hprev, hcur]
  refine dispatch_attached ho hat hk E cs x v hq hna hno hf hw hd hl hcs hold ?_
  intro o'
  by_cases h : '=' ∈ cs ++ x :: v
  · left
    have h' : '=' ∈ '-' :: (cs ++ x :: v) := List.mem_cons_of_mem _ h
    have : ∃ s t, '-' :: (cs ++ x :: v) = s ++ '=' :: t ∧ '=' ∉ s := by
      generalize '-' :: (cs ++ x :: v) = l at h'
      induction l with
      | nil => cases h'
      | cons a l ih =>
        by_cases ha : a = '='
        · exact ⟨[], l, by rw [ha]; rfl, by simp⟩
        · obtain ⟨s, t, h1, h2⟩ := ih (by
            rcases List.mem_cons.mp h' with h | h
            · exact absurd h.symm ha
            · exact h)
          exact ⟨a :: s, t, by rw [h1]; rfl, by
            intro h
            rcases List.mem_cons.mp h with h | h
            · exact ha h.symm
            · exact h2 h⟩
    obtain ⟨s, t, h1, h2⟩ := this
    rw [h1, beforeEq_append h2]
    exact heq s t h1 o'
  · exact Or.inr h

/-- **C66 (partial)** An option of an ancestor that passes its options on: its completer runs if the word at the cursor does
not begin with `-` and for the nearer commands nothing is at the place of the last positional typed (see
`C66_inherited_lost`), and the word before does not ask for an argument of theirs. -/
theorem C66_inherited_partial (E : BEnv) (prog cur : Str) (post : List Str) {n : Str} {o : Opt} (hinc : e.incomplete = some n)
    {l1 l2 : List (List Cmd × Cmd)} {qs : List Cmd} {x : Cmd} (hsplit : inheritedFrom parents c = l1 ++ (qs, x) :: l2)
    (hno : NamesOption qs x n o) (hnear : ∀ e' ∈ l1, ∀ o', ¬ NamesOption e'.1 e'.2 n o') (hw : WhenMet E x o) (hk : HasCompleters x)
    (hworth : WorthCompleting c) (hcur : ∀ r, cur ≠ '-' :: r)
    (hb : BeforeCommandArg qs x (its.flatMap Item.positionals).length)
    (hl : ∀ cs x', e = .cluster cs x' → ListedFlags qs x cs ∧ ∀ o', ¬ (cs ≠ [] ∧ NamesOption qs x ('-' :: (cs ++ [x'])) o'))
    (hskip : ∀ e' ∈ l1, HasCompleters e'.2 ∧ Quiet e'.1 e'.2 ((e.words.getLast?).getD []) ∧
      BeforeCommandArg e'.1 e'.2 (its.flatMap Item.positionals).length ∧
      ∀ k, (its.flatMap Item.positionals).length = k + 1 → Elsewhere e'.1 e'.2 k) :
    bashComplete E parse prog root (typedWords its e) cur post = some (.ok ([.arg (E.optCode x o) cur []], true)) := by
  have hr := ht.reached
  have hat := reached_at ((reached_iff hc _ _ _).mp hr)
  obtain ⟨hreq, prev, hwords, hasks⟩ := ending_asks ht.ending hinc
  have hknown : optAt (its.flatMap Item.positionals) n = some o :=
    (hopt _ _ _ hr n o).mpr ⟨l1, (qs, x), l2, hsplit, hno, hnear⟩
  simp only [hknown, Option.map_some, Option.some.injEq] at hreq
  obtain ⟨ln, hrun, hprev, hlcur, -, hpos⟩ := script_line hparse hc hn ho hopt ht E prog cur post (ending_no_more hinc cur post)
    (ps := its.flatMap Item.positionals) (by simp) hr hworth (by simpa using no_sub_yet hc hr)
  rw [hrun, hsplit]
  have hlen : ln.positionals.length ≤ (its.flatMap Item.positionals).length := by
    rcases hpos with h | h <;> simp [h]
  have hp : ln.prev = prev := by rw [hprev, hwords, List.getLast?_concat]; rfl
  have hcur' : startsWith cur ['-'] = false := by
    cases hs : startsWith cur ['-'] with
    | false => rfl
    | true => obtain ⟨r, h⟩ := startsWith_dash hs; exact absurd h (hcur r)
  have hatall : ∀ e' ∈ inheritedFrom parents c, At root e'.1 e'.2 := fun e' he' => inheritedFrom_at hat e' he'
  congr 1
  rw [tryAll_skip]
  · refine tryAll_head ?_ _
    have hatx : At root qs x := hatall (qs, x) (by rw [hsplit]; simp)
    refine runOwn_arg ho hatx E ln (before_mono hb hlen) ⟨o, hno.1, (kind_args (hk o hno.1)).mp (by rw [hreq]; decide)⟩ ?_
    rw [hp, hlcur]
    refine dispatch_next ho hatx hk E cur hno hreq hw ?_
    rcases hasks with h | ⟨cs, x', rfl, h1, h2, h3, h4⟩
    · exact Or.inl h
    · refine Or.inr ⟨cs, x', h1, h2, h3, (hl cs x' rfl).1, ?_⟩
      intro hcs o' hname
      exact (hl cs x' rfl).2 o' ⟨hcs, by rw [← h2]; exact hname⟩
  · intro e' he'
    have hate : At root e'.1 e'.2 := hatall e' (by rw [hsplit]; exact List.mem_append_left _ he')
    obtain ⟨h1, h2, h3, h4⟩ := hskip e' he'
    rw [hwords] at h2
    rw [runOwn_word ho hate h1 E ln (before_mono h3 hlen) (by rw [hp]; exact h2) (by rw [hlcur]; exact hcur')]
    have hnone : runPositionals E ln e'.1 e'.2 = none := by
      rw [positionals_none]
      · cases hs : e'.2.sub with
        | none => rfl
        | some k =>
          simp only
          split
          · rename_i hk'
            exfalso
            rcases hpos with hpos | ⟨-, hpos⟩
            · rw [hpos, List.append_nil] at hk'
              refine (h4 (positionalIndex e'.1 k) hk').2 ?_
              refine (subSlot_iff (hc.numbered _ _ hate) _).mp ?_
              simp [subSlot, hs]
            · rw [hpos] at hk'; simp [positionalNum] at hk'
          · rfl
      · intro p hp' hh
        exfalso
        rcases hpos with hpos | ⟨-, hpos⟩
        · rw [List.append_nil] at hpos
          cases hz : (its.flatMap Item.positionals).length with
          | zero =>
            rw [List.length_eq_zero_iff.mp hz] at hpos
            rw [isHere_zero hpos] at hh; cases hh
          | succ k => exact (h4 k hz).1 p hp' ((isHere_iff (by rw [hpos, hz])).mp hh)
        · rw [isHere_zero hpos] at hh; cases hh
    rw [hnone]

/-- **C67 (partial)** If the word at the cursor does not begin with `-` and the word before does not ask for an argument,
the completer of the positional at that place runs, and nothing else: the place is counted from the positionals of the
line, after the words of the parents, and a repeatable positional has also the places after its own. This holds for the
command that the line leads to and for positionals whose condition holds. After `--` too. Missing: words at the cursor that
begin with `-`; lines where two positionals have the same place; arguments of commands that are positionals; words at the
cursor that already are the name of a subcommand (see `C67_name_complete`); words after the cursor if `--` is before it
(see `C67_words_after`). -/
theorem C67_positional_partial (hplain : e = .done ∨ ∃ ws, e = .dashes ws) (E : BEnv) (prog cur : Str) (post : List Str)
    (hpost : e = .done ∨ post = []) {parents' : List Cmd} {c' : Cmd} {ps : List Str} (hps : ps = its.flatMap Item.positionals ++ e.positionals)
    (hr : Reached root ps parents' c') {p : Pos} (hp : p ∈ c'.data.positionals) (hh : PosHere parents' p ps.length) (hm : PosMet E c' p)
    (hu : ∀ q ∈ c'.data.positionals, ¬ IsCommandArg q → PosHere parents' q ps.length → PosMet E c' q → q = p)
    (hnc : ¬ IsCommandArg p) (hb : BeforeCommandArg parents' c' (ps.length + 1)) (hfind : FindsSomething p)
    (hk : HasCompleters c') (hcur : ∀ r, cur ≠ '-' :: r)
    (hsub : SubPlace parents' c' ps.length → ∀ d ∈ c'.children, ¬ SelectsSub c' d cur)
    (hq : Quiet parents' c' (((typedWords its e).getLast?).getD prog)) :
    bashComplete E parse prog root (typedWords its e) cur post = some (.ok ([.pos (E.posCode c' p)], true)) := by
  have hat := reached_at ((reached_iff hc _ _ _).mp hr)
  obtain ⟨ln, hrun, hprev, hlcur, hpos⟩ := script_word hparse hc hn ho hopt ht hplain E prog cur post hpost hps hr
    (Or.inr (Or.inl ⟨p, hp, hfind⟩)) hcur hsub
  rw [hrun]
  congr 1
  refine tryAll_head ?_ _
  rcases hpos with hpos | ⟨hno, -⟩
  · have hlen : ln.positionals.length = ps.length + 1 := by rw [hpos]; simp
    rw [runOwn_word ho hat hk E ln (by rw [hlen]; exact hb) (by rw [hprev]; exact hq) (by rw [hlcur]; exact not_dash hcur),
      positionals_here hlen hp hnc hh hm hu]
  · exact absurd hp (by rw [no_pos hno hat]; simp)

/-- **C67 (partial)** At the place of the subcommands, if no positional has that place and the word at the cursor is not
already the name of a subcommand, exactly the names and aliases of the subcommands are offered. -/
theorem C67_subcommands_partial (hplain : e = .done ∨ ∃ ws, e = .dashes ws) (E : BEnv) (prog cur : Str) (post : List Str)
    (hpost : e = .done ∨ post = []) {parents' : List Cmd} {c' : Cmd} {ps : List Str} (hps : ps = its.flatMap Item.positionals ++ e.positionals)
    (hr : Reached root ps parents' c') (hplace : SubPlace parents' c' ps.length) (hch : c'.children ≠ [])
    (hnone : ∀ p ∈ c'.data.positionals, PosHere parents' p ps.length → ¬ PosMet E c' p)
    (hb : BeforeCommandArg parents' c' (ps.length + 1))
    (hk : HasCompleters c') (hcur : ∀ r, cur ≠ '-' :: r) (hsub : ∀ d ∈ c'.children, ¬ SelectsSub c' d cur)
    (hq : Quiet parents' c' (((typedWords its e).getLast?).getD prog)) :
    ∃ ns, bashComplete E parse prog root (typedWords its e) cur post = some (.ok ([.names ns], true)) ∧
      ∀ w, w ∈ ns ↔ ∃ d ∈ c'.children, w = d.data.prog ∨ w ∈ d.data.aliases := by
  have hat := reached_at ((reached_iff hc _ _ _).mp hr)
  obtain ⟨ln, hrun, hprev, hlcur, hpos⟩ := script_word hparse hc hn ho hopt ht hplain E prog cur post hpost hps hr
    (Or.inl hplace.1) hcur (fun _ => hsub)
  refine ⟨c'.children.flatMap (fun d => d.data.prog :: d.data.aliases), ?_, ?_⟩
  · rw [hrun]
    congr 1
    refine tryAll_head ?_ _
    rcases hpos with hpos | ⟨hno, -⟩
    · have hlen : ln.positionals.length = ps.length + 1 := by rw [hpos]; simp
      rw [runOwn_word ho hat hk E ln (by rw [hlen]; exact hb) (by rw [hprev]; exact hq) (by rw [hlcur]; exact not_dash hcur),
        positionals_none (fun p hp hh => Or.inl (hnone p hp ((isHere_iff hlen).mp hh)))]
      have hs := (subSlot_iff (hc.numbered _ _ hat) _).mpr hplace
      unfold subSlot at hs
      cases hsub' : c'.sub with
      | none => rw [hsub'] at hs; cases hs
      | some k =>
        rw [hsub'] at hs
        simp only [Option.map_some, Option.some.injEq] at hs
        simp only [hlen, positionalNum, hs, if_true]
    · exact absurd (no_children hc hno hat) hch
  · intro w
    simp only [List.mem_flatMap, List.mem_cons]

/-- **C67 (partial)** If neither the command nor an ancestor that passes its options on has anything at the place, nothing
is completed. -/
theorem C67_nothing_partial (hplain : e = .done ∨ ∃ ws, e = .dashes ws) (E : BEnv) (prog cur : Str) (post : List Str)
    (hpost : e = .done ∨ post = []) {parents' : List Cmd} {c' : Cmd} {ps : List Str} (hps : ps = its.flatMap Item.positionals ++ e.positionals)
    (hr : Reached root ps parents' c') (hworth : WorthCompleting c') (hcur : ∀ r, cur ≠ '-' :: r)
    (hall : ∀ x ∈ inheritedFrom parents' c', HasCompleters x.2 ∧ BeforeCommandArg x.1 x.2 (ps.length + 1) ∧
      Quiet x.1 x.2 (((typedWords its e).getLast?).getD prog) ∧ Elsewhere x.1 x.2 ps.length) :
    bashComplete E parse prog root (typedWords its e) cur post = some (.ok ([], false)) := by
  have hat := reached_at ((reached_iff hc _ _ _).mp hr)
  have hself : (parents', c') ∈ inheritedFrom parents' c' := List.mem_cons_self ..
  obtain ⟨ln, hrun, hprev, hlcur, hpos⟩ := script_word hparse hc hn ho hopt ht hplain E prog cur post hpost hps hr
    hworth hcur (fun h => absurd h (hall _ hself).2.2.2.2)
  rw [hrun]
  congr 1
  have := tryAll_skip (E := E) (ln := ln) (inheritedFrom parents' c') (by
    intro x hx
    have hatx := inheritedFrom_at hat x hx
    obtain ⟨h1, h2, h3, h4⟩ := hall x hx
    have hlen : ln.positionals.length ≤ ps.length + 1 := by rcases hpos with h | h <;> simp [h]
    rw [runOwn_word ho hatx h1 E ln (before_mono h2 hlen) (by rw [hprev]; exact h3) (by rw [hlcur]; exact not_dash hcur)]
    have hnone : runPositionals E ln x.1 x.2 = none := by
      rcases hpos with hpos | ⟨-, hpos⟩
      · have hlen : ln.positionals.length = ps.length + 1 := by rw [hpos]; simp
        rw [positionals_none (fun p hp hh => absurd ((isHere_iff hlen).mp hh) (h4.1 p hp))]
        cases hs : x.2.sub with
        | none => rfl
        | some k =>
          simp only
          split
          · rename_i hk'
            rw [hlen] at hk'
            exact absurd ((subSlot_iff (hc.numbered _ _ hatx) ps.length).mp (by simp [subSlot, hs]; simp [positionalNum] at hk'; omega)) h4.2
          · rfl
      · rw [positionals_none (fun p hp hh => by rw [isHere_zero hpos] at hh; cases hh)]
        cases hs : x.2.sub with
        | none => rfl
        | some k => simp [hpos, positionalNum]
    rw [hnone]) []
  rw [List.append_nil] at this
  rw [this]; rfl

end

/-! ## Lines where the word before the cursor asks for nothing -/

theorem quiet_other {root : Cmd} (ho : CleanOptions root) {parents : List Cmd} {c : Cmd} (hat : At root parents c) {w : Str}
    (h : ∀ a r, w ≠ '-' :: a :: r) : Quiet parents c w := by
  refine ⟨?_, ?_⟩
  · intro o hn
    obtain ⟨h1, -, h3⟩ := names_shape ho hat hn
    match w, h1, h3 with
    | a :: b :: r, _, h3 =>
      simp at h3
      exact absurd (by rw [h3]) (h b r)
  · rintro u x o rfl - - -
    exfalso
    cases u with
    | nil => exact h x [] rfl
    | cons a u => exact h a (u ++ [x]) rfl

/-- **C66, C67** The hypothesis about the word before the cursor holds after every item that uses options as they allow,
if its last word cannot be taken for an option that asks for an argument (`Item.Plain`). -/
theorem C66_quiet {root : Cmd} (hc : CleanTree root) (ho : CleanOptions root) {optAt : List Str → Str → Option Opt} (hopt : KnowsOptions root optAt)
    {ps : List Str} {parents : List Cmd} {c : Cmd} (hr : Reached root ps parents c) (it : Item)
    (hv : it.Valid (fun s => (optAt ps s).map Opt.kind)) (hpl : it.Plain parents c) :
    ∃ w, it.words.getLast? = some w ∧ Quiet parents c w := by
  have hat := reached_at ((reached_iff hc _ _ _).mp hr)
  have hkind : ∀ {n o}, NamesOption parents c n o → (optAt ps n).map Opt.kind = some o.kind := by
    intro n o h; rw [optAt_own hopt hr h]; rfl
  have hcl : ∀ {w o}, ClusterOk (fun s => (optAt ps s).map Opt.kind) w → NamesOption parents c w o → w.length = 2 := by
    intro w o h1 h2
    by_cases hl : w.length = 2
    · exact hl
    · have := h1.2 (names_noEq ho hat h2) hl
      simp only [hkind h2] at this; cases this
  have hval : ∀ {v : Str}, (∀ r, v ≠ '-' :: r) → Quiet parents c v := fun h => quiet_other ho hat (fun a r => h (a :: r))
  have hlong : ∀ {v : Str} {a r}, v = '-' :: '-' :: a :: r → (∀ o, NamesOption parents c v o → o.kind ≠ .required) → Quiet parents c v := by
    intro v a r hv' h
    refine ⟨h, ?_⟩
    intro u x o h1 h2
    rw [hv'] at h1
    simp only [List.cons.injEq, true_and] at h1
    rw [← h1] at h2
    simp at h2
  cases it with
  | word n =>
    refine ⟨n, rfl, ?_⟩
    obtain ⟨a, r, hn⟩ := hpl
    refine hlong hn ?_
    intro o h hreq
    have := hv.2
    simp only [hkind h, hreq] at this
    rcases this with h | h <;> cases h
  | eq n v =>
    refine ⟨n ++ '=' :: v, rfl, ?_⟩
    obtain ⟨a, r, hn⟩ := hpl
    refine hlong (a := a) (r := r ++ '=' :: v) (by rw [hn]; rfl) ?_
    intro o h
    exact absurd (by simp) (names_noEq ho hat h)
  | sep n v => exact ⟨v, rfl, hval hpl⟩
  | separate cs x v => exact ⟨v, rfl, hval hpl⟩
  | pos w => exact ⟨w, rfl, quiet_other ho hat hv⟩
  | flags cs =>
    refine ⟨'-' :: cs, rfl, ?_, ?_⟩
    · intro o h hreq
      have h2 := hcl hv.2.2.2 h
      obtain ⟨x, hx⟩ : ∃ x, cs = [x] := by
        match cs, h2 with
        | [x], _ => exact ⟨x, rfl⟩
      subst hx
      have := hv.2.2.1 x (List.mem_cons_self ..)
      simp only [hkind h, hreq] at this
      cases this
    · intro u x o h1 _ h3 hreq
      simp only [List.cons.injEq, true_and] at h1
      have := hv.2.2.1 x (by rw [h1]; simp)
      simp only [hkind h3, hreq] at this
      cases this
  | attached cs x v =>
    refine ⟨'-' :: (cs ++ x :: v), rfl, ?_, ?_⟩
    · intro o h
      have h2 := hcl hv.2.2.2.2 h
      have : v = [] := by
        simp at h2
        exact List.eq_nil_of_length_eq_zero (by omega)
      exact absurd this hv.2.2.1
    · intro u y o h1 _ _ _
      refine ⟨hpl.2, fun hl => hpl.1 ?_⟩
      simp only [List.cons.injEq, true_and] at h1
      have hxu : x ∈ u := by
        rcases List.eq_nil_or_concat v with h | ⟨v', z, h⟩
        · exact absurd h hv.2.2.1
        · rw [h, List.concat_eq_append] at h1
          have : cs ++ x :: (v' ++ [z]) = (cs ++ x :: v') ++ [z] := by simp
          rw [this] at h1
          rw [← (List.append_inj' h1 rfl).1]; simp
      intro z hz
      rw [List.mem_singleton.mp hz]
      exact hl x hxu
  | bare cs x =>
    refine ⟨'-' :: (cs ++ [x]), rfl, ?_, ?_⟩
    · intro o h hreq
      have h2 := hcl hv.2.2.2 h
      have : cs = [] := by
        simp at h2
        exact h2
      subst this
      have := hv.2.2.1
      simp only [hkind (n := ['-', x]) h, hreq] at this
      cases this
    · intro u y o h1 _ h3 hreq
      simp only [List.cons.injEq, true_and] at h1
      have h4 := (List.append_inj' h1 rfl).2
      simp at h4
      subst h4
      have := hv.2.2.1
      simp only [hkind h3, hreq] at this
      cases this

/-! ## Lines where the property is false -/

/-- Completers named after the options and positionals; all conditions hold. -/
def textEnv : BEnv :=
  { optCode := fun _ o => o.strings.headD [], posCode := fun c p => c.data.prog ++ natStr p.number, holds := fun _ _ => true }

/-- What the script with the parser of version 2 does: `none` for a function that does not exist. -/
def tryScript (root : Cmd) (words : List Str) (cur : Str) : Option (Option (List BEvent × Bool)) :=
  match bashBlocks root with
  | .ok b => (bashComplete textEnv (bashParseV2 (bashParts root) b (switchCases root)) (S "prog") root words cur []).map Except.toOption
  | .error _ => none

/-- An option with an argument that must be given. -/
def neededArg (s : String) : Opt := { strings := [S s], complete := some [.str (S "file")] }

/-- **C66** If all arguments of the command are optional and no option has a condition, no argument is ever completed:
`__complete_option` returns at once. -/
theorem C66_only_optional :
    tryScript (.node { prog := S "prog", options := [{ neededArg "--color" with optionalArg := true }] } none []) [] (S "--color=") =
      some (some ([], true)) := by
  decide +kernel

/-- **C66** The flag `-verbose` (old style) is taken for a cluster that ends with `-e`, if an old-style option must have an
argument: the completer of `-e` runs for the next word. -/
theorem C66_old_flag :
    tryScript (.node { prog := S "prog", options := [{ strings := [S "-verbose"] }, neededArg "-e", neededArg "-out"] } none [])
      [S "-verbose"] (S "x") = some (some ([.arg (S "-e") (S "x") []], true)) := by
  decide +kernel

/-- **C66** After `--`, a word that looks like an option is still completed as one. -/
theorem C66_after_dashes :
    tryScript (.node { prog := S "prog", options := [neededArg "--out"], positionals := [{ number := 1, repeatable := true }] } none [])
      [S "--", S "--out"] (S "x") = some (some ([.arg (S "--out") (S "x") []], true)) := by
  decide +kernel

/-- **C66** The value of an option that looks like an option asks for an argument: after `--file --out` the completer of
`--out` runs. -/
theorem C66_value_like_option :
    tryScript (.node { prog := S "prog", options := [neededArg "--out", neededArg "--file"] } none [])
      [S "--file", S "--out"] (S "x") = some (some ([.arg (S "--out") (S "x") []], true)) := by
  decide +kernel

/-- `prog [--top T] sub ARG`, where `sub` inherits `--top`. -/
def topTree : Cmd :=
  .node { prog := S "prog", inheritOptions := .val true, options := [neededArg "--top"] } (some 1)
    [.node { prog := S "sub", positionals := [{ number := 1, complete := [.str (S "file")] }] } none []]

/-- **C66** The argument of an inherited option is completed as the positional that was typed last: after
`prog sub x --top`, the completer of the first positional of `sub` runs, not the one of `--top`. -/
theorem C66_inherited_lost :
    tryScript topTree [S "sub", S "x", S "--top"] (S "y") = some (some ([.pos (S "sub1")], true)) := by
  decide +kernel

/-- **C66** If the word at the cursor begins with `-`, the own option strings are offered in addition. -/
theorem C66_inherited_dash :
    tryScript (.node { prog := S "prog", inheritOptions := .val true, options := [neededArg "--top"] } (some 1)
        [.node { prog := S "sub", options := [{ strings := [S "--flag"] }] } none []])
      [S "sub", S "--top"] (S "-") = some (some ([.strings (S "root:sub"), .arg (S "--top") (S "-") []], true)) := by
  decide +kernel

/-- **C66** The letters of flags and arguments of the pattern include those of the parents, but the loop knows only the
own options: in `prog sub -pV`, where `-p` is inherited and has an argument, the completer of `-V` of `sub` runs. -/
theorem C66_inherited_letter :
    tryScript (.node { prog := S "prog", inheritOptions := .val true, options := [neededArg "-p"] } (some 1)
        [.node { prog := S "sub", inheritOptions := .val true, options := [neededArg "-V"] } none []])
      [S "sub"] (S "-pVx") = some (some ([.arg (S "-V") (S "x") (S "-pV")], true)) := by
  decide +kernel

/-- **C66** If the only options are `--help` and `--version`, the function that is registered for the program does not
exist. -/
theorem C66_no_function :
    tryScript (.node { prog := S "prog", options := [{ strings := [S "--help"] }, { strings := [S "--version"] }] } none [])
      [] (S "--") = none := by
  decide +kernel

/-- `prog run|runner`, where `run` has nothing to complete but the positional of the file. -/
def runTree : Cmd :=
  .node { prog := S "prog" } (some 1)
    [.node { prog := S "run", positionals := [{ number := 1, complete := [.str (S "file")] }] } none [],
     .node { prog := S "runner" } none []]

/-- **C67** If the word at the cursor is already the name of a subcommand, its function is called, and neither its name nor
that of another subcommand that begins with it is offered: `prog run<TAB>` does not offer `runner`. -/
theorem C67_name_complete : tryScript runTree [] (S "run") = some (some ([], false)) := by
  decide +kernel

/-- `prog ru<TAB>` offers both. -/
theorem C67_name_begun : tryScript runTree [] (S "ru") = some (some ([.names [S "run", S "runner"]], true)) := by
  decide +kernel

/-- **C67** After `--`, the words after the cursor are counted: with the cursor on the first of two words, the completer of
the second positional runs. -/
theorem C67_words_after :
    (match bashBlocks (.node { prog := S "prog", positionals := [{ number := 1 }, { number := 2 }] } none []) with
      | .ok b => (bashComplete textEnv (bashParseV1 b []) (S "prog")
          (.node { prog := S "prog", positionals := [{ number := 1 }, { number := 2, complete := [.str (S "file")] }] } none []) [S "--"] (S "x") [S "y"]).map Except.toOption
      | .error _ => none) = some (some ([.pos (S "prog2")], true)) := by
  decide +kernel

/-- **C67** The arguments of a command that is a positional are counted from the first word that equals it: for
`sudo sudo ls`, the whole line is completed as a command, with `sudo` first. -/
theorem C67_command_twice :
    (bashComplete textEnv (fun _ _ _ => { positionals := [S "sudo", S "x"] }) (S "sudo")
      (.node { prog := S "sudo", positionals := [{ number := 1, complete := [.str (S "command")] }, { number := 2, complete := [.str (S "command_arg")], repeatable := true }] } none [])
      [S "sudo"] (S "x") []).map Except.toOption = some (some ([.commandArg 0], true)) := by
  decide +kernel

/-! ## Cases that meet the hypotheses -/

/-- `prog run [-q] [-o|--out OUT] ARG`. -/
def scriptRun : Cmd :=
  .node { prog := S "run", options := [{ strings := [S "-q"] }, { strings := [S "-o", S "--out"], complete := some [.str (S "file")] }]
          positionals := [{ number := 1, complete := [.str (S "file")] }] } none []

/-- `prog [--top T] FILE run`, where `run` inherits `--top`. -/
def scriptRoot : Cmd :=
  .node { prog := S "prog", inheritOptions := .val true, options := [neededArg "--top"], positionals := [{ number := 1, complete := [.str (S "file")] }] }
    (some 2) [scriptRun]

theorem script_at {parents : List Cmd} {c : Cmd} (h : At scriptRoot parents c) :
    (parents = [] ∧ c = scriptRoot) ∨ (parents = [scriptRoot] ∧ c = scriptRun) := by
  induction h with
  | root => exact Or.inl ⟨rfl, rfl⟩
  | @child parents c d _ hd ih =>
    rcases ih with ⟨rfl, rfl⟩ | ⟨rfl, rfl⟩
    · right; simp [scriptRoot, Cmd.children] at hd; exact ⟨rfl, hd⟩
    · simp [scriptRun, Cmd.children] at hd

theorem script_clean : CleanTree scriptRoot ∧ CleanNames scriptRoot ∧ CleanOptions scriptRoot := by
  refine ⟨⟨?_, ?_, ?_, ?_, ?_⟩, ⟨?_, ?_⟩, ⟨?_, ?_⟩⟩
  · intro parents c h d hd e he w _ _
    rcases script_at h with ⟨rfl, rfl⟩ | ⟨rfl, rfl⟩
    · simp [scriptRoot, Cmd.children] at hd he; rw [hd, he]
    · simp [scriptRun, Cmd.children] at hd
  · intro parents c h d hd
    rcases script_at h with ⟨rfl, rfl⟩ | ⟨rfl, rfl⟩
    · simp [scriptRoot, Cmd.children] at hd; subst hd; decide
    · simp [scriptRun, Cmd.children] at hd
  · intro parents c h
    rcases script_at h with ⟨rfl, rfl⟩ | ⟨rfl, rfl⟩ <;> decide
  · intro parents c h n hn
    rcases script_at h with ⟨rfl, rfl⟩ | ⟨rfl, rfl⟩
    · simp [scriptRoot, Cmd.sub] at hn; subst hn; decide
    · simp [scriptRun, Cmd.sub] at hn
  · intro parents c h hne
    rcases script_at h with ⟨rfl, rfl⟩ | ⟨rfl, rfl⟩
    · rfl
    · simp [scriptRun, Cmd.children] at hne
  · intro parents c h d hd
    rcases script_at h with ⟨rfl, rfl⟩ | ⟨rfl, rfl⟩
    · simp [scriptRoot, Cmd.children] at hd; subst hd; decide
    · simp [scriptRun, Cmd.children] at hd
  · intro parents c h d hd e he _ _
    rcases script_at h with ⟨rfl, rfl⟩ | ⟨rfl, rfl⟩
    · simp [scriptRoot, Cmd.children] at hd he; rw [hd, he]
    · simp [scriptRun, Cmd.children] at hd
  · intro parents c h o ho s hs
    rcases script_at h with ⟨rfl, rfl⟩ | ⟨rfl, rfl⟩
    · simp [scriptRoot, Cmd.data, neededArg] at ho; subst ho
      simp at hs; subst hs
      refine ⟨⟨by decide, '-', S "top", rfl, by decide⟩, by decide⟩
    · simp [scriptRun, Cmd.data] at ho
      rcases ho with rfl | rfl
      · simp at hs; subst hs
        refine ⟨⟨by decide, 'q', [], rfl, by decide⟩, by decide⟩
      · simp at hs
        rcases hs with rfl | rfl
        · refine ⟨⟨by decide, 'o', [], rfl, by decide⟩, by decide⟩
        · refine ⟨⟨by decide, '-', S "out", rfl, by decide⟩, by decide⟩
  · intro parents c h s o o' h1 h2
    have strings : ∀ {o}, NamesOption parents c s o → o ∈ c.data.options ∧ s ∈ o.strings := by
      intro o hn
      refine ⟨hn.1, ?_⟩
      rcases hn.2 with h' | ⟨ha, -⟩
      · exact h'
      · rcases script_at h with ⟨rfl, rfl⟩ | ⟨rfl, rfl⟩ <;> exact absurd ha (by decide)
    have a := strings h1
    have b := strings h2
    rcases script_at h with ⟨rfl, rfl⟩ | ⟨rfl, rfl⟩
    · simp [scriptRoot, Cmd.data] at a b; rw [a.1, b.1]
    · simp only [scriptRun, Cmd.data, List.mem_cons, List.not_mem_nil, or_false] at a b
      obtain ⟨rfl | rfl, ha⟩ := a <;> obtain ⟨rfl | rfl, hb⟩ := b
      · rfl
      · simp [S] at ha hb; subst ha; simp at hb
      · simp [S] at ha hb; subst hb; simp at ha
      · rfl

/-- The parser of version 2 for the example. -/
theorem script_parser : ∃ parse, IsParser scriptRoot parse := by
  cases h : bashBlocks scriptRoot with
  | ok b => exact ⟨_, b, h, Or.inr rfl⟩
  | error e =>
    have : (bashBlocks scriptRoot).toOption.isSome = true := by decide +kernel
    rw [h] at this; cases this

theorem script_reached : Reached scriptRoot [S "x"] [] scriptRoot ∧ Reached scriptRoot [S "x", S "run"] [scriptRoot] scriptRun := by
  have h1 : Reached scriptRoot ([] ++ [S "x"]) [] scriptRoot := Reached.word _ Reached.start (by decide)
  exact ⟨h1, Reached.sub (c := scriptRoot) (d := scriptRun) h1 (by decide) (by simp [scriptRoot, Cmd.children]) (Or.inl rfl)⟩

theorem script_hasCompleters : HasCompleters scriptRoot ∧ HasCompleters scriptRun := by
  constructor <;> intro o ho
  · simp [scriptRoot, Cmd.data, neededArg] at ho; subst ho; simp
  · simp [scriptRun, Cmd.data] at ho
    rcases ho with rfl | rfl <;> simp

theorem script_before (n : Nat) (parents : List Cmd) : BeforeCommandArg parents scriptRoot n ∧ BeforeCommandArg parents scriptRun n := by
  constructor <;> intro p hp hc
  · simp [scriptRoot, Cmd.data] at hp; subst hp; simp [IsCommandArg, S] at hc
  · simp [scriptRun, Cmd.data] at hp; subst hp; simp [IsCommandArg, S] at hc

/-- The option `--out` of the example. -/
def scriptOut : Opt := { strings := [S "-o", S "--out"], complete := some [.str (S "file")] }

theorem script_out : NamesOption [scriptRoot] scriptRun (S "--out") scriptOut ∧ NamesOption [scriptRoot] scriptRun (S "-o") scriptOut ∧
    NamesOption [] scriptRoot (S "--top") (neededArg "--top") := by
  refine ⟨⟨by simp [scriptRun, Cmd.data, scriptOut], Or.inl (by simp [scriptOut])⟩,
    ⟨by simp [scriptRun, Cmd.data, scriptOut], Or.inl (by simp [scriptOut])⟩,
    ⟨by simp [scriptRoot, Cmd.data], Or.inl (by simp [neededArg])⟩⟩

theorem script_items (optAt : List Str → Str → Option Opt) (ws : List Str) (h : ∀ w ∈ ws, ∀ a r, w ≠ '-' :: a :: r) :
    ∀ ps, ItemsValid (fun ps s => (optAt ps s).map Opt.kind) ps (ws.map Item.pos) := by
  induction ws with
  | nil => intro ps; trivial
  | cons w ws ih =>
    intro ps
    exact ⟨h w (List.mem_cons_self ..), ih (fun w hw => h w (List.mem_cons_of_mem _ hw)) _⟩

/-- All hypotheses of the theorems hold for the lines `prog x run --out <TAB>`, `prog x run --out=F<TAB>`,
`prog x run -qoF<TAB>`, `prog x run --top <TAB>`, `prog x run a<TAB>` and `prog x r<TAB>`. -/
theorem C66_example : ∃ parse, IsParser scriptRoot parse ∧
    (∀ cur post, bashComplete textEnv parse (S "prog") scriptRoot [S "x", S "run", S "--out"] cur post = some (.ok ([.arg (S "-o") cur []], true))) ∧
    (∀ v post, bashComplete textEnv parse (S "prog") scriptRoot [S "x", S "run"] (S "--out" ++ '=' :: v) post = some (.ok ([.arg (S "-o") v []], true))) ∧
    (∀ v post, '=' ∉ v → bashComplete textEnv parse (S "prog") scriptRoot [S "x", S "run"] ('-' :: (['q'] ++ 'o' :: v)) post =
      some (.ok ([.arg (S "-o") v (S "-qo")], true))) ∧
    (∀ cur post, (∀ r, cur ≠ '-' :: r) → bashComplete textEnv parse (S "prog") scriptRoot [S "x", S "run", S "--top"] cur post =
      some (.ok ([.arg (S "--top") cur []], true))) := by
  obtain ⟨hc, hn, ho⟩ := script_clean
  obtain ⟨optAt, hopt⟩ := knowsOptions_exists scriptRoot hc ho
  obtain ⟨parse, hparse⟩ := script_parser
  obtain ⟨-, hr⟩ := script_reached
  have hat := reached_at ((reached_iff hc _ _ _).mp hr)
  obtain ⟨ho1, ho2, ho3⟩ := script_out
  have hitems := script_items optAt [S "x", S "run"] (by
    intro w hw a r h
    simp at hw
    rcases hw with rfl | rfl <;> simp [S] at h) []
  have hreq : scriptOut.kind = .required := rfl
  have hwm : ∀ c o, WhenMet textEnv c o := fun _ _ _ _ => rfl
  have ht : ∀ e : Ending, e.Valid (fun s => (optAt [S "x", S "run"] s).map Opt.kind) →
      Typed scriptRoot optAt ([S "x", S "run"].map Item.pos) e [scriptRoot] scriptRun := fun e he => ⟨hr, hitems, he⟩
  have hquiet : ∀ qs x, At scriptRoot qs x → Quiet qs x (S "run") := fun qs x h => quiet_other ho h (by intro a r h; simp [S] at h)
  refine ⟨parse, hparse, ?_, ?_, ?_, ?_⟩
  · intro cur post
    refine C66_next_partial hparse hc hn ho hopt (ht (.word (S "--out")) ⟨Or.inl ⟨⟨'o', S "ut", rfl⟩, by decide⟩, ?_⟩) textEnv (S "prog") cur post
      (n := S "--out") (o := scriptOut) rfl ho1 (hwm _ _) script_hasCompleters.2 (by decide) (by decide) (script_before _ _).2 ?_
    · show Option.map Opt.kind (optAt _ _) = _
      rw [optAt_own hopt hr ho1]; rfl
    · intro cs x h; cases h
  · intro v post
    exact C66_equals_partial hparse hc hn ho hopt (ht .done trivial) rfl textEnv (S "prog") post (n := S "--out") (v := v) (o := scriptOut)
      (Or.inl ⟨'o', S "ut", rfl⟩) ho1 (by decide) (hwm _ _) script_hasCompleters.2 (Or.inl ⟨scriptOut, ho1.1, rfl⟩) (by decide) (by decide)
      (script_before _ _).2 (hquiet _ _ hat)
  · intro v post hv
    refine C66_attached_partial hparse hc hn ho hopt (ht .done trivial) rfl textEnv (S "prog") post (cs := ['q']) (v := v) (x := 'o') (o := scriptOut)
      ho2 (by decide) (by decide) ?_ ?_ ?_ ?_ (hwm _ _) script_hasCompleters.2 (Or.inl ⟨scriptOut, ho1.1, rfl⟩) (by decide) (by decide)
      (script_before _ _).2 (hquiet _ _ hat)
    · intro y hy
      rw [List.mem_singleton.mp hy]
      exact ⟨{ strings := [S "-q"] }, own_in_all hat _ (by simp [scriptRun, Cmd.data]), rfl, by simp [S]⟩
    · intro y hy o' h
      rw [List.mem_singleton.mp hy] at h
      have := ho.single _ _ hat _ _ { strings := [S "-q"] } h ⟨by simp [scriptRun, Cmd.data], Or.inl (by simp [S])⟩
      rw [this]; rfl
    · intro o' hm s hs hold
      have : o' ∈ scriptRun.data.options := ((mem_own hat false o').mp hm).1
      simp [scriptRun, Cmd.data] at this
      obtain ⟨a, b, r, rfl, hne⟩ := hold
      rcases this with rfl | rfl <;> simp [S] at hs
      exact absurd hs.1 hne
    · intro s t h o' hn'
      have : '=' ∈ '-' :: (['q'] ++ 'o' :: v) := by rw [h]; simp
      simp at this
      exact hv this
  · intro cur post hcur
    refine C66_inherited_partial hparse hc hn ho hopt (ht (.word (S "--top")) ⟨Or.inl ⟨⟨'t', S "op", rfl⟩, by decide⟩, ?_⟩) textEnv (S "prog") cur post
      (n := S "--top") (o := neededArg "--top") rfl (l1 := [([scriptRoot], scriptRun)]) (l2 := []) (qs := []) (x := scriptRoot) rfl ho3 ?_ (hwm _ _)
      script_hasCompleters.1 (Or.inr (Or.inr ⟨scriptOut, ho1.1, by decide, by decide⟩)) hcur (script_before _ _).1 ?_ ?_
    · show Option.map Opt.kind (optAt _ _) = _
      rw [(hopt _ _ _ hr (S "--top") (neededArg "--top")).mpr ⟨[([scriptRoot], scriptRun)], ([], scriptRoot), [], rfl, ho3, ?_⟩]
      · rfl
      · intro e' he' o' h
        rw [List.mem_singleton.mp he'] at h
        have h1 := h.1
        simp [scriptRun, Cmd.data] at h1
        rcases h.2 with h2 | ⟨ha, -⟩
        · rcases h1 with rfl | rfl <;> simp [S] at h2
        · exact absurd ha (by decide)
    · intro e' he' o' h
      rw [List.mem_singleton.mp he'] at h
      have h1 := h.1
      simp [scriptRun, Cmd.data] at h1
      rcases h.2 with h2 | ⟨ha, -⟩
      · rcases h1 with rfl | rfl <;> simp [S] at h2
      · exact absurd ha (by decide)
    · intro cs x h; cases h
    · intro e' he'
      rw [List.mem_singleton.mp he']
      refine ⟨script_hasCompleters.2, ⟨?_, ?_⟩, (script_before _ _).2, ?_⟩
      · intro o' h
        exfalso
        have h1 := h.1
        simp [scriptRun, Cmd.data] at h1
        rcases h.2 with h2 | ⟨ha, -⟩
        · rcases h1 with rfl | rfl <;> simp [S, Ending.words] at h2
        · exact absurd ha (by decide)
      · intro u x o h1 h2
        have h1 : S "--top" = '-' :: (u ++ [x]) := h1
        exfalso
        apply h2
        have h1' : S "-top" = u ++ [x] := by
          have := congrArg List.tail h1
          exact this
        rw [← h1']; rfl
      · intro k hk
        have : k = 1 := by simp [Item.positionals] at hk; omega
        subst this
        refine ⟨?_, by decide⟩
        intro p hp
        simp [scriptRun, Cmd.data] at hp
        subst hp
        decide

/-- See `C66_example`: `prog x run a<TAB>` completes the positional of `run`, `prog x r<TAB>` offers the subcommands, and
`prog x run a b<TAB>` completes nothing. -/
theorem C67_example : ∃ parse, IsParser scriptRoot parse ∧
    (∀ post, bashComplete textEnv parse (S "prog") scriptRoot [S "x", S "run"] (S "a") post = some (.ok ([.pos (S "run1")], true))) ∧
    (∀ post, ∃ ns, bashComplete textEnv parse (S "prog") scriptRoot [S "x"] (S "r") post = some (.ok ([.names ns], true)) ∧ S "run" ∈ ns) ∧
    (∀ post, bashComplete textEnv parse (S "prog") scriptRoot [S "x", S "run", S "a"] (S "b") post = some (.ok ([], false))) := by
  obtain ⟨hc, hn, ho⟩ := script_clean
  obtain ⟨optAt, hopt⟩ := knowsOptions_exists scriptRoot hc ho
  obtain ⟨parse, hparse⟩ := script_parser
  obtain ⟨hr0, hr⟩ := script_reached
  have hat0 := reached_at ((reached_iff hc _ _ _).mp hr0)
  have hat := reached_at ((reached_iff hc _ _ _).mp hr)
  have hr2 : Reached scriptRoot [S "x", S "run", S "a"] [scriptRoot] scriptRun := Reached.word (ps := [S "x", S "run"]) (S "a") hr (by decide)
  have hitems : ∀ ws, ws = [S "x", S "run", S "a"] ∨ ws = [S "x", S "run"] ∨ ws = [S "x"] → ItemsValid (fun ps s => (optAt ps s).map Opt.kind) [] (ws.map Item.pos) := by
    intro ws h
    refine script_items optAt ws ?_ []
    intro w hw a r h'
    rcases h with rfl | rfl | rfl <;> simp at hw
    · rcases hw with rfl | rfl | rfl <;> simp [S] at h'
    · rcases hw with rfl | rfl <;> simp [S] at h'
    · subst hw; simp [S] at h'
  have hquiet : ∀ qs x w, At scriptRoot qs x → w = S "run" ∨ w = S "x" ∨ w = S "a" → Quiet qs x w := by
    intro qs x w h hw
    refine quiet_other ho h ?_
    intro a r h
    rcases hw with rfl | rfl | rfl <;> simp [S] at h
  refine ⟨parse, hparse, ?_, ?_, ?_⟩
  · intro post
    refine C67_positional_partial (its := [S "x", S "run"].map Item.pos) (e := .done) hparse hc hn ho hopt ⟨hr, hitems _ (by simp), trivial⟩
      (Or.inl rfl) textEnv (S "prog") (S "a") post (Or.inl rfl) (ps := [S "x", S "run"]) rfl hr
      (p := { number := 1, complete := [.str (S "file")] }) (by simp [scriptRun, Cmd.data]) (by decide) (fun _ _ => rfl) ?_ (by simp [IsCommandArg, S])
      (script_before _ _).2 ?_ script_hasCompleters.2 (by simp [S]) (by intro h; exact absurd h (by decide)) (hquiet _ _ _ hat (Or.inl rfl))
    · intro q hq _ _ _
      simpa [scriptRun, Cmd.data] using hq
    · intro s h
      simp at h
      subst h
      decide
  · intro post
    have hnone : ∀ p ∈ scriptRoot.data.positionals, PosHere [] p [S "x"].length → ¬ PosMet textEnv scriptRoot p := by
      intro p hp hh
      simp [scriptRoot, Cmd.data] at hp
      subst hp
      exact absurd hh (by decide)
    have hsel : ∀ d ∈ scriptRoot.children, ¬ SelectsSub scriptRoot d (S "r") := by
      intro d hd h
      simp [scriptRoot, Cmd.children] at hd
      subst hd
      rcases h with h | h | h
      · exact absurd h (by decide)
      · exact absurd h (by decide)
      · exact absurd h.1 (by decide)
    obtain ⟨ns, h1, h2⟩ := C67_subcommands_partial (its := [S "x"].map Item.pos) (e := .done) hparse hc hn ho hopt ⟨hr0, hitems _ (by simp), trivial⟩
      (Or.inl rfl) textEnv (S "prog") (S "r") post (Or.inl rfl) (ps := [S "x"]) rfl hr0 (by decide) (by simp [scriptRoot, Cmd.children]) hnone
      (script_before _ _).1 script_hasCompleters.1 (by simp [S]) hsel (hquiet _ _ _ hat0 (Or.inr (Or.inl rfl)))
    exact ⟨ns, h1, (h2 _).mpr ⟨scriptRun, by simp [scriptRoot, Cmd.children], Or.inl rfl⟩⟩
  · intro post
    refine C67_nothing_partial (its := [S "x", S "run", S "a"].map Item.pos) (e := .done) hparse hc hn ho hopt ⟨hr2, hitems _ (by simp), trivial⟩
      (Or.inl rfl) textEnv (S "prog") (S "b") post (Or.inl rfl) (ps := [S "x", S "run", S "a"]) rfl hr2
      (Or.inr (Or.inr ⟨scriptOut, script_out.1.1, by decide, by decide⟩)) (by simp [S]) ?_
    intro x hx
    have : inheritedFrom [scriptRoot] scriptRun = [([scriptRoot], scriptRun), ([], scriptRoot)] := rfl
    rw [this] at hx
    simp only [List.mem_cons, List.not_mem_nil, or_false] at hx
    rcases hx with rfl | rfl
    · refine ⟨script_hasCompleters.2, (script_before _ _).2, hquiet _ _ _ hat (Or.inr (Or.inr rfl)), ?_, by decide⟩
      intro p hp
      simp [scriptRun, Cmd.data] at hp
      subst hp; decide
    · refine ⟨script_hasCompleters.1, (script_before _ _).1, hquiet _ _ _ hat0 (Or.inr (Or.inr rfl)), ?_, by decide⟩
      intro p hp
      simp [scriptRoot, Cmd.data] at hp
      subst hp; decide

end CC
