import Verif.Props.ZshQuery
import Verif.Model.FishQuery
import Verif.Lemmas.Walk
import Verif.Props.Algo
/-!
# C49 (Fish part), C58: the option table and the Fish command line parser
-/

namespace CC

theorem fishLoop_cons (long short old : Bool) (g : List Str → Str → Option ArgKind) (p : Parsed) (w : Str) (ws : List Str)
    (h : w ≠ ['-', '-']) :
    fishLoop long short old g p false (w :: ws) =
      fishLoop long short old g (p.apply (fishWord long short old (g p.positionals) w ws.head?))
        (fishWord long short old (g p.positionals) w ws.head?).skip ws := by
  rw [fishLoop, if_neg h]

theorem fishLoop_skip (long short old : Bool) (g : List Str → Str → Option ArgKind) (p : Parsed) (w : Str) (ws : List Str) :
    fishLoop long short old g p true (w :: ws) = fishLoop long short old g p false ws := by
  rw [fishLoop]

theorem fishCluster_flags {kind : Str → Option ArgKind} (next : Option Str) (cs rest : Str) (hf : FlagsOk kind cs) :
    fishCluster kind next (cs ++ rest) =
      ⟨(flagOptions cs).map queryRecord ++ (fishCluster kind next rest).having,
        (fishCluster kind next rest).positionals, (fishCluster kind next rest).incomplete,
        (fishCluster kind next rest).skip⟩ := by
  induction cs with
  | nil => simp [flagOptions]
  | cons c cs ih =>
    have ih := ih (fun d hd => hf d (by simp [hd]))
    simp only [List.cons_append, fishCluster, hf c (by simp)]
    rw [ih]
    simp [flagOptions, queryRecord]

theorem fishWord_cluster {kind : Str → Option ArgKind} (long old : Bool) (next : Option Str) (c : Char) (cs : Str)
    (hc : c ≠ '-') (hw : ClusterOk kind ('-' :: c :: cs)) :
    fishWord long true old kind ('-' :: c :: cs) next = fishCluster kind next (c :: cs) := by
  have h1 : startsWith ('-' :: c :: cs) ['-', '-'] = false := by simp [startsWith, hc]
  have h3 : startsWith ('-' :: c :: cs) ['-'] = true := by simp [startsWith]
  have h0 : ('-' :: c :: cs) ≠ ['-'] := by simp
  unfold fishWord
  rw [if_neg h0, h1, h3]
  simp only [Bool.false_eq_true, if_false, if_true, List.tail_cons]
  cases old with
  | false => rfl
  | true =>
    simp only [if_true]
    unfold fishOld
    by_cases heq : '=' ∈ ('-' :: c :: cs)
    · rw [if_pos (by simpa using heq)]
      obtain ⟨p, r, he, hp⟩ := split_first_eq heq
      have hk := hw.1 p r he hp
      rw [he, beforeEq_append hp, hk]
    · rw [if_neg (by simpa using heq)]
      cases cs with
      | nil =>
        cases hk : kind ['-', c] with
        | none => rfl
        | some k => cases k <;> simp [fishCluster, hk]
      | cons d cs => rw [hw.2 heq (by simp)]

theorem fishWord_word {kind : Str → Option ArgKind} {long short old : Bool} (hp : PartsOk long short old kind) {n : Str}
    (hn : LongName n ∨ OldName n) (next : Option Str) :
    (kind n = some .required → fishWord long short old kind n next = zshNext n next) ∧
    (kind n = some .flag ∨ kind n = some .optional → fishWord long short old kind n next = { having := [(n, [])] }) := by
  rcases hn with ⟨⟨c, cs, rfl⟩, heq⟩ | ⟨⟨c, d, cs, rfl, hc⟩, heq⟩
  · have hs : qstyle ('-' :: '-' :: c :: cs) = .long := qstyle_long _ _
    have h1 : startsWith ('-' :: '-' :: c :: cs) ['-', '-'] = true := by simp [startsWith]
    have h2 : ('-' :: '-' :: c :: cs).contains '=' = false := by simpa using heq
    have key : ∀ k, kind ('-' :: '-' :: c :: cs) = some k → fishWord long short old kind ('-' :: '-' :: c :: cs) next =
        match some k with | some .required => zshNext ('-' :: '-' :: c :: cs) next
                          | _ => { having := [('-' :: '-' :: c :: cs, [])] } := by
      intro k hk
      have hl := hp _ _ hk
      rw [hs] at hl
      simp only [enabled] at hl
      unfold fishWord
      rw [if_neg (by simp)]
      simp only [h1, h2, hl, if_true, Bool.false_eq_true, if_false, hk]
      cases k <;> rfl
    constructor
    · intro hk; rw [key _ hk]
    · rintro (hk | hk) <;> rw [key _ hk]
  · have hs : qstyle ('-' :: c :: d :: cs) = .old := qstyle_old _ _ hc
    have h1 : startsWith ('-' :: c :: d :: cs) ['-', '-'] = false := by simp [startsWith, hc]
    have h2 : ('-' :: c :: d :: cs).contains '=' = false := by simpa using heq
    have h4 : startsWith ('-' :: c :: d :: cs) ['-'] = true := by simp [startsWith]
    have key : ∀ k, kind ('-' :: c :: d :: cs) = some k → fishWord long short old kind ('-' :: c :: d :: cs) next =
        match some k with | some .required => zshNext ('-' :: c :: d :: cs) next
                          | _ => { having := [('-' :: c :: d :: cs, [])] } := by
      intro k hk
      have hl := hp _ _ hk
      rw [hs] at hl
      simp only [enabled] at hl
      unfold fishWord
      rw [if_neg (by simp)]
      simp only [h1, h4, hl, if_true, Bool.false_eq_true, if_false, fishOld, h2, hk]
      cases k <;> rfl
    constructor
    · intro hk; rw [key _ hk]
    · rintro (hk | hk) <;> rw [key _ hk]

theorem fishWord_eq {kind : Str → Option ArgKind} {long short old : Bool} (hp : PartsOk long short old kind) {n : Str}
    (hn : LongName n ∨ OldName n) (v : Str) (next : Option Str)
    (hk : kind n = some .required ∨ kind n = some .optional) :
    fishWord long short old kind (n ++ '=' :: v) next = { having := [(n, v)] } := by
  have hq : '=' ∉ n := by rcases hn with h | h <;> exact h.2
  have h2 : (n ++ '=' :: v).contains '=' = true := by simp
  have hb := beforeEq_append hq v
  have hf := afterEq_append hq v
  rcases hn with ⟨⟨c, cs, rfl⟩, heq⟩ | ⟨⟨c, d, cs, rfl, hc⟩, heq⟩
  · have h1 : startsWith ('-' :: '-' :: c :: cs ++ '=' :: v) ['-', '-'] = true := by simp [startsWith]
    unfold fishWord
    rw [if_neg (by simp)]
    simp only [h1, h2, if_true, hb, hf]
  · have hs : qstyle ('-' :: c :: d :: cs) = .old := qstyle_old _ _ hc
    have h1 : startsWith ('-' :: c :: d :: cs ++ '=' :: v) ['-', '-'] = false := by simp [startsWith, hc]
    have h4 : startsWith ('-' :: c :: d :: cs ++ '=' :: v) ['-'] = true := by
      simp [startsWith]
    have hl : enabled long short old (qstyle ('-' :: c :: d :: cs)) = true := by
      rcases hk with hk | hk <;> exact hp _ _ hk
    rw [hs] at hl
    simp only [enabled] at hl
    unfold fishWord
    rw [if_neg (by simp)]
    simp only [h1, h4, hl, if_true, Bool.false_eq_true, if_false, fishOld, h2, hb, hf]
    rcases hk with hk | hk <;> rw [hk]

theorem fishCluster_required {kind : Str → Option ArgKind} (next : Option Str) {c : Char}
    (hk : kind ['-', c] = some .required) (v : Str) :
    fishCluster kind next (c :: v) = if v ≠ [] then { having := [(['-', c], v)] } else zshNext ['-', c] next := by
  rw [fishCluster, hk]

theorem fishCluster_optional {kind : Str → Option ArgKind} (next : Option Str) {c : Char}
    (hk : kind ['-', c] = some .optional) (v : Str) :
    fishCluster kind next (c :: v) = { having := [(['-', c], v)] } := by
  rw [fishCluster, hk]

theorem fishLoop_cluster {g : List Str → Str → Option ArgKind} (long old : Bool) (p : Parsed) {cs : Str} {c : Char} (v : Str)
    (h1 : (cs ++ [c]).head? ≠ some '-') (hf : FlagsOk (g p.positionals) cs)
    (hw : ClusterOk (g p.positionals) ('-' :: (cs ++ c :: v))) (ws : List Str) :
    fishLoop long true old g p false (('-' :: (cs ++ c :: v)) :: ws) =
      fishLoop long true old g (p.apply
        ⟨(flagOptions cs).map queryRecord ++ (fishCluster (g p.positionals) ws.head? (c :: v)).having,
        (fishCluster (g p.positionals) ws.head? (c :: v)).positionals,
        (fishCluster (g p.positionals) ws.head? (c :: v)).incomplete,
        (fishCluster (g p.positionals) ws.head? (c :: v)).skip⟩)
        (fishCluster (g p.positionals) ws.head? (c :: v)).skip ws := by
  have hcl := fishCluster_flags ws.head? cs (c :: v) hf
  obtain ⟨d, ds, h2, h3⟩ := cluster_head h1 v
  rw [fishLoop_cons]
  · rw [h2] at hw hcl ⊢
    rw [fishWord_cluster long old _ d ds h3 hw, hcl]
  · rw [h2]; simp [h3]

/-- One item. -/
theorem fishLoop_item {g : List Str → Str → Option ArgKind} {long short old : Bool} (p : Parsed)
    (hp : PartsOk long short old (g p.positionals)) (hd : NoDashes (g p.positionals)) (it : Item)
    (hv : it.Valid (g p.positionals)) (rest : List Str) :
    fishLoop long short old g p false (it.words ++ rest) =
      fishLoop long short old g ⟨p.having ++ it.options.map queryRecord, p.positionals ++ it.positionals, p.incomplete⟩
        false rest := by
  cases it with
  | word n =>
    obtain ⟨hn, hk⟩ := hv
    simp only [Item.words, List.cons_append, List.nil_append]
    rw [fishLoop_cons _ _ _ _ _ _ _ (name_ne_dashes hn), (fishWord_word hp hn _).2 hk]
    simp [Parsed.apply, Item.options, Item.positionals, queryRecord]
  | eq n v =>
    obtain ⟨hn, hk⟩ := hv
    simp only [Item.words, List.cons_append, List.nil_append]
    rw [fishLoop_cons _ _ _ _ _ _ _ (by
        rcases hn with ⟨⟨c, cs, rfl⟩, -⟩ | ⟨⟨c, d, cs, rfl, hc⟩, -⟩ <;> simp),
      fishWord_eq hp hn v _ hk]
    simp [Parsed.apply, Item.options, Item.positionals, queryRecord]
  | sep n v =>
    obtain ⟨hn, hk⟩ := hv
    simp only [Item.words, List.cons_append, List.nil_append]
    rw [fishLoop_cons _ _ _ _ _ _ _ (name_ne_dashes hn), (fishWord_word hp hn _).1 hk]
    simp [Parsed.apply, Item.options, Item.positionals, queryRecord, zshNext, fishLoop_skip]
  | flags cs =>
    obtain ⟨hne, hh, hf, hw⟩ := hv
    simp only [Item.words, List.cons_append, List.nil_append]
    cases cs with
    | nil => exact absurd rfl hne
    | cons c cs =>
      have hc : c ≠ '-' := by simpa using hh
      have hs := short_on hp hd (hf c (by simp))
      subst hs
      rw [fishLoop_cons _ _ _ _ _ _ _ (by simp [hc]), fishWord_cluster _ _ _ _ _ hc hw]
      have := fishCluster_flags rest.head? (c :: cs) [] hf
      rw [List.append_nil] at this
      rw [this]
      simp [fishCluster, Parsed.apply, Item.options, Item.positionals]
  | attached cs c v =>
    obtain ⟨hh, hf, hv, hk, hw⟩ := hv
    have hs : short = true := by rcases hk with hk | hk <;> exact short_on hp hd hk
    subst hs
    simp only [Item.words, List.cons_append, List.nil_append]
    rw [fishLoop_cluster _ _ p v hh hf hw]
    have : fishCluster (g p.positionals) rest.head? (c :: v) = { having := [(['-', c], v)] } := by
      rcases hk with hk | hk
      · rw [fishCluster_required _ hk, if_pos hv]
      · rw [fishCluster_optional _ hk]
    rw [this]
    simp [Parsed.apply, Item.options, Item.positionals, queryRecord]
  | separate cs c v =>
    obtain ⟨hh, hf, hk, hw⟩ := hv
    have hs := short_on hp hd hk
    subst hs
    simp only [Item.words, List.cons_append, List.nil_append]
    rw [fishLoop_cluster _ _ p [] hh hf hw, fishCluster_required _ hk]
    simp [Parsed.apply, Item.options, Item.positionals, queryRecord, zshNext, fishLoop_skip]
  | bare cs c =>
    obtain ⟨hh, hf, hk, hw⟩ := hv
    have hs := short_on hp hd hk
    subst hs
    simp only [Item.words, List.cons_append, List.nil_append]
    rw [fishLoop_cluster _ _ p [] hh hf hw, fishCluster_optional _ hk]
    simp [Parsed.apply, Item.options, Item.positionals, queryRecord]
  | pos w =>
    simp only [Item.Valid] at hv
    simp only [Item.words, List.cons_append, List.nil_append]
    rw [fishLoop_cons _ _ _ _ _ _ _ (fun e => hv '-' [] e)]
    have : fishWord long short old (g p.positionals) w rest.head? = { positionals := [w] } := by
      unfold fishWord
      by_cases hw : w = ['-']
      · rw [if_pos hw]
      · rw [if_neg hw]
        have h1 : startsWith w ['-'] = false := by
          match w, hv, hw with
          | [], _, _ => rfl
          | [c], _, hw => simpa [startsWith] using hw
          | c :: d :: ws, hv, _ =>
            by_cases h : c = '-'
            · subst h; exact absurd rfl (hv d ws)
            · simp [startsWith, h]
        have h2 : startsWith w ['-', '-'] = false := by
          match w, h1 with
          | [], _ => rfl
          | c :: ws, h1 => simp [startsWith] at h1 ⊢; simp [h1]
        simp only [h1, h2, Bool.false_eq_true, if_false]
    rw [this]
    simp [Parsed.apply, Item.options, Item.positionals]

/-- Several items. -/
theorem fishLoop_items {g : List Str → Str → Option ArgKind} {long short old : Bool}
    (hp : ∀ ps, PartsOk long short old (g ps)) (hd : ∀ ps, NoDashes (g ps)) (its : List Item) (p : Parsed)
    (hv : ItemsValid g p.positionals its) (rest : List Str) :
    fishLoop long short old g p false (its.flatMap Item.words ++ rest) =
      fishLoop long short old g ⟨p.having ++ (its.flatMap Item.options).map queryRecord,
        p.positionals ++ its.flatMap Item.positionals, p.incomplete⟩ false rest := by
  induction its generalizing p with
  | nil => simp
  | cons it its ih =>
    simp only [List.flatMap_cons, List.append_assoc]
    rw [fishLoop_item p (hp _) (hd _) it hv.1, ih _ hv.2]
    simp

/-- The ending. -/
theorem fishLoop_ending {g : List Str → Str → Option ArgKind} {long short old : Bool} (p : Parsed)
    (hp : PartsOk long short old (g p.positionals)) (hd : NoDashes (g p.positionals)) (e : Ending)
    (hv : e.Valid (g p.positionals)) :
    fishLoop long short old g p false e.words =
      ⟨p.having ++ e.options.map queryRecord, p.positionals ++ e.positionals, e.incomplete.getD p.incomplete⟩ := by
  cases e with
  | done => simp [Ending.words, fishLoop, Ending.options, Ending.positionals, Ending.incomplete]
  | dashes ws => simp [Ending.words, fishLoop, Ending.options, Ending.positionals, Ending.incomplete]
  | word n =>
    obtain ⟨hn, hk⟩ := hv
    simp only [Ending.words]
    rw [fishLoop_cons _ _ _ _ _ _ _ (name_ne_dashes hn), (fishWord_word hp hn _).1 hk]
    simp [Parsed.apply, Ending.options, Ending.positionals, zshNext, fishLoop, Ending.incomplete]
  | cluster cs c =>
    obtain ⟨hh, hf, hk, hw⟩ := hv
    have hs := short_on hp hd hk
    subst hs
    simp only [Ending.words]
    rw [fishLoop_cluster _ _ p [] hh hf hw, fishCluster_required _ hk]
    simp [Parsed.apply, Ending.options, Ending.positionals, zshNext, fishLoop, Ending.incomplete]


/-! ## Only some strings are looked up -/

/-- The strings that the parser looks up: names without `=`, and `-=`. -/
def LookedUp (s : Str) : Prop := '=' ∉ s ∨ s = ['-', '=']

theorem lookedUp_letter (c : Char) : LookedUp ['-', c] := by
  by_cases h : c = '='
  · subst h; exact Or.inr rfl
  · exact Or.inl (by simp [Ne.symm h])

theorem fishCluster_congr {g g' : Str → Option ArgKind} (h : ∀ s, LookedUp s → g s = g' s) (next : Option Str) (cs : Str) :
    fishCluster g next cs = fishCluster g' next cs := by
  induction cs with
  | nil => rfl
  | cons c cs ih => simp only [fishCluster, h _ (lookedUp_letter c), ih]

theorem beforeEq_no_eq (w : Str) : '=' ∉ beforeEq w := by
  intro h
  have := List.all_takeWhile (p := (· != '=')) (l := w)
  rw [List.all_eq_true] at this
  have := this '=' h
  simp at this

theorem fishWord_congr {g g' : Str → Option ArgKind} (h : ∀ s, LookedUp s → g s = g' s) (long short old : Bool)
    (w : Str) (next : Option Str) : fishWord long short old g w next = fishWord long short old g' w next := by
  have h1 := h _ (Or.inl (beforeEq_no_eq w))
  have h2 : '=' ∉ w → g w = g' w := fun hw => h _ (Or.inl hw)
  unfold fishWord
  rw [fishCluster_congr h]
  by_cases heq : '=' ∈ w
  · have hc : w.contains '=' = true := by simpa using heq
    simp only [fishOld, hc, if_true, h1]
  · have hc : w.contains '=' = false := by simpa using heq
    simp only [fishOld, hc, Bool.false_eq_true, if_false, h2 heq]

theorem fishLoop_congr {g g' : List Str → Str → Option ArgKind} (h : ∀ ps s, LookedUp s → g ps s = g' ps s)
    (long short old : Bool) (ws : List Str) (p : Parsed) (k : Bool) :
    fishLoop long short old g p k ws = fishLoop long short old g' p k ws := by
  induction ws generalizing p k with
  | nil => cases k <;> rfl
  | cons w ws ih =>
    cases k with
    | true => rw [fishLoop, fishLoop, ih]
    | false =>
      rw [fishLoop, fishLoop]
      rw [fishWord_congr (h p.positionals)]
      simp only [ih]

/-- Scanning the fields of a table. -/
theorem fishScan_table {t : List (Str × ArgKind)} (hp : ∀ e ∈ t, PlainOption e.1) (s : Str) (hs : LookedUp s) :
    fishScan s (t.map (fun e => queryField e.2 e.1)) = kindIn t s := by
  induction t with
  | nil => rfl
  | cons e t ih =>
    have ih := ih (fun x hx => hp x (by simp [hx]))
    obtain ⟨n, k⟩ := e
    have hn := hp (n, k) (by simp)
    simp only at hn
    have hq : '=' ∉ n := hn.2.2.1
    have hne : n ≠ ['-'] := by
      obtain ⟨⟨c, cs, rfl⟩, -⟩ := hn; simp
    have hplain : ∀ r, n ≠ s ++ '=' :: r := fun r e => hq (by rw [e]; simp)
    have h1 : n ++ ['='] ≠ s := by
      intro e
      rcases hs with hs | rfl
      · exact hs (by rw [← e]; simp)
      · have : n = ['-'] := by
          have : n ++ ['='] = ['-'] ++ ['='] := e
          exact List.append_cancel_right this
        exact hne this
    have h2 : n ++ ['=', '?'] ≠ s := by
      intro e
      rcases hs with hs | rfl
      · exact hs (by rw [← e]; simp)
      · have := congrArg List.getLast? e
        simp at this
    have h3 : n ++ ['='] ≠ s ++ ['=', '?'] := by
      intro e
      have := congrArg List.getLast? e
      simp at this
    have h4 : n ++ ['=', '?'] ≠ s ++ ['='] := by
      intro e
      have := congrArg List.getLast? e
      simp at this
    have hk : kindIn ((n, k) :: t) s = if n = s then some k else kindIn t s := by
      unfold kindIn
      by_cases h : n = s
      · simp [List.find?_cons, h]
      · have : ((n == s) = false) := by simpa using h
        simp [List.find?_cons, h, this]
    rw [hk]
    simp only [List.map_cons]
    generalize List.map (fun e : Str × ArgKind => queryField e.snd e.fst) t = fs at ih ⊢
    cases k with
    | flag =>
      simp only [queryField, fishScan]
      by_cases h : n = s
      · simp [h]
      · simp [h, hplain, ih]
    | required =>
      simp only [queryField, fishScan, h1, h3, if_false]
      by_cases h : n = s
      · simp [h]
      · simp [h, ih]
    | optional =>
      simp only [queryField, fishScan, h2, h4, if_false]
      by_cases h : n = s
      · simp [h]
      · simp [h, ih]

/-- The definition of one command, read back. -/
theorem fishScan_options {options : List Opt} (hp : ∀ e ∈ tableOf options, PlainOption e.1) (s : Str) (hs : LookedUp s)
    (hne : tableOf options ≠ []) :
    fishScan s (splitOn ' ' (queryOptionStrings options)) = kindIn (tableOf options) s := by
  rw [queryOptionStrings_eq, splitOn_join ' ' _ (by simpa using hne)]
  · exact fishScan_table hp s hs
  · intro x hx
    obtain ⟨y, hy, rfl⟩ := List.mem_map.mp hx
    exact queryField_nospace (hp y hy) y.2

/-- **C49 (Fish, partial)** Looking an option up in the option table of a command in Fish gives its argument kind,
and nothing for a string that is not an option of the command. Missing: option strings containing `=`,
see `C49_ambiguous`. -/
theorem C49_fish_partial (options : List Opt) (ht : TableOk (tableOf options)) (hne : tableOf options ≠ []) (s : Str)
    (hs : '=' ∉ s) (k : ArgKind) :
    fishScan s (splitOn ' ' (queryOptionStrings options)) = some k ↔ ∃ o ∈ options, s ∈ o.strings ∧ o.kind = k := by
  rw [fishScan_options ht.plain s (Or.inl hs) hne, kindIn_iff ht]
  unfold tableOf
  simp only [List.mem_flatMap, List.mem_map, Prod.mk.injEq]
  constructor
  · rintro ⟨o, ho, x, hx, rfl, hk⟩; exact ⟨o, ho, hx, hk⟩
  · rintro ⟨o, ho, hx, hk⟩; exact ⟨o, ho, s, hx, rfl, hk⟩

/-- A flag `--foo=` is a valid option string, and is read back as `--foo` with an argument. -/
theorem C49_ambiguous : isValidOptionString (S "--foo=") = true ∧
    fishScan (S "--foo") (splitOn ' ' (queryOptionStrings [{ strings := [S "--foo="] }])) = some .required ∧
    (zshArrays true true true (queryOptionStrings [{ strings := [S "--foo="] }])).longArg = [S "--foo"] := by
  decide

/-- The definitions of the Fish parser for commands with their patterns, `fish_prepare.py` 34-51. -/
def fishDefs (cmds : List (List FishComp × List Opt)) : List (List FishComp × Str) :=
  (cmds.filter (fun d => !(queryOptionStrings d.2).isEmpty)).map (fun d => (d.1, queryOptionStrings d.2))

/-- The argument kind of an option string after some positionals: the last definition whose pattern
matches and which has the option decides. -/
def fishKindAt (subcommands : Bool) (cmds : List (List FishComp × List Opt)) (ps : List Str) (s : Str) : Option ArgKind :=
  (cmds.reverse.filter (fun d => !subcommands || matchPositionals d.1 ps)).findSome? (fun d => kindIn (tableOf d.2) s)

theorem queryOptionStrings_empty {options : List Opt} (hp : ∀ e ∈ tableOf options, PlainOption e.1) :
    queryOptionStrings options = [] ↔ tableOf options = [] := by
  rw [queryOptionStrings_eq]
  constructor
  · intro h
    cases ht : tableOf options with
    | nil => rfl
    | cons e t =>
      have := zshFields_join _ hp
      rw [h, ht] at this
      simp [zshFields, splitOn] at this
  · intro h; rw [h]; rfl

theorem fishGetOption_eq (subcommands : Bool) (cmds : List (List FishComp × List Opt))
    (hp : ∀ d ∈ cmds, ∀ e ∈ tableOf d.2, PlainOption e.1) (ps : List Str) (s : Str) (hs : LookedUp s) :
    fishGetOption subcommands (fishDefs cmds) ps s = fishKindAt subcommands cmds ps s := by
  unfold fishGetOption fishDefs fishKindAt
  rw [← List.map_reverse, ← List.filter_reverse]
  have hp : ∀ d ∈ cmds.reverse, ∀ e ∈ tableOf d.2, PlainOption e.1 := fun d hd => hp d (by simpa using hd)
  generalize cmds.reverse = l at hp
  induction l with
  | nil => rfl
  | cons d l ih =>
    have ih := ih (fun x hx => hp x (by simp [hx]))
    have hp := hp d (by simp)
    have hemp := queryOptionStrings_empty hp
    by_cases he : queryOptionStrings d.2 = []
    · have h0 : kindIn (tableOf d.2) s = none := by rw [hemp.mp he]; rfl
      simp only [List.filter_cons, he]
      by_cases hm : (!subcommands || matchPositionals d.1 ps) = true
      · simp [hm, h0, ih]
      · simp only [Bool.not_eq_true] at hm
        simp only [hm]
        simpa using ih
    · have h1 : (!(queryOptionStrings d.2).isEmpty) = true := by simpa using he
      simp only [List.filter_cons, h1, if_true, List.map_cons, fishGetGo]
      by_cases hm : (!subcommands || matchPositionals d.1 ps) = true
      · simp only [hm, if_true]
        rw [fishScan_options hp s hs (fun h => he (hemp.mpr h))]
        simp only [List.findSome?_cons]
        cases kindIn (tableOf d.2) s with
        | some k => rfl
        | none => exact ih
      · simp only [Bool.not_eq_true] at hm
        simp only [hm]
        simpa using ih

/-- **C58 (parsing)** The Fish parser records exactly what was typed. For commands with their
positional patterns and their options (option strings without `=` and spaces), for every sequence of
items which uses the options known at its place (`fishKindAt`) as they allow, and for every ending, the
parser records the given options with their arguments in order, the positionals in order, and whether
the argument of the last option is missing. Which options are known where is the subject of
`C58_single_command` and `C58_global_option_lost`. -/
theorem C58_parse (long short old subcommands : Bool) (cmds : List (List FishComp × List Opt))
    (hp : ∀ d ∈ cmds, ∀ e ∈ tableOf d.2, PlainOption e.1 ∧ enabled long short old (qstyle e.1) = true)
    (its : List Item) (e : Ending) (hi : ItemsValid (fishKindAt subcommands cmds) [] its)
    (hv : e.Valid (fishKindAt subcommands cmds (its.flatMap Item.positionals))) :
    fishQueryInit long short old subcommands (fishDefs cmds) (its.flatMap Item.words ++ e.words) =
      { having := (its.flatMap Item.options ++ e.options).map (fun o => (o.1, o.2.getD []))
        positionals := its.flatMap Item.positionals ++ e.positionals
        incomplete := e.incomplete.getD [] } := by
  have hmem : ∀ ps s k, fishKindAt subcommands cmds ps s = some k → ∃ d ∈ cmds, (s, k) ∈ tableOf d.2 := by
    intro ps s k hk
    unfold fishKindAt at hk
    obtain ⟨d, hd, hk⟩ := List.exists_of_findSome?_eq_some hk
    refine ⟨d, by simpa using (List.mem_filter.mp hd).1, ?_⟩
    unfold kindIn at hk
    cases hf : (tableOf d.2).find? (fun e => e.1 == s) with
    | none => rw [hf] at hk; simp at hk
    | some x =>
      rw [hf] at hk
      have h1 := List.find?_some hf
      have h2 := List.mem_of_find?_eq_some hf
      simp at h1 hk
      rw [← h1, ← hk]; exact h2
  have hparts : ∀ ps, PartsOk long short old (fishKindAt subcommands cmds ps) := by
    intro ps s k hk
    obtain ⟨d, hd, hm⟩ := hmem ps s k hk
    exact (hp d hd _ hm).2
  have hd : ∀ ps, NoDashes (fishKindAt subcommands cmds ps) := by
    intro ps
    unfold NoDashes
    cases hk : fishKindAt subcommands cmds ps ['-', '-'] with
    | none => rfl
    | some k =>
      obtain ⟨d, hd, hm⟩ := hmem ps _ k hk
      exact absurd rfl (hp d hd _ hm).1.2.1
  unfold fishQueryInit
  rw [fishLoop_congr (fun ps s hs => fishGetOption_eq subcommands cmds (fun d hd e he => (hp d hd e he).1) ps s hs),
    fishLoop_items hparts hd its _ hi, fishLoop_ending _ (hparts _) (hd _) _ (by simpa using hv)]
  simp
  rfl

/-- **C58 (one command)** Without subcommands, the options known are those of the command, whatever the
positionals. -/
theorem C58_single_command (pat : List FishComp) (options : List Opt) (ps : List Str) (s : Str) :
    fishKindAt false [(pat, options)] ps s = kindIn (tableOf options) s := by
  unfold fishKindAt
  simp


/-! ## Subcommands -/

theorem matchPositionals_append (a b : List FishComp) (ps : List Str) :
    matchPositionals (a ++ b) ps = (matchPositionals a ps && matchPositionals b (ps.drop a.length)) := by
  induction a generalizing ps with
  | nil => simp [matchPositionals]
  | cons x xs ih =>
    simp only [List.cons_append, matchPositionals, ih, List.length_cons, Bool.and_assoc]
    cases ps <;> simp

theorem matchPositionals_any (n : Nat) (ps : List Str) : matchPositionals (List.replicate n .any) ps = true := by
  induction n generalizing ps with
  | zero => rfl
  | succ n ih => simp [List.replicate_succ, matchPositionals, FishComp.matches, ih]

theorem headD_drop (ps : List Str) (n : Nat) : (ps.drop n).headD [] = ps.getD n [] := by
  induction n generalizing ps with
  | zero => cases ps <;> simp
  | succ n ih => cases ps with
    | nil => simp
    | cons p ps => simpa using ih ps

theorem sparseSet_end {α} (d : α) (r : List α) (i : Nat) (v : α) (h : r.length ≤ i) :
    sparseSet d r i v = r ++ List.replicate (i - r.length) d ++ [v] := by
  unfold sparseSet sparseExtend
  rw [if_pos h]
  have e1 : i + 1 - r.length = (i - r.length) + 1 := by omega
  rw [e1, List.replicate_succ', ← List.append_assoc]
  rw [List.set_append_right _ _ (by simp; omega)]
  have e2 : i - (r ++ List.replicate (i - r.length) d).length = 0 := by simp; omega
  rw [e2]; simp

theorem matchPositionals_set (r : List FishComp) (i : Nat) (ws : List Str) (h : r.length ≤ i) (ps : List Str) :
    matchPositionals (sparseSet .any r i (.words ws)) ps = true ↔
      matchPositionals r ps = true ∧ ps.getD i [] ∈ ws := by
  rw [sparseSet_end _ _ _ _ h, matchPositionals_append, matchPositionals_append, matchPositionals_any]
  have : r.length + (i - r.length) = i := by omega
  simp only [Bool.and_true, Bool.and_eq_true, List.length_append, List.length_replicate, this, matchPositionals,
    FishComp.matches, headD_drop]
  simp

theorem fishPatternGo_match {root : Cmd} (hc : CleanTreeM root) (ps : List Str) (rest : List Cmd) :
    ∀ (parents : List Cmd) (p : Cmd) (r : List FishComp), At root parents p → IsChain p rest →
      r.length ≤ (parents.map width).sum →
      (matchPositionals (fishPatternGo parents (p :: rest) r) ps = true ↔ matchPositionals r ps = true ∧
        ∀ pre q d post, p :: rest = pre ++ q :: d :: post →
          ∃ n, subSlot (parents ++ pre) q = some n ∧ ps.getD n [] ∈ variations q d) := by
  induction rest with
  | nil =>
    intro parents p r _ _ _
    simp only [fishPatternGo]
    constructor
    · intro h
      refine ⟨h, ?_⟩
      intro pre q d post he
      have := congrArg List.length he
      simp at this
      omega
    · exact fun h => h.1
  | cons c rest ih =>
    intro parents p r hat hch hr
    have hsome := hc.slot _ _ hat (fun e => by have := hch.1; rw [e] at this; simp at this)
    obtain ⟨k, hk⟩ := Option.isSome_iff_exists.mp hsome
    have hslot : subSlot parents p = some (positionalIndex parents (p.sub.getD 0)) := by
      unfold subSlot; rw [hk]; rfl
    have hidx := subSlot_eq (hc.numbered _ _ hat) hslot
    have hwp : 1 ≤ width p := by unfold width; rw [hk]; simp
    have hle : r.length ≤ positionalIndex parents (p.sub.getD 0) := by omega
    rw [fishPatternGo, ih _ _ _ (At.child hat hch.1) hch.2, matchPositionals_set _ _ _ hle]
    · constructor
      · rintro ⟨⟨h1, h2⟩, h3⟩
        refine ⟨h1, ?_⟩
        intro pre q d post he
        cases pre with
        | nil =>
          simp at he
          obtain ⟨rfl, rfl, -⟩ := he
          exact ⟨_, by simpa using hslot, h2⟩
        | cons x pre =>
          simp only [List.cons_append, List.cons.injEq] at he
          obtain ⟨rfl, he⟩ := he
          obtain ⟨n, h4, h5⟩ := h3 pre q d post he
          exact ⟨n, by simpa using h4, h5⟩
      · rintro ⟨h1, h2⟩
        refine ⟨⟨h1, ?_⟩, ?_⟩
        · obtain ⟨n, h4, h5⟩ := h2 [] p c rest rfl
          rw [List.append_nil, hslot] at h4
          have : positionalIndex parents (p.sub.getD 0) = n := by simpa using h4
          rw [this]; exact h5
        · intro pre q d post he
          obtain ⟨n, h4, h5⟩ := h2 (p :: pre) q d post (by simp [he])
          exact ⟨n, by simpa using h4, h5⟩
    · rw [sparseSet_length]
      simp; omega

theorem fishPatternGo_ne_nil (rest : List Cmd) : ∀ (parents : List Cmd) (p c : Cmd) (r : List FishComp),
    fishPatternGo parents (p :: c :: rest) r ≠ [] := by
  induction rest with
  | nil =>
    intro parents p c r h
    simp only [fishPatternGo] at h
    have := congrArg List.length h
    rw [sparseSet_length] at this
    simp at this
  | cons d rest ih =>
    intro parents p c r
    rw [fishPatternGo]
    exact ih _ _ _ _

/-- The pattern of a subcommand matches the positionals that select it. -/
theorem fishPattern_match {root : Cmd} (hc : CleanTreeM root) {parents : List Cmd} {c : Cmd} (hat : At root parents c)
    (ps : List Str) : matchPositionals (fishPattern parents c) ps = true ↔
      (parents = [] ∧ ps.headD [] = []) ∨ (parents ≠ [] ∧ ∀ pre p d post, parents ++ [c] = pre ++ p :: d :: post →
          ∃ n, subSlot pre p = some n ∧ ps.getD n [] ∈ variations p d) := by
  obtain ⟨rest, hr, hch⟩ := at_isChain hat
  unfold fishPattern
  rw [hr]
  have hm := fishPatternGo_match hc ps rest [] root [] At.root hch (by simp)
  cases rest with
  | nil =>
    have hpar : parents = [] := by
      have := congrArg List.length hr
      simpa using this
    subst hpar
    simp [fishPatternGo, matchPositionals, FishComp.matches]
  | cons x rest =>
    have hpar : parents ≠ [] := by
      intro e; subst e
      have := congrArg List.length hr
      simp at this
    have hne := fishPatternGo_ne_nil rest [] root x []
    cases h : fishPatternGo [] (root :: x :: rest) [] with
    | nil => exact absurd h hne
    | cons a b =>
      rw [h] at hm
      simp only [hm]
      simp [hpar, matchPositionals]

/-- The options of the commands of a tree with the patterns for Fish. -/
def fishTable (root : Cmd) : List (List FishComp × List Opt) :=
  (root.walk []).map (fun e => (fishPattern e.1 e.2, getOptions e.1 e.2 false false))

theorem fishTreeDefs_eq (root : Cmd) : fishTreeDefs root = fishDefs (fishTable root) := by
  unfold fishTreeDefs fishDefs fishTable
  rw [List.filter_map, List.map_map]
  rfl

/-- The commands whose options Fish knows after some positionals: the command reached and its parents,
nearest first; but the program itself only as long as there are no positionals. -/
def fishKnown (ps : List Str) (parents : List Cmd) (c : Cmd) : List Cmd :=
  if ps.headD [] = [] then c :: parents.reverse else (c :: parents.reverse).dropLast

theorem kindIn_perm_mem {t t' : List (Str × ArgKind)} (h : TableOk t) (h' : TableOk t')
    (hm : ∀ e, e ∈ t ↔ e ∈ t') (s : Str) : kindIn t s = kindIn t' s := by
  cases hk : kindIn t s with
  | some k => exact ((kindIn_iff h' _ _).mpr ((hm _).mp ((kindIn_iff h _ _).mp hk))).symm
  | none =>
    cases hk' : kindIn t' s with
    | none => rfl
    | some k =>
      rw [(kindIn_iff h _ _).mpr ((hm _).mpr ((kindIn_iff h' _ _).mp hk'))] at hk
      simp at hk

theorem ownOptions_mem {root : Cmd} {parents : List Cmd} {c : Cmd} (hat : At root parents c) (o : Opt) :
    o ∈ getOptions parents c false false ↔ o ∈ c.data.options := by
  constructor
  · intro h
    obtain ⟨pre, x, post, h1, h2, -⟩ := (C16_mem root parents c hat false false o).mp h
    simp only [searched, Bool.false_eq_true, if_false] at h1
    cases pre with
    | nil => simp at h1; rw [h1.1]; simpa [eligible] using h2
    | cons y pre =>
      have := congrArg List.length h1
      simp at this
  · exact C16_own root parents c hat false o

theorem ownTable_mem {root : Cmd} {parents : List Cmd} {c : Cmd} (hat : At root parents c) (e : Str × ArgKind) :
    e ∈ tableOf (getOptions parents c false false) ↔ e ∈ tableOf c.data.options := by
  unfold tableOf
  simp only [List.mem_flatMap, ownOptions_mem hat]

/-- **C58 (lookup, partial)** After positionals that reach a command, the options Fish knows are those of
the command, then those of its parents from the nearest on. Missing: the options of the program itself
are known only as long as there are no positionals, see `C58_global_option_lost`; the property wants
them to be known everywhere (`c :: parents.reverse` in place of `fishKnown ps parents c`). -/
theorem C58_lookup_partial (root : Cmd) (hc : CleanTree root)
    (ht : ∀ parents c, At root parents c → TableOk (tableOf c.data.options))
    (ps : List Str) (parents : List Cmd) (c : Cmd) (hr : Reached root ps parents c) (s : Str) :
    fishKindAt true (fishTable root) ps s =
      (fishKnown ps parents c).findSome? (fun x => kindIn (tableOf x.data.options) s) := by
  replace hr := (reached_iff hc _ _ _).mp hr
  replace hc := hc.toM
  have hat := reached_at hr
  obtain ⟨rest, hchain, hch⟩ := at_isChain hat
  have htab : ∀ e : List Cmd × Cmd, At root e.1 e.2 → kindIn (tableOf (getOptions e.1 e.2 false false)) s = kindIn (tableOf e.2.data.options) s := by
    intro e he
    have h1 := ht _ _ he
    refine kindIn_perm_mem ⟨?_, ?_⟩ h1 (ownTable_mem he) s
    · exact fun x hx => h1.plain x ((ownTable_mem he x).mp hx)
    · exact fun a k k' ha hb => h1.single a k k' ((ownTable_mem he _).mp ha) ((ownTable_mem he _).mp hb)
  -- the places whose pattern matches
  let P : List Cmd × Cmd → Bool := fun e => matchPositionals (fishPattern e.1 e.2) ps
  have hsub : ∀ e ∈ root.walk [], P e = true → e ∈ chainEntries [] (root :: rest) := by
    intro e he hp
    have hate := (mem_walk_iff root e.1 e.2).mp he
    rw [← hchain]
    rcases (fishPattern_match hc hate ps).mp hp with ⟨h1, -⟩ | ⟨-, h2⟩
    · obtain ⟨e1, e2⟩ := e
      simp only at h1 hate
      subst h1
      have : e2 = root := by
        generalize hz : ([] : List Cmd) = z at hate
        cases hate with
        | root => rfl
        | child _ _ => simp at hz
      subst this
      rw [hchain]; simp [chainEntries]
    · obtain ⟨post, hpost⟩ := reached_unique hc hr hate h2
      rw [hpost]
      have := chainEntries_mem [] e.1 e.2 post
      simpa using this
  have hfilter : (root.walk []).filter P = (chainEntries [] (root :: rest)).filter P :=
    walk_filter_chain P rest [] root hch
      (fun e he => hc.names _ _ ((mem_walk_iff root e.1 e.2).mp he)) hsub
  have hrootP : P ([], root) = decide (ps.headD [] = []) := by
    have := fishPattern_match hc (At.root (root := root)) ps
    simp only [true_and, ne_eq, not_true_eq_false, false_and, or_false] at this
    cases hP : P ([], root) with
    | true => exact (decide_eq_true (this.mp hP)).symm
    | false =>
      have : ¬ ps.headD [] = [] := fun e => by have := this.mpr e; simp only [P] at hP; rw [hP] at this; simp at this
      exact (decide_eq_false this).symm
  have hrestP : ∀ e ∈ chainEntries [root] rest, P e = true := by
    intro e he
    obtain ⟨pre, post, h1, h2⟩ := mem_chainEntries he
    have hate : At root e.1 e.2 := at_prefix hat e (by rw [hchain]; exact List.mem_cons_of_mem _ he)
    refine (fishPattern_match hc hate ps).mpr (Or.inr ⟨by rw [h2]; simp, ?_⟩)
    intro pr p d po heq
    obtain ⟨n, w, h3, h4, h5⟩ := reached_words hr pr p d (po ++ post) (by
      rw [hchain, h1]
      have : root :: (pre ++ e.2 :: post) = (e.1 ++ [e.2]) ++ post := by rw [h2]; simp
      rw [this, heq]; simp)
    exact ⟨n, h3, by rw [List.getD_eq_getElem?_getD, h4]; exact h5⟩
  have hentries : ∀ (ps cs : List Cmd), (chainEntries ps cs).map (·.2) = cs := by
    intro ps cs
    induction cs generalizing ps with
    | nil => rfl
    | cons x xs ih => simp [chainEntries, ih]
  have hres : ((root.walk []).filter P).map (·.2) = (fishKnown ps parents c).reverse := by
    rw [hfilter]
    have e1 : chainEntries [] (root :: rest) = ([], root) :: chainEntries [root] rest := rfl
    rw [e1, List.filter_cons, hrootP, List.filter_eq_self.mpr hrestP]
    have e2 : c :: parents.reverse = (root :: rest).reverse := by rw [← hchain]; simp
    unfold fishKnown
    rw [e2]
    by_cases hh : ps.headD [] = []
    · rw [if_pos hh, if_pos (by simpa using hh)]; simp [hentries]
    · rw [if_neg hh, if_neg (by simpa using hh)]; simp [hentries]
  unfold fishKindAt fishTable
  rw [← List.map_reverse, List.filter_map, List.findSome?_map]
  have e3 : ((fun d : List FishComp × List Opt => !true || matchPositionals d.1 ps) ∘
      fun e : List Cmd × Cmd => (fishPattern e.1 e.2, getOptions e.1 e.2 false false)) = P := by
    funext e; simp [P]
  rw [e3, List.filter_reverse]
  have e4 : fishKnown ps parents c = (((root.walk []).filter P).map (·.2)).reverse := by rw [hres]; simp
  rw [e4, ← List.map_reverse, List.findSome?_map]
  have hmem : ∀ e ∈ ((root.walk []).filter P).reverse, At root e.1 e.2 := by
    intro e he
    exact (mem_walk_iff root e.1 e.2).mp (List.mem_filter.mp (List.mem_reverse.mp he)).1
  generalize ((root.walk []).filter P).reverse = l at hmem
  induction l with
  | nil => rfl
  | cons e l ih =>
    simp only [List.findSome?_cons, Function.comp]
    rw [htab e (hmem e (by simp))]
    rw [ih (fun x hx => hmem x (by simp [hx]))]

/-- The options of the program are not known any more after the subcommand: for a program with the
option `--file FILE` and the subcommand `run`, the Fish parser takes `prog run --file x` to be the flag
`--file` and the positionals `run`, `x`. Before the subcommand it is read correctly. -/
theorem C58_global_option_lost :
    let run : Cmd := .node { prog := S "run" } none []
    let root : Cmd := .node { prog := S "prog", options := [{ strings := [S "--file"], complete := some [] }] } (some 1) [run]
    fishQueryInit true false false true (fishTreeDefs root) [S "run", S "--file", S "x"] =
      ⟨[(S "--file", [])], [S "run", S "x"], []⟩ ∧
    fishQueryInit true false false true (fishTreeDefs root) [S "--file", S "x", S "run"] =
      ⟨[(S "--file", S "x")], [S "run"], []⟩ := by decide

/-- A case of `C58_lookup_partial`: the option `-o FILE` of the subcommand `run` with alias `r` is known
after `prog x r`, where the program takes one positional before the subcommand. -/
theorem C58_example :
    let run : Cmd := .node { prog := S "run", aliases := [S "r"], options := [{ strings := [S "-o"], complete := some [] }] }
      none []
    let root : Cmd := .node { prog := S "prog", positionals := [{ number := 1 }] } (some 2) [run]
    CleanTree root ∧ Reached root [S "x", S "r"] [root] run ∧
    fishKindAt true (fishTable root) [S "x", S "r"] (S "-o") = some .required := by
  intro run root
  have hall : ∀ parents c, At root parents c → c = root ∨ c = run := by
    intro parents c h
    induction h with
    | root => exact Or.inl rfl
    | @child parents c d _ hd ih =>
      rcases ih with rfl | rfl
      · right; simpa [root, Cmd.children] using hd
      · simp [run, Cmd.children] at hd
  refine ⟨⟨?_, ?_, ?_, ?_, ?_⟩, ?_, by decide⟩
  · intro parents c h d hd e he w _ _
    rcases hall _ _ h with rfl | rfl
    · simp [root, Cmd.children] at hd he; rw [hd, he]
    · simp [run, Cmd.children] at hd
  · intro parents c h d hd
    rcases hall _ _ h with rfl | rfl
    · simp [root, Cmd.children] at hd; subst hd; decide
    · simp [run, Cmd.children] at hd
  · intro parents c h
    rcases hall _ _ h with rfl | rfl <;> decide
  · intro parents c h n hn
    rcases hall _ _ h with rfl | rfl
    · simp [root, Cmd.sub] at hn; subst hn; decide
    · simp [run, Cmd.sub] at hn
  · intro parents c h hne
    rcases hall _ _ h with rfl | rfl
    · rfl
    · simp [run, Cmd.children] at hne
  · have h1 : Reached root ([] ++ [S "x"]) [] root := Reached.word _ Reached.start (by decide)
    exact Reached.sub (c := root) (d := run) h1 (by decide) (by simp [root, Cmd.children]) (Or.inr (Or.inl (by decide)))

end CC
