import Verif.Lemmas.ZshScript
import Verif.Lemmas.Choices
/-!
# C70, C71, C72: what the Zsh script completes
-/

namespace CC

open ShellGrammar WhenSpec ZshArgs

/-! ## C70: the function that completes -/

theorem zshScript_functions {isRegex : Str → Bool} {act : ZshActions} {root : Cmd} {fs : List ((List Cmd × Cmd) × ZshFunction)}
    (h : zshScript isRegex act root = .ok fs) (qs : List Cmd) (x : Cmd) (hx : At root qs x) :
    ∃ f, zshFunction isRegex act qs x = .ok f := by
  unfold zshScript at h
  obtain ⟨a1, -, -⟩ := mapE_mem h
  obtain ⟨y, -, hy⟩ := a1 (qs, x) ((mem_walk_iff root qs x).mpr hx)
  obtain ⟨f, hf, -⟩ := bind_ok hy
  exact ⟨f, hf⟩

theorem zsh_run {isRegex : Str → Bool} {act : ZshActions} (rx : Bool → Str → Str → Bool) {root : Cmd} (hc : CleanTree root)
    (hp : PlainTree root) {kind : List Cmd → Cmd → Str → Option ArgKind} (hk : TellsKinds root kind)
    {fs : List ((List Cmd × Cmd) × ZshFunction)} (hs : zshScript isRegex act root = .ok fs)
    {its : List Item} {e : Ending} {parents : List Cmd} {c : Cmd} (ht : TypedFor root kind its e parents c)
    {q : Str → Str} {raws : List Str} (hraw : raws.map q = its.flatMap Item.words ++ e.words)
    (hq : ∀ pre w post, raws = pre ++ w :: post → q w = ['-', '-'] → post.map q = post) :
    At root parents c ∧ ∃ f p, zshFunction isRegex act parents c = .ok f ∧
      zshComplete isRegex act rx root q raws = .ok ⟨parents, c, p, f.elements rx p⟩ ∧
      ∀ opts, f.init = some opts → p = zshQueryOf root opts q raws := by
  have hat := reached_at ((reached_iff hc _ _ _).mp ht.reached)
  obtain ⟨f, hf⟩ := zshScript_functions hs parents c hat
  have hroot : ∃ rest, parents ++ [c] = [] ++ root :: rest := by
    cases hat with
    | root => exact ⟨[], rfl⟩
    | @child qs x d hx hd =>
      have h0 : ∀ {qs : List Cmd} {x : Cmd}, At root qs x → ∃ rest, qs ++ [x] = root :: rest := by
        intro qs x h
        induction h with
        | root => exact ⟨[], rfl⟩
        | @child qs x d _ _ ih => obtain ⟨rest, hr⟩ := ih; exact ⟨rest ++ [d], by rw [hr]; simp⟩
      obtain ⟨rest, hr⟩ := h0 hx
      exact ⟨rest ++ [c], by rw [hr]; simp⟩
  obtain ⟨rest, hrest⟩ := hroot
  obtain ⟨p0, hr⟩ := zshRun_reached (rx := rx) hc hp hk (fun qs x hx => zshScript_functions hs qs x hx) ht hraw hq hf rest [] root {} hrest
  refine ⟨hat, f, _, hf, hr, ?_⟩
  intro opts ho
  rw [ho]; rfl

/-- **C70 (dispatch, partial)** For every tree and command line, the script ends in the function of the command that the
words belong to; and if that function parses the command line, it knows the options with their arguments and the
positionals that were typed. The words are all that are on the command line, also the one at the cursor and those after
it. Missing: see `C70_kind_changes`, `C70_not_parsed` and `C70_cursor_counts`. -/
theorem C70_dispatch_partial (isRegex : Str → Bool) (act : ZshActions) (rx : Bool → Str → Str → Bool) (root : Cmd) (hc : CleanTree root)
    (hp : PlainTree root) (kind : List Cmd → Cmd → Str → Option ArgKind) (hk : TellsKinds root kind)
    (fs : List ((List Cmd × Cmd) × ZshFunction)) (hs : zshScript isRegex act root = .ok fs)
    (its : List Item) (e : Ending) (parents : List Cmd) (c : Cmd) (ht : TypedFor root kind its e parents c)
    (q : Str → Str) (raws : List Str) (hraw : raws.map q = its.flatMap Item.words ++ e.words)
    (hq : ∀ pre w post, raws = pre ++ w :: post → q w = ['-', '-'] → post.map q = post) :
    ∃ r, zshComplete isRegex act rx root q raws = .ok r ∧ r.parents = parents ∧ r.cmd = c ∧
      (c.data.wraps = none → ParsesLine isRegex parents c →
        r.parsed.having = (lineOf its e).given ∧ r.parsed.positionals = (lineOf its e).positionals) := by
  obtain ⟨hat, f, p, hf, hr, hi⟩ := zsh_run rx hc hp hk hs ht hraw hq
  refine ⟨_, hr, rfl, rfl, fun hwr hpl => ?_⟩
  rcases init_of_parses hat (fun w h => by rw [hwr] at h; cases h) hf with h | ⟨-, h⟩
  · simp only [hi _ h]
    exact query_all hp hk hat ht.items ht.ending hraw hq
  · exact absurd hpl h

/-- The elements that `_arguments` gets, for a command line. -/
theorem zsh_complete_elements {isRegex : Str → Bool} {act : ZshActions} (rx : Bool → Str → Str → Bool) {root : Cmd} (hc : CleanTree root)
    (hp : PlainTree root) {kind : List Cmd → Cmd → Str → Option ArgKind} (hk : TellsKinds root kind)
    {fs : List ((List Cmd × Cmd) × ZshFunction)} (hs : zshScript isRegex act root = .ok fs)
    {its : List Item} {e : Ending} {parents : List Cmd} {c : Cmd} (ht : TypedFor root kind its e parents c)
    {q : Str → Str} {raws : List Str} (hraw : raws.map q = its.flatMap Item.words ++ e.words)
    (hq : ∀ pre w post, raws = pre ++ w :: post → q w = ['-', '-'] → post.map q = post)
    (hr : ReadableZsh act parents c) (hw : WhensSafe isRegex parents c)
    (hpl : ParsesLine isRegex parents c ∨ ∀ w, ¬ ConditionHere parents c w) :
    ∃ r els, zshComplete isRegex act rx root q raws = .ok r ∧ ReadsAs r.elements els ∧
      ElementsOf isRegex rx act (lineOf its e) parents c els := by
  obtain ⟨hat, f, p, hf, hrun, hi⟩ := zsh_run rx hc hp hk hs ht hraw hq
  rcases init_of_parses hat hr.wraps hf with h | ⟨-, h⟩
  · have hp0 := hi _ h
    obtain ⟨h1, h2⟩ := query_all hp hk hat ht.items ht.ending hraw hq
    rw [← hp0] at h1 h2
    obtain ⟨els, e1, e2⟩ := zsh_elements (rx := rx) hat hr hw hf (p := p) (l := lineOf its e) h1 h2
    exact ⟨_, els, hrun, e1, e2⟩
  · have hno : ∀ w, ¬ ConditionHere parents c w := hpl.resolve_left h
    obtain ⟨els, e1, e2⟩ := zsh_elements (rx := rx) hat hr hw hf (p := p) (l := ⟨p.having, p.positionals⟩) rfl rfl
    have key : ∀ l l' : Line, ∀ w : Option Str, (∀ t, w = some t → ConditionHere parents c t) →
        WhenTrueOf isRegex rx l w → WhenTrueOf isRegex rx l' w := by
      intro l l' w hc _ t ht
      exact absurd (hc t ht) (hno t)
    have ho : ∀ x o, Nearest (zshScope parents c) x o → ∀ t, o.when_ = some t → ConditionHere parents c t :=
      fun x o hn t ht => Or.inl ⟨x, o, hn, ht⟩
    have hpo : ∀ qs x rest, parents ++ [c] = qs ++ x :: rest → ∀ p ∈ x.data.positionals, ∀ t, p.when_ = some t → ConditionHere parents c t :=
      fun qs x rest he p hp t ht => Or.inr ⟨x, by rw [he]; simp, p, hp, ht⟩
    refine ⟨_, els, hrun, e1, ⟨?_, ?_, ?_, ?_, ?_⟩⟩
    · intro sp hsp
      obtain ⟨x, o, s, k1, k2, k3, k4⟩ := e2.options sp hsp
      exact ⟨x, o, s, k1, key _ _ _ (ho x o k1) k2, k3, k4⟩
    · intro x o s k1 k2 k3
      exact e2.option x o s k1 (key _ _ _ (ho x o k1) k2) k3
    · intro n hn
      obtain ⟨qs, x, rest, he, k⟩ := e2.normals n hn
      refine ⟨qs, x, rest, he, ?_⟩
      rcases k with ⟨p, hp, k2, k3⟩ | k
      · exact Or.inl ⟨p, hp, key _ _ _ (hpo qs x rest he p hp) k2, k3⟩
      · exact Or.inr k
    · intro qs x rest he p hp k2
      exact e2.positional qs x rest he p hp (key _ _ _ (hpo qs x rest he p hp) k2)
    · exact e2.subcommands

/-! ## C71: options -/

/-- If the option `q` of `y` is on the command line, the option string `s` is not offered. -/
def RulesOutString (y : Cmd) (q : Opt) (s : Str) : Prop :=
  q.final = true ∨ (∃ other ∈ y.data.options, ShareGroup q other ∧ other.eqv q = false ∧ s ∈ other.strings) ∨
    (q.repeatable = .val false ∧ s ∈ q.strings)

theorem simple_not {s : Str} (h : SimpleOption s) : s ≠ ['-'] ∧ s ≠ ['*'] := by
  constructor
  · rintro rfl; have := h.2.1; simp at this
  · rintro rfl; have := h.1; simp at this

theorem rulesOut_iff {x : Cmd} {o : Opt} {g : Str} {sp : Spec} (hsp : OptionSpec x o g sp) (hg : g ∈ o.strings)
    (hsimple : ∀ q ∈ x.data.options, ∀ s ∈ q.strings, SimpleOption s) (ho : o ∈ x.data.options) (s : Str) (hs : SimpleOption s) :
    (sp.rulesOut s ∨ sp.rulesOut ['-']) ↔ RulesOutString x o s := by
  unfold Spec.rulesOut RulesOutString
  cases hf : o.final with
  | true =>
    simp only [hsp.final hf, true_or, iff_true]
    exact Or.inr (Or.inl (by simp [S]))
  | false =>
    have hex := hsp.excludes hf
    constructor
    · rintro ((h | ⟨h1, rfl⟩) | (h | ⟨-, h⟩))
      · rcases (hex s).mp h with h | ⟨h1, h2⟩
        · exact Or.inr (Or.inl h)
        · exact Or.inr (Or.inr ⟨h2, h1⟩)
      · rw [hsp.repeated] at h1
        rw [hsp.name]
        exact Or.inr (Or.inr ⟨by simpa using h1, hg⟩)
      · exfalso
        rcases (hex ['-']).mp h with ⟨other, h1, -, -, h2⟩ | ⟨h1, -⟩
        · exact (simple_not (hsimple other h1 _ h2)).1 rfl
        · exact (simple_not (hsimple o ho _ h1)).1 rfl
      · exfalso
        rw [hsp.name] at h
        exact (simple_not (hsimple o ho _ hg)).1 h.symm
    · rintro (h | h | ⟨h1, h2⟩)
      · cases h
      · exact Or.inl (Or.inl ((hex s).mpr (Or.inl h)))
      · exact Or.inl (Or.inl ((hex s).mpr (Or.inr ⟨h2, h1⟩)))

theorem not_rulesOut_star {x : Cmd} {o : Opt} {g : Str} {sp : Spec} (hsp : OptionSpec x o g sp) (hg : g ∈ o.strings)
    (hsimple : ∀ q ∈ x.data.options, ∀ s ∈ q.strings, SimpleOption s) (ho : o ∈ x.data.options) (hf : o.final = false) :
    ¬ sp.rulesOut ['*'] := by
  rintro (h | ⟨-, h⟩)
  · rcases (hsp.excludes hf _).mp h with ⟨other, h1, -, -, h2⟩ | ⟨h1, -⟩
    · exact (simple_not (hsimple other h1 _ h2)).2 rfl
    · exact (simple_not (hsimple o ho _ h1)).2 rfl
  · rw [hsp.name] at h
    exact (simple_not (hsimple o ho _ hg)).2 h.symm

theorem nearest_mem {cmds : List Cmd} {x : Cmd} {o : Opt} (h : Nearest cmds x o) : x ∈ cmds ∧ o ∈ x.data.options := by
  obtain ⟨l1, l2, rfl, ho, -⟩ := h
  exact ⟨by simp, ho⟩

theorem offers_iff {isRegex : Str → Bool} {rx : Bool → Str → Str → Bool} {act : ZshActions} {l : Line} {parents : List Cmd} {c : Cmd}
    {els : List Element} (h : ElementsOf isRegex rx act l parents c els) (hr : ReadableZsh act parents c) (given : List Str) (s : Str) :
    Offers els given s ↔
      (∃ x o, Nearest (zshScope parents c) x o ∧ s ∈ o.strings ∧ o.hidden = false ∧ WhenTrueOf isRegex rx l o.when_) ∧
      ∀ y q, Nearest (zshScope parents c) y q → WhenTrueOf isRegex rx l q.when_ → (∃ g ∈ q.strings, g ∈ given) →
        ¬ RulesOutString y q s := by
  have hsimple : ∀ x ∈ zshScope parents c, ∀ q ∈ x.data.options, ∀ s ∈ q.strings, SimpleOption s :=
    fun x hx q hq => (hr.options x hx q hq).simple
  constructor
  · rintro ⟨⟨sp, h1, h2, h3⟩, h4⟩
    obtain ⟨x, o, t, hn, hw, hto, hsp⟩ := h.options sp h1
    have hst : t = s := hsp.name.symm.trans h2
    subst hst
    have hs := hsimple x (nearest_mem hn).1 o (nearest_mem hn).2 t hto
    refine ⟨⟨x, o, hn, hto, by rw [← hsp.hidden]; exact h3, hw⟩, ?_⟩
    rintro y q hnq hwq ⟨g, hg, hgiven⟩ hro
    obtain ⟨sq, hsq, hspec⟩ := h.option y q g hnq hwq hg
    have h5 := h4 sq hsq (by rw [hspec.name]; exact hgiven)
    rcases (rulesOut_iff hspec hg (hsimple y (nearest_mem hnq).1) (nearest_mem hnq).2 t hs).mpr hro with h6 | h6
    · exact h5.1 h6
    · exact h5.2 h6
  · rintro ⟨⟨x, o, hn, hto, hh, hw⟩, h4⟩
    have hs := hsimple x (nearest_mem hn).1 o (nearest_mem hn).2 s hto
    obtain ⟨sp, h1, hsp⟩ := h.option x o s hn hw hto
    refine ⟨⟨sp, h1, hsp.name, by rw [hsp.hidden]; exact hh⟩, ?_⟩
    intro sq hsq hgiven
    obtain ⟨y, q, g, hnq, hwq, hg, hspec⟩ := h.options sq hsq
    have h5 := h4 y q hnq hwq ⟨g, hg, by rw [← hspec.name]; exact hgiven⟩
    have := mt (rulesOut_iff hspec hg (hsimple y (nearest_mem hnq).1) (nearest_mem hnq).2 s hs).mp h5
    exact ⟨fun h => this (Or.inl h), fun h => this (Or.inr h)⟩

/-- **C71 (exact, partial)** For every tree and command line: `_arguments` can read the words that it gets from the
script and, if the options `given` are on the command line, offers an option string exactly if it belongs to a visible
option of the command or (if the command itself has `inherit_options`) of a parent, whose condition is true, unless a
visible option that was given is final, shares a group with an option with that string, or is not repeatable and has
that string. -/
theorem C71_offers_partial (isRegex : Str → Bool) (act : ZshActions) (rx : Bool → Str → Str → Bool) (root : Cmd) (hc : CleanTree root)
    (hp : PlainTree root) (kind : List Cmd → Cmd → Str → Option ArgKind) (hk : TellsKinds root kind)
    (fs : List ((List Cmd × Cmd) × ZshFunction)) (hs : zshScript isRegex act root = .ok fs)
    (its : List Item) (e : Ending) (parents : List Cmd) (c : Cmd) (ht : TypedFor root kind its e parents c)
    (q : Str → Str) (raws : List Str) (hraw : raws.map q = its.flatMap Item.words ++ e.words)
    (hq : ∀ pre w post, raws = pre ++ w :: post → q w = ['-', '-'] → post.map q = post)
    (hr : ReadableZsh act parents c) (hw : WhensSafe isRegex parents c)
    (hpl : ParsesLine isRegex parents c ∨ ∀ w, ¬ ConditionHere parents c w) :
    ∃ r els, zshComplete isRegex act rx root q raws = .ok r ∧ ReadsAs r.elements els ∧ ∀ given s,
      Offers els given s ↔
        (∃ x o, Nearest (zshScope parents c) x o ∧ s ∈ o.strings ∧ o.hidden = false ∧ WhenTrueOf isRegex rx (lineOf its e) o.when_) ∧
        ∀ y q, Nearest (zshScope parents c) y q → WhenTrueOf isRegex rx (lineOf its e) q.when_ → (∃ g ∈ q.strings, g ∈ given) →
          ¬ RulesOutString y q s := by
  obtain ⟨r, els, h1, h2, h3⟩ := zsh_complete_elements rx hc hp hk hs ht hraw hq hr hw hpl
  exact ⟨r, els, h1, h2, fun given s => offers_iff h3 hr given s⟩

/-- Conditions under which the options that Zsh offers are those that may be given, in the command `c`. `l` is the whole
command line and `before` the part before the cursor. -/
structure ZshAgrees (isRegex : Str → Bool) (rx : Bool → Str → Str → Bool) (parents : List Cmd) (c : Cmd) (l before : Line) : Prop where
  /-- The command inherits options, in the sense of Zsh, if and only if all its parents pass them on. -/
  inherit : ∀ y ∈ parents, Inherits y ↔ c.data.inheritOptions ≠ .val false
  /-- An option string belongs to one option. -/
  single : ∀ x ∈ parents ++ [c], ∀ y ∈ parents ++ [c], ∀ o ∈ x.data.options, ∀ q ∈ y.data.options, ∀ s ∈ o.strings, s ∈ q.strings →
    x = y ∧ o = q
  /-- What stands at the cursor and after it does not change conditions. -/
  conditions : ∀ w, ConditionHere parents c w → (WhenTrueOf isRegex rx l (some w) ↔ WhenTrueOf isRegex rx before (some w))
  /-- An option that was given has a true condition. -/
  given : ∀ x ∈ zshScope parents c, ∀ o ∈ x.data.options, GivenIn before o → WhenTrueOf isRegex rx before o.when_
  /-- A final option that was given is one that the command has or inherits. -/
  final : ∀ f, FinalHere parents c f → GivenIn before f → ∃ x ∈ zshScope parents c, f ∈ x.data.options
  /-- The arguments of a command that is a positional have not begun. -/
  arguments : ∀ p ∈ c.data.positionals, IsCommandArg p → before.positionals.length < PosPlace parents p

theorem simple_isOption {s : Str} (h : SimpleOption s) : IsOption s := by
  obtain ⟨h1, h2, h3, h4⟩ := h
  refine ⟨by rintro rfl; simp at h3, ?_⟩
  match s, h1, h2, h4 with
  | a :: b :: r, h1, h2, h4 =>
    simp at h1
    subst h1
    refine ⟨b, r, rfl, fun x hx => ?_⟩
    have hx' := h4 x (List.mem_cons_of_mem _ hx)
    refine ⟨isSafe_not_space (plain_char hx').1, ?_⟩
    rintro rfl
    revert hx'; decide

theorem key_shares {a b : Opt} (h : a.key = b.key) (ha : ∀ s ∈ a.strings, SimpleOption s) (hb : ∀ s ∈ b.strings, SimpleOption s)
    (hna : a.strings ≠ []) (hnb : b.strings ≠ []) : ∃ s ∈ a.strings, s ∈ b.strings := by
  have hok : ∀ o : Opt, (∀ s ∈ o.strings, SimpleOption s) → o.strings ≠ [] → ({ strings := o.strings } : Opt).check = true := by
    intro o h hne
    have : o.strings.all isValidOptionString = true := by
      rw [List.all_eq_true]
      intro s hs
      exact (isValidOptionString_iff s).mpr (simple_isOption (h s hs))
    cases hs : o.strings with
    | nil => exact absurd hs hne
    | cons x xs =>
      rw [hs] at this
      simp [Opt.check, this, captureOk, truthyList]
  obtain ⟨s, r, hs⟩ := List.exists_cons_of_ne_nil hna
  have := (C16_key { strings := a.strings } { strings := b.strings } (hok a ha hna) (hok b hb hnb)).mp h
  exact ⟨s, by simp [hs], this.subset (by simp [hs])⟩

theorem optEqv_symm {a b : Opt} (h : a.eqv b = false) : b.eqv a = false := by
  rw [Opt.eqv_comm]; exact h

theorem scope_sub {parents : List Cmd} {c x : Cmd} (h : x ∈ zshScope parents c) : x ∈ parents ++ [c] := by
  unfold zshScope at h
  split at h
  · simp at h; simp [h]
  · exact h

theorem nearest_of_mem {isRegex : Str → Bool} {rx : Bool → Str → Str → Bool} {act : ZshActions} {root : Cmd} {parents : List Cmd} {c : Cmd}
    {l before : Line} (hat : At root parents c) (hr : ReadableZsh act parents c) (ha : ZshAgrees isRegex rx parents c l before) {x : Cmd}
    {o : Opt} (hx : x ∈ zshScope parents c) (ho : o ∈ x.data.options) : Nearest (zshScope parents c) x o := by
  obtain ⟨l1, l2, he⟩ := List.append_of_mem hx
  refine ⟨l1, l2, he, ho, ?_⟩
  intro y hy q hq hk
  have hys : y ∈ zshScope parents c := by rw [he]; simp [hy]
  have r1 := hr.options x hx o ho
  have r2 := hr.options y hys q hq
  obtain ⟨s, h1, h2⟩ := key_shares hk r2.simple r1.simple r2.nonempty r1.nonempty
  obtain ⟨rfl, rfl⟩ := ha.single y (scope_sub hys) x (scope_sub hx) q hq o ho s h1 h2
  have hd := scope_distinct hat
  rw [he] at hd
  simp only [List.reverse_append, List.reverse_cons, List.append_assoc] at hd
  have := (List.pairwise_append.mp hd).2.2 y (by simp [hy]) y (by simp)
  rw [Cmd.eqv_refl] at this
  exact absurd this.1 (by simp)

theorem scope_iff {isRegex : Str → Bool} {rx : Bool → Str → Str → Bool} {parents : List Cmd} {c : Cmd} {l before : Line}
    (ha : ZshAgrees isRegex rx parents c l before) (x : Cmd) :
    x ∈ zshScope parents c ↔ ∃ e ∈ inheritedFrom parents c, e.2 = x := by
  unfold zshScope
  by_cases hi : c.data.inheritOptions = .val false
  · rw [if_pos hi, List.mem_singleton]
    constructor
    · rintro rfl; exact ⟨(parents, x), mem_inheritedFrom.mpr (Or.inl rfl), rfl⟩
    · rintro ⟨e, he, rfl⟩
      rcases mem_inheritedFrom.mp he with rfl | ⟨hin, rest, hne, heq⟩
      · rfl
      · exfalso
        have hsplit : e.1 ++ e.2 :: rest = (e.1 ++ e.2 :: rest.dropLast) ++ [rest.getLast hne] := by
          simp [List.dropLast_concat_getLast]
        rw [hsplit] at heq
        have hp := (List.append_inj' heq rfl).1
        exact (ha.inherit e.2 (by rw [hp]; simp)).mp hin hi
  · rw [if_neg hi]
    constructor
    · intro hx
      rcases List.mem_append.mp hx with hx | hx
      · obtain ⟨l1, l2, he⟩ := List.append_of_mem hx
        refine ⟨(l1, x), mem_inheritedFrom.mpr (Or.inr ⟨(ha.inherit x hx).mpr hi, l2 ++ [c], by simp, by simp [he]⟩), rfl⟩
      · simp at hx; subst hx
        exact ⟨(parents, x), mem_inheritedFrom.mpr (Or.inl rfl), rfl⟩
    · rintro ⟨e, he, rfl⟩
      rcases mem_inheritedFrom.mp he with rfl | ⟨-, rest, -, heq⟩
      · simp
      · rw [heq]; simp

theorem givenIn_iff (l : Line) (o : Opt) : GivenIn l o ↔ ∃ g ∈ o.strings, g ∈ l.given.map (·.1) := by
  unfold GivenIn
  constructor
  · rintro ⟨s, hs, v, hv⟩; exact ⟨s, hs, List.mem_map.mpr ⟨(s, v), hv, rfl⟩⟩
  · rintro ⟨s, hs, hg⟩
    obtain ⟨⟨a, v⟩, hv, rfl⟩ := List.mem_map.mp hg
    exact ⟨a, hs, v, hv⟩

/-- **C71 (partial)** Under the conditions of `ZshAgrees`, Zsh offers exactly the strings of the options that may still be
given, as Fish does (C68): those of the command and of the parents that pass their options on. Missing: see
`C71_child_inherits`, `C71_false_condition`, `C71_final_of_parent` and `C70_cursor_counts`. -/
theorem C71_may_be_given_partial (isRegex : Str → Bool) (act : ZshActions) (rx : Bool → Str → Str → Bool) (root : Cmd) (hc : CleanTree root)
    (hp : PlainTree root) (kind : List Cmd → Cmd → Str → Option ArgKind) (hk : TellsKinds root kind)
    (fs : List ((List Cmd × Cmd) × ZshFunction)) (hs : zshScript isRegex act root = .ok fs)
    (its : List Item) (e : Ending) (parents : List Cmd) (c : Cmd) (ht : TypedFor root kind its e parents c)
    (q : Str → Str) (raws : List Str) (hraw : raws.map q = its.flatMap Item.words ++ e.words)
    (hq : ∀ pre w post, raws = pre ++ w :: post → q w = ['-', '-'] → post.map q = post)
    (hr : ReadableZsh act parents c) (hw : WhensSafe isRegex parents c)
    (hpl : ParsesLine isRegex parents c ∨ ∀ w, ¬ ConditionHere parents c w)
    (before : Line) (ha : ZshAgrees isRegex rx parents c (lineOf its e) before) :
    ∃ r els, zshComplete isRegex act rx root q raws = .ok r ∧ ReadsAs r.elements els ∧ ∀ s,
      Offers els (before.given.map (·.1)) s ↔
        ∃ x ∈ inheritedFrom parents c, ∃ o ∈ x.2.data.options, s ∈ o.strings ∧
          MayBeGiven isRegex rx (fun _ => false) before parents c x.2 o := by
  obtain ⟨r, els, h1, h2, h3⟩ := C71_offers_partial isRegex act rx root hc hp kind hk fs hs its e parents c ht q raws hraw hq hr hw hpl
  have hat := reached_at ((reached_iff hc _ _ _).mp ht.reached)
  refine ⟨r, els, h1, h2, fun s => ?_⟩
  rw [h3]
  have hwhen : ∀ x o, Nearest (zshScope parents c) x o →
      (WhenTrueOf isRegex rx (lineOf its e) o.when_ ↔ WhenTrueOf isRegex rx before o.when_) := by
    intro x o hn
    cases hwo : o.when_ with
    | none => simp [WhenTrueOf]
    | some w => exact ha.conditions w (Or.inl ⟨x, o, hn, hwo⟩)
  constructor
  · rintro ⟨⟨x, o, hn, hso, hh, hwo⟩, hall⟩
    obtain ⟨hx, ho⟩ := nearest_mem hn
    obtain ⟨en, hen, rfl⟩ := (scope_iff ha x).mp hx
    have hgiven : ∀ y ∈ zshScope parents c, ∀ q ∈ y.data.options, GivenIn before q → ¬ RulesOutString y q s := by
      intro y hy q hq hg
      have hnq := nearest_of_mem hat hr ha hy hq
      exact hall y q hnq ((hwhen y q hnq).mpr (ha.given y hy q hq hg)) ((givenIn_iff _ _).mp hg)
    refine ⟨en, hen, o, ho, hso, ⟨?_, ?_, ?_, ?_, (hwhen _ o hn).mp hwo, ha.arguments⟩⟩
    · intro f hf hg
      obtain ⟨y, hy, hfy⟩ := ha.final f hf hg
      exact hgiven y hy f hfy hg (Or.inl hf.1)
    · rintro y hy ⟨g, ga, gb, e1, e2, e3, e4⟩ hne hg
      exact hgiven en.2 hx y hy hg (Or.inr (Or.inl ⟨o, ho, ⟨g, gb, ga, e2, e1, e4, e3⟩, optEqv_symm hne, hso⟩))
    · intro hrep hg
      exact hgiven en.2 hx o ho hg (Or.inr (Or.inr ⟨hrep, hso⟩))
    · intro h; rw [hh] at h; cases h
  · rintro ⟨en, hen, o, ho, hso, hm⟩
    have hx : en.2 ∈ zshScope parents c := (scope_iff ha _).mpr ⟨en, hen, rfl⟩
    have hn := nearest_of_mem hat hr ha hx ho
    refine ⟨⟨en.2, o, hn, hso, ?_, (hwhen _ o hn).mpr hm.when_⟩, ?_⟩
    · cases hh : o.hidden with
      | false => rfl
      | true => have := hm.hidden hh; cases this
    · intro y q hnq hwq hg hro
      obtain ⟨hy, hqy⟩ := nearest_mem hnq
      have hgiv := (givenIn_iff _ _).mpr hg
      rcases hro with hf | ⟨other, ho', hgr, hne, hs'⟩ | ⟨hrep, hs'⟩
      · refine hm.final q ⟨hf, ?_⟩ hgiv
        rcases List.mem_append.mp (scope_sub hy) with hyp | hyc
        · exact Or.inr ⟨y, hyp, hqy⟩
        · simp at hyc; subst hyc; exact Or.inl hqy
      · obtain ⟨rfl, rfl⟩ := ha.single _ (scope_sub hx) y (scope_sub hy) o ho other ho' s hso hs'
        obtain ⟨g, ga, gb, e1, e2, e3, e4⟩ := hgr
        exact hm.group q hqy ⟨g, gb, ga, e2, e1, e4, e3⟩ (optEqv_symm hne) hgiv
      · obtain ⟨-, rfl⟩ := ha.single _ (scope_sub hx) y (scope_sub hy) o ho q hqy s hso hs'
        exact hm.again hrep hgiv

/-! ## C72: positionals and subcommands -/

/-- The place after `n` positionals is that of a positional of `x` that is not repeatable and whose condition is true, or
that of a subcommand of `x`. -/
def PlaceTaken (isRegex : Str → Bool) (rx : Bool → Str → Str → Bool) (l : Line) (qs : List Cmd) (x : Cmd) (n : Nat) : Prop :=
  (∃ p ∈ x.data.positionals, p.repeatable = false ∧ PosHere qs p n ∧ WhenTrueOf isRegex rx l p.when_) ∨ SubPlace qs x n

theorem sub_of_next {root : Cmd} (hc : CleanTree root) {parents : List Cmd} {c : Cmd} (hat : At root parents c) {qs : List Cmd} {x : Cmd}
    {rest : List Cmd} (he : parents ++ [c] = qs ++ x :: rest) (hne : rest ≠ []) : ∃ n, SubPlace qs x n := by
  obtain ⟨d, r, rfl⟩ := List.exists_cons_of_ne_nil hne
  obtain ⟨h1, h2⟩ := at_step hat he
  exact ⟨_, hc.slot _ _ h1 (List.ne_nil_of_mem h2), rfl⟩

theorem other_places {root : Cmd} (hc : CleanTree root) {parents : List Cmd} {c : Cmd} {ps : List Str} {qs : List Cmd} {x : Cmd}
    {rest : List Cmd} (hat : At root parents c) (he : parents ++ [c] = qs ++ x :: rest) (hrx : Reached root ps qs x) {rs : List Cmd} {y : Cmd}
    {rest' : List Cmd} (he' : parents ++ [c] = rs ++ y :: rest') (hne : (rs, y) ≠ (qs, x)) :
    (∀ p ∈ y.data.positionals, PosPlace rs p ≠ ps.length) ∧ ∀ n, SubPlace rs y n → n ≠ ps.length := by
  have hsplit := he.symm.trans he'
  have later : ∀ a, rs = qs ++ x :: a → (∀ p ∈ y.data.positionals, PosPlace rs p ≠ ps.length) ∧ ∀ n, SubPlace rs y n → n ≠ ps.length := by
    intro a ha
    have hre : rest ≠ [] := by
      rintro rfl
      rw [ha] at hsplit
      have := congrArg List.length hsplit
      simp at this
    obtain ⟨m, hm⟩ := sub_of_next hc hat he hre
    have h1 := current_place hc hrx hm
    have h2 := subPlace_width hm
    have h3 : ((qs ++ [x]).map width).sum ≤ (rs.map width).sum := width_mono ⟨a, by rw [ha]; simp⟩
    refine ⟨fun p _ => ?_, ?_⟩
    · unfold PosPlace; omega
    · rintro n ⟨-, hn⟩; omega
  have earlier : ∀ a, qs = rs ++ y :: a → (∀ p ∈ y.data.positionals, PosPlace rs p ≠ ps.length) ∧ ∀ n, SubPlace rs y n → n ≠ ps.length := by
    intro a ha
    have hre : rest' ≠ [] := by
      rintro rfl
      rw [ha] at hsplit
      have := congrArg List.length hsplit
      simp at this
    obtain ⟨m, hm⟩ := sub_of_next hc hat he' hre
    have h1 := passed_place hc hrx (qs := rs) (x := y) (rest := a ++ [x]) (by rw [ha]; simp) (by simp) hm
    refine ⟨fun p hp => ?_, ?_⟩
    · have h2 := le_highest y.data.positionals p hp
      obtain ⟨-, hm⟩ := hm
      unfold PosPlace; omega
    · rintro n ⟨-, hn⟩
      obtain ⟨-, hm⟩ := hm
      omega
  rcases List.append_eq_append_iff.mp hsplit with ⟨a, ha1, ha2⟩ | ⟨a, ha1, ha2⟩
  · cases a with
    | nil =>
      simp only [List.append_nil] at ha1
      simp only [List.nil_append, List.cons.injEq] at ha2
      exact absurd (by rw [ha1, ha2.1]) hne
    | cons b a =>
      simp only [List.cons_append, List.cons.injEq] at ha2
      exact later a (by rw [ha1, ha2.1])
  · cases a with
    | nil =>
      simp only [List.append_nil] at ha1
      simp only [List.nil_append, List.cons.injEq] at ha2
      exact absurd (by rw [ha1, ha2.1]) hne
    | cons b a =>
      simp only [List.cons_append, List.cons.injEq] at ha2
      exact earlier a (by rw [ha1, ha2.1])

theorem num_decimal (qs : List Cmd) (k n : Nat) : natStr (positionalNum qs k) = decimal (n + 1) ↔ positionalIndex qs k = n := by
  constructor
  · intro h
    have := natStr_inj (a := positionalNum qs k) (b := n + 1) h
    unfold positionalNum at this
    omega
  · intro h; unfold positionalNum; rw [h]; rfl

/-- **C72 (partial)** For every tree and command line: let the words before the cursor belong to the command `x`, which
is `c` or one of its parents (if the words at the cursor and after it select subcommands). Then `_arguments` completes the
word at the cursor with a positional of `x` whose place it is and whose condition is true, or with the names of the
subcommands of `x`, if it is their place; and with each of these. Missing: see `C72_star_early` and `C72_two_stars`; after
a final option (`hfin`) nothing is said. -/
theorem C72_positionals_partial (isRegex : Str → Bool) (act : ZshActions) (rx : Bool → Str → Str → Bool) (root : Cmd) (hc : CleanTree root)
    (hp : PlainTree root) (kind : List Cmd → Cmd → Str → Option ArgKind) (hk : TellsKinds root kind)
    (fs : List ((List Cmd × Cmd) × ZshFunction)) (hs : zshScript isRegex act root = .ok fs)
    (its : List Item) (e : Ending) (parents : List Cmd) (c : Cmd) (ht : TypedFor root kind its e parents c)
    (q : Str → Str) (raws : List Str) (hraw : raws.map q = its.flatMap Item.words ++ e.words)
    (hq : ∀ pre w post, raws = pre ++ w :: post → q w = ['-', '-'] → post.map q = post)
    (hr : ReadableZsh act parents c) (hw : WhensSafe isRegex parents c)
    (hpl : ParsesLine isRegex parents c ∨ ∀ w, ¬ ConditionHere parents c w)
    (before : Line) (qs : List Cmd) (x : Cmd) (rest : List Cmd) (hx : parents ++ [c] = qs ++ x :: rest)
    (hbx : Reached root before.positionals qs x)
    (hfin : ∀ y o, Nearest (zshScope parents c) y o → o.final = true → ¬ GivenIn before o)
    (hlast : ∀ p ∈ x.data.positionals, p.repeatable = true → PosHere qs p before.positionals.length →
      ¬ PlaceTaken isRegex rx (lineOf its e) qs x before.positionals.length)
    (hstars : ¬ PlaceTaken isRegex rx (lineOf its e) qs x before.positionals.length →
      ∀ rs y rest', parents ++ [c] = rs ++ y :: rest' → ∀ p ∈ y.data.positionals, p.repeatable = true →
        (rs, y) = (qs, x) ∧ PosHere qs p before.positionals.length) :
    ∃ r els, zshComplete isRegex act rx root q raws = .ok r ∧ ReadsAs r.elements els ∧
      (∀ a, Completes els (before.given.map (·.1)) (before.positionals.length + 1) a →
        (∃ p ∈ x.data.positionals, PosHere qs p before.positionals.length ∧ WhenTrueOf isRegex rx (lineOf its e) p.when_ ∧
          a.message = positionalMessage p ∧ Posix.words (act.positional p) = some [a.action]) ∨
        (SubPlace qs x before.positionals.length ∧ Posix.words (act.choices (subNames x)) = some [a.action])) ∧
      (∀ p ∈ x.data.positionals, PosHere qs p before.positionals.length → WhenTrueOf isRegex rx (lineOf its e) p.when_ →
        ∃ a, Completes els (before.given.map (·.1)) (before.positionals.length + 1) a ∧
          a.message = positionalMessage p ∧ Posix.words (act.positional p) = some [a.action]) ∧
      (SubPlace qs x before.positionals.length →
        ∃ a, Completes els (before.given.map (·.1)) (before.positionals.length + 1) a ∧
          Posix.words (act.choices (subNames x)) = some [a.action]) := by
  obtain ⟨r, els, h1, h2, h3⟩ := zsh_complete_elements rx hc hp hk hs ht hraw hq hr hw hpl
  have hat := reached_at ((reached_iff hc _ _ _).mp ht.reached)
  have hatx := reached_at ((reached_iff hc _ _ _).mp hbx)
  refine ⟨r, els, h1, h2, ?_, ?_, ?_⟩
  · rintro a ⟨ha, hnum⟩
    obtain ⟨rs, y, rest', hy, k⟩ := h3.normals a ha
    rcases k with ⟨p, hp, hwp, hn⟩ | ⟨m, j, hm, hn⟩
    · cases hrep : p.repeatable with
      | false =>
        have hnumber := hn.number
        rw [hrep] at hnumber
        rcases hnum with hnum | ⟨hnum, -⟩
        · rw [hnumber] at hnum
          simp only [Bool.false_eq_true, if_false, Option.some.injEq] at hnum
          have hplace := (num_decimal rs p.number _).mp hnum
          rw [posPlace_eq] at hplace
          have hxy : (rs, y) = (qs, x) := by
            refine Classical.byContradiction fun hne => ?_
            exact (other_places hc hat hx hbx hy hne).1 p hp hplace
          cases hxy
          refine Or.inl ⟨p, hp, ?_, hwp, hn.message, hn.action⟩
          unfold PosHere
          rw [hrep]; exact hplace
        · rw [hnumber] at hnum; simp at hnum
      | true =>
        have hnumber := hn.number
        rw [hrep] at hnumber
        rcases hnum with hnum | ⟨-, hnone, -⟩
        · rw [hnumber] at hnum; simp at hnum
        · have hnt : ¬ PlaceTaken isRegex rx (lineOf its e) qs x before.positionals.length := by
            rintro (⟨p', hp', hrep', hh, hw'⟩ | hsub)
            · obtain ⟨b, hb, hbn⟩ := h3.positional qs x rest hx p' hp' hw'
              refine hnone b hb ?_
              rw [hbn.number, hrep']
              simp only [Bool.false_eq_true, if_false, Option.some.injEq]
              rw [num_decimal, posPlace_eq]
              unfold PosHere at hh
              rw [hrep'] at hh
              simpa using hh
            · obtain ⟨m, hm⟩ := Option.isSome_iff_exists.mp hsub.1
              obtain ⟨b, j, hb, hbn⟩ := h3.subcommands qs x rest hx m hm
              refine hnone b hb ?_
              rw [hbn.number]
              simp only [Bool.false_eq_true, if_false, Option.some.injEq]
              rw [num_decimal]
              have hsl : subSlot qs x = some (positionalIndex qs m) := by simp [subSlot, hm]
              have := (subSlot_iff (hc.numbered _ _ hatx) _).mp hsl
              exact this.2.trans hsub.2.symm
          obtain ⟨hxy, hh⟩ := hstars hnt rs y rest' hy p hp hrep
          cases hxy
          exact Or.inl ⟨p, hp, hh, hwp, hn.message, hn.action⟩
    · have hnumber := hn.number
      simp only [Bool.false_eq_true, if_false] at hnumber
      rcases hnum with hnum | ⟨hnum, -⟩
      · rw [hnumber] at hnum
        simp only [Option.some.injEq] at hnum
        have hplace := (num_decimal rs m _).mp hnum
        have haty : At root rs y := at_prefix hat (rs, y) (by
          rw [hy]
          have := chainEntries_mem [] rs y rest'
          simpa using this)
        have hsl : subSlot rs y = some (positionalIndex rs m) := by simp [subSlot, hm]
        have hsp := (subSlot_iff (hc.numbered _ _ haty) _).mp hsl
        rw [hplace] at hsp
        have hxy : (rs, y) = (qs, x) := by
          refine Classical.byContradiction fun hne => ?_
          exact (other_places hc hat hx hbx hy hne).2 _ hsp rfl
        cases hxy
        exact Or.inr ⟨hsp, hn.action⟩
      · rw [hnumber] at hnum; simp at hnum
  · intro p hp hh hwp
    obtain ⟨a, ha, hn⟩ := h3.positional qs x rest hx p hp hwp
    refine ⟨a, ⟨ha, ?_⟩, hn.message, hn.action⟩
    cases hrep : p.repeatable with
    | false =>
      left
      rw [hn.number, hrep]
      simp only [Bool.false_eq_true, if_false, Option.some.injEq]
      rw [num_decimal, posPlace_eq]
      unfold PosHere at hh
      rw [hrep] at hh
      simpa using hh
    | true =>
      right
      have hnt := hlast p hp hrep hh
      refine ⟨by rw [hn.number, hrep]; rfl, ?_, ?_⟩
      · intro b hb hbnum
        obtain ⟨rs, y, rest', hy, k⟩ := h3.normals b hb
        rcases k with ⟨p', hp', hw', hn'⟩ | ⟨m, j, hm, hn'⟩
        · cases hrep' : p'.repeatable with
          | true => rw [hn'.number, hrep'] at hbnum; simp at hbnum
          | false =>
            rw [hn'.number, hrep'] at hbnum
            simp only [Bool.false_eq_true, if_false, Option.some.injEq] at hbnum
            have hplace := (num_decimal rs p'.number _).mp hbnum
            rw [posPlace_eq] at hplace
            have hxy : (rs, y) = (qs, x) := by
              refine Classical.byContradiction fun hne => ?_
              exact (other_places hc hat hx hbx hy hne).1 p' hp' hplace
            cases hxy
            refine hnt (Or.inl ⟨p', hp', hrep', ?_, hw'⟩)
            unfold PosHere
            rw [hrep']; exact hplace
        · rw [hn'.number] at hbnum
          simp only [Bool.false_eq_true, if_false, Option.some.injEq] at hbnum
          have hplace := (num_decimal rs m _).mp hbnum
          have haty : At root rs y := at_prefix hat (rs, y) (by
            rw [hy]
            have := chainEntries_mem [] rs y rest'
            simpa using this)
          have hsl : subSlot rs y = some (positionalIndex rs m) := by simp [subSlot, hm]
          have hsp := (subSlot_iff (hc.numbered _ _ haty) _).mp hsl
          rw [hplace] at hsp
          have hxy : (rs, y) = (qs, x) := by
            refine Classical.byContradiction fun hne => ?_
            exact (other_places hc hat hx hbx hy hne).2 _ hsp rfl
          cases hxy
          exact hnt (Or.inr hsp)
      · intro sp hsp hgiven
        obtain ⟨y, o, g, hno, hwo, hg, hspec⟩ := h3.options sp hsp
        obtain ⟨hy, ho⟩ := nearest_mem hno
        have hgi : GivenIn before o := (givenIn_iff _ _).mpr ⟨g, hg, by rw [← hspec.name]; exact hgiven⟩
        have hff : o.final = false := by
          cases hff : o.final with
          | false => rfl
          | true => exact absurd hgi (hfin y o hno hff)
        exact not_rulesOut_star hspec hg (fun q hq => (hr.options y hy q hq).simple) ho hff
  · intro hsub
    obtain ⟨m, hm⟩ := Option.isSome_iff_exists.mp hsub.1
    obtain ⟨a, j, ha, hn⟩ := h3.subcommands qs x rest hx m hm
    refine ⟨a, ⟨ha, Or.inl ?_⟩, hn.action⟩
    rw [hn.number]
    simp only [Bool.false_eq_true, if_false, Option.some.injEq]
    rw [num_decimal]
    have hsl : subSlot qs x = some (positionalIndex qs m) := by simp [subSlot, hm]
    have := (subSlot_iff (hc.numbered _ _ hatx) _).mp hsl
    exact this.2.trans hsub.2.symm

/-! ## Where the script is wrong -/

/-- Actions for examples. -/
def exampleActions : ZshActions := ⟨fun _ => S "_files", fun _ => S "_files", fun _ => S "_subcommands"⟩

/-- Read specs that Zsh does not expand. -/
def readSpecs : List Str → Option (List Element)
  | [] => some []
  | t :: ts => match Posix.words t with
    | some [w] => match readElement w, readSpecs ts with
      | some e, some es => some (e :: es)
      | _, _ => none
    | _ => none

theorem readSpecs_spec : ∀ (ts : List Str) (els : List Element), readSpecs ts = some els → ReadsAs ts els
  | [], els, h => by simp only [readSpecs, Option.some.injEq] at h; subst h; exact .nil
  | t :: ts, els, h => by
    simp only [readSpecs] at h
    split at h
    · rename_i w hw
      split at h
      · rename_i e es he hes
        simp only [Option.some.injEq] at h
        subst h
        exact .cons (es := [e]) (.one w hw) (by simp [he]) (readSpecs_spec ts es hes)
      · cases h
    · cases h

/-- What `_arguments` gets for some words, in examples. -/
def zshShown (root : Cmd) (words : List Str) : Option (List Element) :=
  match zshComplete (fun _ => true) exampleActions (fun _ _ _ => false) root id words with
  | .ok r => readSpecs r.elements
  | .error _ => none

theorem zshShown_spec {root : Cmd} {words : List Str} {els : List Element} (h : zshShown root words = some els) :
    ∃ r, zshComplete (fun _ => true) exampleActions (fun _ _ _ => false) root id words = .ok r ∧ ReadsAs r.elements els := by
  unfold zshShown at h
  split at h
  · rename_i r hr; exact ⟨r, hr, readSpecs_spec _ _ h⟩
  · cases h

/-- `Offers` as a test. -/
def offersTest (els : List Element) (given : List Str) (name : Str) : Bool :=
  els.any (fun e => match e with | .option s => decide (s.name = name) && !s.hidden | .normal _ => false) &&
  els.all (fun e => match e with
    | .option s => !given.contains s.name ||
        (!(s.excludes.contains name || (!s.repeated && decide (name = s.name))) &&
         !(s.excludes.contains ['-'] || (!s.repeated && decide (['-'] = s.name))))
    | .normal _ => true)

theorem offersTest_iff (els : List Element) (given : List Str) (name : Str) : offersTest els given name = true ↔ Offers els given name := by
  unfold offersTest Offers Spec.rulesOut
  rw [Bool.and_eq_true, List.any_eq_true, List.all_eq_true]
  refine and_congr ?_ ?_
  · constructor
    · rintro ⟨e, he, h⟩
      cases e with
      | normal n => simp at h
      | option s => simp at h; exact ⟨s, he, h⟩
    · rintro ⟨s, hs, h1, h2⟩; exact ⟨.option s, hs, by simp [h1, h2]⟩
  · constructor
    · intro h s hs hg
      have := h _ hs
      cases hr : s.repeated <;> simpa [hg, hr] using this
    · intro h e he
      cases e with
      | normal n => rfl
      | option s =>
        by_cases hg : s.name ∈ given
        · have := h s he hg
          cases hr : s.repeated <;> simpa [hg, hr] using this
        · simp [hg]

/-- `Completes` as a test. -/
def completesTest (els : List Element) (given : List Str) (n : Nat) (a : Normal) : Bool :=
  els.contains (.normal a) && (decide (a.number = some (decimal n)) ||
    (decide (a.number = none) && els.all (fun e => match e with | .normal b => decide (b.number ≠ some (decimal n)) | .option _ => true) &&
      els.all (fun e => match e with
        | .option s => !given.contains s.name || !(s.excludes.contains ['*'] || (!s.repeated && decide (['*'] = s.name)))
        | .normal _ => true)))

theorem completesTest_iff (els : List Element) (given : List Str) (n : Nat) (a : Normal) :
    completesTest els given n a = true ↔ Completes els given n a := by
  unfold completesTest Completes Spec.rulesOut
  rw [Bool.and_eq_true, Bool.or_eq_true, Bool.and_eq_true, Bool.and_eq_true, List.all_eq_true, List.all_eq_true, and_assoc]
  refine and_congr (by simp) (or_congr (by simp) (and_congr (by simp) (and_congr ?_ ?_)))
  · constructor
    · intro h b hb; simpa using h _ hb
    · intro h e he
      cases e with
      | option s => rfl
      | normal b => simpa using h b he
  · constructor
    · intro h s hs hg
      have := h _ hs
      cases hr : s.repeated <;> simpa [hg, hr] using this
    · intro h e he
      cases e with
      | normal n => rfl
      | option s =>
        by_cases hg : s.name ∈ given
        · have := h s he hg
          cases hr : s.repeated <;> simpa [hg, hr] using this
        · simp [hg]

/-- Which option strings of a list are offered, in examples. -/
def zshOffered (root : Cmd) (words given names : List Str) : Option (List Str) :=
  (zshShown root words).map (fun els => names.filter (offersTest els given))

/-- Whether what `zshOffered` shows is offered. -/
theorem zshOffered_spec {root : Cmd} {words given names out : List Str} (h : zshOffered root words given names = some out) :
    ∃ r els, zshComplete (fun _ => true) exampleActions (fun _ _ _ => false) root id words = .ok r ∧ ReadsAs r.elements els ∧
      ∀ s ∈ names, Offers els given s ↔ s ∈ out := by
  unfold zshOffered at h
  obtain ⟨els, h1, rfl⟩ := Option.map_eq_some_iff.mp h
  obtain ⟨r, hr, hre⟩ := zshShown_spec h1
  refine ⟨r, els, hr, hre, fun s hs => ?_⟩
  rw [List.mem_filter, offersTest_iff]
  exact ⟨fun h => ⟨hs, h⟩, fun h => h.2⟩

/-- The messages of the normal arguments that complete the `n`th one, in examples. -/
def zshMessages (root : Cmd) (words given : List Str) (n : Nat) : Option (List Str) :=
  (zshShown root words).map (fun els => els.filterMap (fun e => match e with
    | .normal a => if completesTest els given n a then some a.message else none
    | .option _ => none))

theorem zshMessages_spec {root : Cmd} {words given : List Str} {n : Nat} {out : List Str} (h : zshMessages root words given n = some out) :
    ∃ r els, zshComplete (fun _ => true) exampleActions (fun _ _ _ => false) root id words = .ok r ∧ ReadsAs r.elements els ∧
      ∀ m, (∃ a, Completes els given n a ∧ a.message = m) ↔ m ∈ out := by
  unfold zshMessages at h
  obtain ⟨els, h1, rfl⟩ := Option.map_eq_some_iff.mp h
  obtain ⟨r, hr, hre⟩ := zshShown_spec h1
  refine ⟨r, els, hr, hre, fun m => ?_⟩
  rw [List.mem_filterMap]
  constructor
  · rintro ⟨a, ha, rfl⟩
    exact ⟨.normal a, ha.1, by simp [(completesTest_iff _ _ _ _).mpr ha]⟩
  · rintro ⟨e, he, h⟩
    cases e with
    | option s => simp at h
    | normal a =>
      simp only at h
      split at h
      · rename_i hc
        simp only [Option.some.injEq] at h
        exact ⟨a, (completesTest_iff _ _ _ _).mp hc, h⟩
      · cases h

/-- The names of the commands on the way to the command whose function completes, in examples. -/
def zshReached (root : Cmd) (words : List Str) : Option (List Str) :=
  (zshComplete (fun _ => true) exampleActions (fun _ _ _ => false) root id words).toOption.map
    (fun r => (r.parents ++ [r.cmd]).map (·.data.prog))

/-- A subcommand with an option of its parent's name but without argument changes how the words before it are
read: `prog --level 3 run go` is completed as `prog run`, while `prog run go` is completed as `go`. -/
theorem C70_kind_changes :
    let go : Cmd := .node { prog := S "go", inheritOptions := .val true } none []
    let run : Cmd := .node { prog := S "run", inheritOptions := .val true, options :=
      [{ strings := [S "--level"], repeatable := .val false, longSep := .both }] } (some 1) [go]
    let root : Cmd := .node { prog := S "prog", inheritOptions := .val true, options :=
      [{ strings := [S "--level"], complete := some [.str (S "none")], repeatable := .val false, longSep := .both }] } (some 1) [run]
    zshReached root [S "run", S "go"] = some [S "prog", S "run", S "go"] ∧
    zshReached root [S "--level", S "3", S "run", S "go"] = some [S "prog", S "run"] := by decide +kernel

/-- The condition on positionals does not make the function parse the command line: `--force`, which makes sense if the
first positional is `a`, is not offered after `a`. With a condition on an option elsewhere it is. -/
theorem C70_not_parsed :
    let force : Opt := { strings := [S "--force"], when_ := some (S "positional_contains 1 a"), repeatable := .val false, longSep := .both }
    let other : Opt := { strings := [S "--other"], when_ := some (S "has_option --force"), repeatable := .val false, longSep := .both }
    let root : Cmd := .node { prog := S "prog", inheritOptions := .val false, options := [force] } none []
    let root' : Cmd := .node { prog := S "prog", inheritOptions := .val false, options := [force, other] } none []
    zshOffered root [S "a"] [] [S "--force"] = some [] ∧ zshOffered root' [S "a"] [] [S "--force"] = some [S "--force"] := by decide +kernel

/-- The word at the cursor counts as a positional, even if it is empty: `--last`, which makes sense with at most one
positional, is offered after `prog a` but not if another, empty word has been begun. -/
theorem C70_cursor_counts :
    let root : Cmd := .node { prog := S "prog", inheritOptions := .val false, options :=
      [{ strings := [S "--last"], when_ := some (S "! has_option --other && ! positional_count '>' 1"), repeatable := .val false, longSep := .both },
       { strings := [S "--other"], repeatable := .val false, longSep := .both }] } none []
    zshOffered root [S "a"] [] [S "--last"] = some [S "--last"] ∧ zshOffered root [S "a", []] [] [S "--last"] = some [] := by decide +kernel

/-- Whether a subcommand sees the options of its parents depends on its own `inherit_options`: in `prog run`, `-v` of the
program, which passes its options on, is not offered; and `prog run` shows `-v`, if the subcommand passes its own
options on and the program does not. -/
theorem C71_child_inherits :
    let prog (a b : Bool) : Cmd := .node { prog := S "prog", inheritOptions := .val a, options :=
      [{ strings := [S "-v"], repeatable := .val false, longSep := .both }] } (some 1)
        [.node { prog := S "run", inheritOptions := .val b } none []]
    zshOffered (prog true false) [S "run", []] [] [S "-v"] = some [] ∧
    zshOffered (prog false true) [S "run", []] [] [S "-v"] = some [S "-v"] ∧
    fishOffered (prog true false) [S "run"] = [S "-v"] ∧ fishOffered (prog false true) [S "run"] = [] := by decide +kernel

/-- An option that was given although its condition is false does not exclude others: `--b` is offered after `--a`, which
excludes it. -/
theorem C71_false_condition :
    let root (w : Str) : Cmd := .node { prog := S "prog", inheritOptions := .val false, options :=
      [{ strings := [S "--a"], groups := some [S "g"], when_ := some w, repeatable := .val false, longSep := .both },
       { strings := [S "--b"], groups := some [S "g"], repeatable := .val false, longSep := .both },
       { strings := [S "--c"], repeatable := .val false, longSep := .both }] } none []
    zshOffered (root (S "has_option --c")) [S "--a"] [S "--a"] [S "--a", S "--b"] = some [S "--b"] ∧
    zshOffered (root (S "! has_option --c")) [S "--a"] [S "--a"] [S "--a", S "--b"] = some [] := by decide +kernel

/-- A final option of a program that does not pass its options on does not end the options of subcommands: `-f` is
offered after `prog --help run`. -/
theorem C71_final_of_parent :
    let run : Cmd := .node { prog := S "run", inheritOptions := .val false, options :=
      [{ strings := [S "-f"], repeatable := .val false, longSep := .both }] } none []
    let root : Cmd := .node { prog := S "prog", inheritOptions := .val false, options :=
      [{ strings := [S "--help"], final := true, repeatable := .val false, longSep := .both }] } (some 1) [run]
    zshOffered root [S "--help", S "run", []] [S "--help"] [S "-f"] = some [S "-f"] := by decide +kernel

/-- A repeatable positional is completed before its place, if the positional before it has a condition that is false. -/
theorem C72_star_early :
    let root : Cmd := .node { prog := S "prog", inheritOptions := .val false, options :=
      [{ strings := [S "-f"], repeatable := .val false, longSep := .both }], positionals :=
      [{ number := 1, metavar := some (S "MODE"), when_ := some (S "has_option -f") }, { number := 2, metavar := some (S "FILE"), repeatable := true }] } none []
    zshMessages root [[]] [] 1 = some [S "FILE"] ∧ zshMessages root [S "-f", []] [S "-f"] 1 = some [S "MODE"] := by decide +kernel

/-- With repeatable positionals of a program and of its subcommand, words after the subcommand are completed as both. -/
theorem C72_two_stars :
    let run : Cmd := .node { prog := S "run", inheritOptions := .val false, positionals :=
      [{ number := 1, metavar := some (S "HOST"), repeatable := true }] } none []
    let root : Cmd := .node { prog := S "prog", inheritOptions := .val false, positionals :=
      [{ number := 1, metavar := some (S "FILE"), repeatable := true }] } (some 2) [run]
    zshMessages root [S "a", S "run", []] [] 3 = some [S "FILE", S "HOST"] := by decide +kernel

/-- The kinds are told by the tables of the functions, if no option string has two kinds in one. -/
theorem tells_kinds {root : Cmd} (h : ∀ parents c, At root parents c → TableOk (tableOf (getOptions parents c true false))) :
    TellsKinds root (fun parents c => kindIn (tableOf (getOptions parents c true false))) := by
  intro parents c hat s k
  rw [kindIn_iff (h _ _ hat), mem_table hat]

/-- A case of the theorems: a program with the options `-v`, `--quiet` and `--loud`, of which the latter two exclude each
other, and the subcommand `run` with alias `r`, the option `--out FILE` and the option `--force`, which makes sense
only with `--out`. For the words `prog --quiet r --out x` and an empty word at the cursor, the options `-v` and
`--force` are offered, and the positional of `run` is completed. -/
theorem C70_example :
    let run : Cmd := .node { prog := S "run", aliases := [S "r"], inheritOptions := .val true, positionals := [{ number := 1, metavar := some (S "FILE") }], options :=
      [{ strings := [S "--out"], complete := some [.str (S "file")], repeatable := .val false, longSep := .both },
       { strings := [S "--force"], when_ := some (S "has_option --out"), repeatable := .val false, longSep := .both }] } none []
    let root : Cmd := .node { prog := S "prog", inheritOptions := .val true, options :=
      [{ strings := [S "-v"], repeatable := .val true, longSep := .both }, { strings := [S "--quiet"], groups := some [S "g"], repeatable := .val false, longSep := .both },
       { strings := [S "--loud"], groups := some [S "g"], repeatable := .val false, longSep := .both }] } (some 1) [run]
    let kind := fun parents c => kindIn (tableOf (getOptions parents c true false))
    let its := [Item.word (S "--quiet"), .pos (S "r"), .sep (S "--out") (S "x")]
    let here := its ++ [Item.pos []]
    let before := lineOf its .done
    let isRegex := fun _ : Str => true
    let rx := fun (_ : Bool) (_ _ : Str) => false
    CleanTree root ∧ PlainTree root ∧ TellsKinds root kind ∧ (∃ fs, zshScript isRegex exampleActions root = .ok fs) ∧
    TypedFor root kind here .done [root] run ∧ ReadableZsh exampleActions [root] run ∧ WhensSafe isRegex [root] run ∧
    ParsesLine isRegex [root] run ∧ ZshAgrees isRegex rx [root] run (lineOf here .done) before ∧
    Reached root before.positionals [root] run ∧
    (∀ y o, Nearest (zshScope [root] run) y o → o.final = true → ¬ GivenIn before o) ∧
    (∀ y ∈ [root, run], ∀ p ∈ y.data.positionals, p.repeatable = false) ∧
    zshOffered root (here.flatMap Item.words) (before.given.map (·.1)) [S "-v", S "--quiet", S "--loud", S "--out", S "--force"] = some [S "-v", S "--force"] ∧
    zshMessages root (here.flatMap Item.words) (before.given.map (·.1)) 2 = some [S "FILE"] ∧
    zshMessages root (here.flatMap Item.words) (before.given.map (·.1)) 1 = some [S "command1"] := by
  intro run root kind its here before isRegex rx
  have hall : ∀ parents c, At root parents c → (parents = [] ∧ c = root) ∨ (parents = [root] ∧ c = run) := by
    intro parents c h
    induction h with
    | root => exact Or.inl ⟨rfl, rfl⟩
    | @child parents c d _ hd ih =>
      rcases ih with ⟨rfl, rfl⟩ | ⟨rfl, rfl⟩
      · right; exact ⟨rfl, by simpa [root, Cmd.children] using hd⟩
      · simp [run, Cmd.children] at hd
  have hoo : ∀ c, c = root ∨ c = run → ∀ o ∈ c.data.options, o.strings ≠ [] ∧ o.final = false ∧ o.longSep = .both ∧ o.help = none ∧ o.metavar = none ∧
      ∀ s ∈ o.strings, (isValidOptionString s = true ∧ '=' ∉ s) ∧ s.head? = some '-' ∧ 2 ≤ s.length ∧ s.getLast? ≠ some '-' ∧
        ∀ c ∈ s, c.isAlphanum = true ∨ c = '-' ∨ c = '_' ∨ c = '.' := by
    intro c h
    rcases h with rfl | rfl <;> decide +kernel
  have hwhen : ∀ c, c = root ∨ c = run → ∀ o ∈ c.data.options, ∀ t, o.when_ = some t → t = S "has_option --out" ∧ o.strings = [S "--force"] := by
    intro c h o ho t ht
    rcases h with rfl | rfl
    · simp [root, Cmd.data] at ho
      rcases ho with rfl | rfl | rfl <;> simp at ht
    · simp [run, Cmd.data] at ho
      rcases ho with rfl | rfl
      · simp at ht
      · exact ⟨by simpa using ht.symm, rfl⟩
  have hpos : ∀ c, c = root ∨ c = run → ∀ p ∈ c.data.positionals, p.when_ = none ∧ p.repeatable = false ∧ ¬ IsCommandArg p ∧ positionalMessage p = S "FILE" := by
    intro c h p hp
    rcases h with rfl | rfl
    · simp [root, Cmd.data] at hp
    · simp [run, Cmd.data] at hp; subst hp; unfold IsCommandArg; decide
  have htwo : ∀ c, c ∈ [root] ++ [run] ↔ c = root ∨ c = run := by simp
  have hscope : zshScope [root] run = [root] ++ [run] := rfl
  have hparse : (parseWhen isRegex (S "has_option --out")).toOption = some [.cmd (.hasOption [S "--out"])] := by decide +kernel
  have hparse' : parseWhen isRegex (S "has_option --out") = .ok [.cmd (.hasOption [S "--out"])] := by
    cases h : parseWhen isRegex (S "has_option --out") with
    | error e => rw [h] at hparse; simp [Except.toOption] at hparse
    | ok ts => rw [h] at hparse; simp only [Except.toOption, Option.some.injEq] at hparse; rw [hparse]
  have hcond : ∀ w, ConditionHere [root] run w → w = S "has_option --out" := by
    rintro w (⟨x, o, hn, hw⟩ | ⟨x, hx, p, hp, hw⟩)
    · obtain ⟨h1, h2⟩ := nearest_mem hn
      exact (hwhen x ((htwo x).mp h1) o h2 w hw).1
    · rw [(hpos x ((htwo x).mp hx) p hp).1] at hw; cases hw
  have hplain : PlainTree root := by
    rintro s ⟨parents, c, h, o, ho, hs⟩
    have h2 := (hoo c (by rcases hall _ _ h with ⟨-, rfl⟩ | ⟨-, rfl⟩ <;> simp) o ho).2.2.2.2.2 s hs
    exact ⟨(isValidOptionString_iff s).mp h2.1.1, h2.1.2⟩
  have hrun : Reached root [S "r"] [root] run :=
    Reached.sub (c := root) (d := run) Reached.start (by decide) (by simp [root, Cmd.children]) (Or.inr (Or.inl (by decide)))
  have hfiles : ReadableAction (S "_files") :=
    ⟨S "_files", by decide, by decide, by intro c h; simp [S] at h; subst h; decide, by simp [S, BackslashPaired]⟩
  have hfinal : ∀ o, (o ∈ run.data.options ∨ ∃ p ∈ [root], o ∈ p.data.options) → o.final = false := by
    rintro o (h | ⟨p, hp, h⟩)
    · exact (hoo run (Or.inr rfl) o h).2.1
    · simp at hp; subst hp; exact (hoo root (Or.inl rfl) o h).2.1
  refine ⟨⟨?_, ?_, ?_, ?_, ?_⟩, hplain, tells_kinds ?_, ?_, ⟨?_, ?_, ?_, ?_⟩, ⟨?_, ?_, ?_, ?_⟩, ?_, ?_, ⟨?_, ?_, ?_, ?_, ?_, ?_⟩, hrun, ?_, ?_,
    by decide +kernel, by decide +kernel, by decide +kernel⟩
  · intro parents c h d hd e he w _ _
    rcases hall _ _ h with ⟨rfl, rfl⟩ | ⟨rfl, rfl⟩
    · simp [root, Cmd.children] at hd he; rw [hd, he]
    · simp [run, Cmd.children] at hd
  · intro parents c h d hd
    rcases hall _ _ h with ⟨rfl, rfl⟩ | ⟨rfl, rfl⟩
    · simp [root, Cmd.children] at hd; subst hd; decide
    · simp [run, Cmd.children] at hd
  · intro parents c h
    rcases hall _ _ h with ⟨rfl, rfl⟩ | ⟨rfl, rfl⟩ <;> decide
  · intro parents c h n hn
    rcases hall _ _ h with ⟨rfl, rfl⟩ | ⟨rfl, rfl⟩
    · simp [root, Cmd.sub] at hn; subst hn; decide
    · simp [run, Cmd.sub] at hn
  · intro parents c h hne
    rcases hall _ _ h with ⟨rfl, rfl⟩ | ⟨rfl, rfl⟩
    · rfl
    · simp [run, Cmd.children] at hne
  · intro parents c h
    refine ⟨fun e he => treeOption_plain hplain (table_tree h he), ?_⟩
    intro s k k' h1 h2
    have : ∀ a ∈ tableOf (getOptions parents c true false), ∀ b ∈ tableOf (getOptions parents c true false), a.1 = b.1 → a.2 = b.2 := by
      rcases hall _ _ h with ⟨rfl, rfl⟩ | ⟨rfl, rfl⟩ <;> decide +kernel
    exact this _ h1 _ h2 rfl
  · have : (zshScript isRegex exampleActions root).toOption.isSome = true := by decide +kernel
    cases h : zshScript isRegex exampleActions root with
    | ok fs => exact ⟨fs, rfl⟩
    | error e => rw [h] at this; simp [Except.toOption] at this
  · exact Reached.word (ps := [S "r"]) [] hrun (by decide)
  · intro qs x d rest he
    have h4 := congrArg List.length he
    simp at h4
    match qs with
    | [] =>
      simp at he
      obtain ⟨rfl, rfl, rfl⟩ := he
      refine ⟨[Item.word (S "--quiet"), .pos (S "r")], [.sep (S "--out") (S "x"), .pos []], 0, rfl, ?_, by decide, by decide⟩
      intro it hit
      simp at hit
      rcases hit with rfl | rfl
      · exact ⟨Or.inl ⟨⟨_, _, rfl⟩, by decide⟩, Or.inl (by decide +kernel)⟩
      · intro c cs h; simp [S] at h
    | q :: qs => simp at h4; omega
  · intro it hit
    simp [here, its] at hit
    rcases hit with rfl | rfl | rfl | rfl
    · exact ⟨Or.inl ⟨⟨_, _, rfl⟩, by decide⟩, Or.inl (by decide +kernel)⟩
    · intro c cs h; simp [S] at h
    · exact ⟨Or.inl ⟨⟨_, _, rfl⟩, by decide⟩, by decide +kernel⟩
    · intro c cs h; cases h
  · trivial
  · intro x hx o ho
    obtain ⟨h1, h2, h3, h4, h5, h6⟩ := hoo x ((htwo x).mp hx) o ho
    exact ⟨h1, fun s hs => (h6 s hs).2, by rw [h3]; decide, fun d hd => (by rw [h4] at hd; cases hd), fun _ m hm => (by rw [h5] at hm; cases hm), fun _ => hfiles⟩
  · intro x hx p hp
    refine ⟨?_, hfiles⟩
    rw [(hpos x ((htwo x).mp hx) p hp).2.2.2]
    simp [S, BackslashPaired]
  · intro x _ _
    exact (⟨S "_subcommands", by decide, by decide, by intro c h; simp [S] at h; subst h; decide, by simp [S, BackslashPaired]⟩ :
      ReadableAction (S "_subcommands"))
  · intro w h; cases h
  · intro w hw t ts ht hts
    have := hcond w hw
    subst this
    simp only [Option.some.injEq] at ht
    subst ht
    rw [hparse'] at hts
    simp only [Except.ok.injEq] at hts
    subst hts
    exact ⟨⟨_, .pipe (.cmd _)⟩, by intro c hc; simp at hc; subst hc; trivial⟩
  · refine Or.inr (Or.inr ⟨S "has_option --out", _, Or.inl ⟨run, { strings := [S "--force"], when_ := some (S "has_option --out"), repeatable := .val false, longSep := .both }, ?_, rfl⟩, hparse',
      .hasOption [S "--out"], by simp, trivial⟩)
    exact ⟨[root], [], rfl, by simp [run, Cmd.data], by simp⟩
  · intro y hy
    simp at hy; subst hy
    unfold Inherits; decide
  · have hdis : ∀ x ∈ root.data.options, ∀ y ∈ run.data.options, ∀ s ∈ x.strings, s ∉ y.strings := by decide +kernel
    have hr : ∀ o ∈ root.data.options, ∀ q ∈ root.data.options, ∀ s ∈ o.strings, s ∈ q.strings → o = q := by decide +kernel
    have hr' : ∀ o ∈ run.data.options, ∀ q ∈ run.data.options, ∀ s ∈ o.strings, s ∈ q.strings → o = q := by decide +kernel
    intro x hx y hy o ho q hq s h1 h2
    rcases (htwo x).mp hx with rfl | rfl <;> rcases (htwo y).mp hy with rfl | rfl
    · exact ⟨rfl, hr o ho q hq s h1 h2⟩
    · exact absurd h2 (hdis o ho q hq s h1)
    · exact absurd h1 (hdis q hq o ho s h2)
    · exact ⟨rfl, hr' o ho q hq s h1 h2⟩
  · intro w hw
    have := hcond w hw
    subst this
    have hsame : (lineOf here .done).given = before.given := rfl
    have hiff : ∀ l : Line, WhenTrueOf isRegex rx l (some (S "has_option --out")) ↔ ∃ w, (S "--out", w) ∈ l.given := by
      intro l
      unfold WhenTrueOf WhenTrue
      constructor
      · intro h
        obtain ⟨ts, e, h1, h2, v, h3, h4⟩ := h _ rfl
        rw [hparse', Except.ok.injEq] at h1
        subst h1
        have := denotes_unique h2 (.pipe (.cmd _))
        subst this
        have := (h3 _).mp h4
        simpa [holdsTogether] using this
      · intro h t ht
        simp only [Option.some.injEq] at ht
        subst ht
        refine ⟨_, _, hparse', .pipe (.cmd _), open Classical in fun c => decide (holdsTogether rx l c), fun c => by simp, ?_⟩
        have hh : holdsTogether rx l (.hasOption [S "--out"]) := ⟨_, by simp, h⟩
        open Classical in exact decide_eq_true hh
    rw [hiff, hiff, hsame]
  · intro x hx o ho hg t ht
    obtain ⟨-, h2⟩ := hwhen x ((htwo x).mp hx) o ho t ht
    exfalso
    obtain ⟨s, hs, v, hv⟩ := hg
    rw [h2] at hs
    simp at hs
    subst hs
    simp [before, its, lineOf, Item.options, Ending.options, S] at hv
  · rintro f ⟨hf, hf2⟩ _
    rw [hfinal f hf2] at hf; cases hf
  · intro p hp h
    exact absurd h (hpos run (Or.inr rfl) p hp).2.2.1
  · intro y o hn hf
    obtain ⟨h1, h2⟩ := nearest_mem hn
    rw [(hoo y ((htwo y).mp h1) o h2).2.1] at hf; cases hf
  · intro y hy p hp
    exact (hpos y (by simpa using hy) p hp).2.1

end CC
