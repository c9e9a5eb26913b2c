import Verif.Lemmas.BashRun1
/-!
# Lemmas: what running the options of the Bash parser (version 1) does
-/

namespace BashText
open CC

variable {C : Ctx} {e : Env} {s : BState} {k : Nat} {fuel : Nat} {fs : Funs}

/-! ## Patterns of options -/

theorem plain_long {o : BOpt} (h : PlainBashOption o) : ∀ l ∈ o.longs, l ≠ [] ∧ ∀ c ∈ l, LitChar caseCtx c := by
  intro l hl
  refine ⟨?_, fun c hc => ((h.longs l hl).2 c hc).lit⟩
  rintro rfl
  have := (h.longs [] hl).1
  cases this

theorem means_without {o : BOpt} (h : PlainBashOption o) (hne : o.longs ≠ []) : Means (patWithout o) (fun w => w ∈ o.longs) :=
  means_any hne (plain_long h)

theorem means_withArg {o : BOpt} (h : PlainBashOption o) (hne : o.longs ≠ []) :
    Means (patWith o) (fun w => o.longs.any (fun l => startsWith w (l ++ ['='])) = true) :=
  means_with hne (fun l hl => (plain_long h l hl).2)

theorem means_short {o : BOpt} (h : PlainBashOption o) (hne : o.shorts ≠ []) (c : Char) :
    ∃ L, Means (patShort o) L ∧ (L [c] ↔ o.shorts.contains ['-', c] = true) := by
  refine ⟨_, means_any (by simpa using hne) ?_, ?_⟩
  · intro t ht
    obtain ⟨s, hs, rfl⟩ := List.mem_map.mp ht
    obtain ⟨x, rfl, hx⟩ := h.shorts s hs
    exact ⟨by simp, by simpa using hx.lit⟩
  · rw [List.contains_iff_mem, List.mem_map]
    constructor
    · rintro ⟨s, hs, he⟩
      obtain ⟨x, rfl, hx⟩ := h.shorts s hs
      simp at he
      subst he; exact hs
    · intro hs
      exact ⟨_, hs, rfl⟩

theorem means_path {b : Block} (h : PlainBashBlock b) : Means (patPath b) (fun w => Block.active w b = true) := by
  have hl : ∀ c ∈ b.path, LitChar caseCtx c := fun c hc => (h.path.2.2 c hc).lit
  unfold patPath Block.active
  cases hb : b.inherits with
  | true => simpa using means_prefix hl
  | false => simpa using means_lits h.path.1 hl

/-! ## Long options -/

theorem behind_equals {arg l : Str} (h : startsWith arg (l ++ ['=']) = true) : behindEquals arg = afterEq arg := by
  obtain ⟨r, rfl⟩ := (startsWith_iff _ _).1 h
  unfold behindEquals afterEq
  rw [if_pos (by simp)]

variable [OwnOnly C]

theorem long_option {o : BOpt} (ho : PlainBashOption o) (hne : o.longs ≠ []) (h : St C e s k) {arg : Str} (ha : e.vars vArg = .str arg) (rest : List (Str × Code)) :
    (∀ eff, v1LongCase arg ((C.words[k + 1]?).getD []) o = some eff →
      ∃ e', choose fuel fs arg (clauses (longClauses o ++ rest)) e = some (e', .continue_ 1) ∧
        St C e' { s with log := s.log ++ eff.log } (if eff.skip then k + 1 else k)) ∧
    (v1LongCase arg ((C.words[k + 1]?).getD []) o = none →
      choose fuel fs arg (clauses (longClauses o ++ rest)) e = choose fuel fs arg (clauses rest) e) := by
  have m1 := means_without ho hne
  have m2 := means_withArg ho hne
  have h' := h.ok true
  have go : ∀ (w : Word), (w = wSet ∨ w = wNext ∨ w = wBehind) → _ := fun w hw =>
    exec_addGo (fuel := fuel) (fs := fs) h' (OwnOnly.own ho.own) (arg := arg) ha hw
  unfold v1LongCase longClauses
  by_cases h1 : arg ∈ o.longs
  · have hc : o.longs.contains arg = true := by simpa using h1
    rw [if_pos hc]
    constructor
    · intro eff he
      injection he with he
      cases hk : o.kind with
      | flag =>
        rw [hk] at he; subst he
        obtain ⟨e1, g1, g2⟩ := go wSet (by simp)
        refine ⟨e1, ?_, g2⟩
        simp only [List.cons_append]
        rw [choose_hit m1 h1, g1]
      | optional =>
        rw [hk] at he; subst he
        obtain ⟨e1, g1, g2⟩ := go wSet (by simp)
        refine ⟨e1, ?_, g2⟩
        simp only [List.cons_append]
        rw [choose_hit m1 h1, g1]
      | required =>
        rw [hk] at he; subst he
        obtain ⟨e1, g1, g2⟩ := go wNext (by simp)
        refine ⟨e1, ?_, g2⟩
        simp only [List.cons_append]
        rw [choose_hit m1 h1, g1]
    · intro he; cases he
  · have hc : ¬ o.longs.contains arg = true := by simpa using h1
    rw [if_neg hc]
    by_cases hf : o.kind = .flag
    · rw [if_neg (by simp [hf])]
      constructor
      · intro eff he; cases he
      · intro _
        rw [hf]
        simp only [List.cons_append, List.nil_append]
        rw [choose_miss m1 h1]
    · by_cases h2 : o.longs.any (fun l => startsWith arg (l ++ ['='])) = true
      · rw [if_pos (by simp only [Bool.and_eq_true, h2, and_true]; simpa using hf)]
        constructor
        · intro eff he
          injection he with he
          subst he
          obtain ⟨e1, g1, g2⟩ := go wBehind (by simp)
          have hb : behindEquals arg = afterEq arg := by
            obtain ⟨l, _, hl⟩ := List.any_eq_true.mp h2
            exact behind_equals hl
          refine ⟨e1, ?_, ?_⟩
          · cases hk : o.kind with
            | flag => exact absurd hk hf
            | optional =>
              simp only [List.cons_append]
              rw [choose_miss m1 h1, choose_hit m2 h2, g1]
            | required =>
              simp only [List.cons_append]
              rw [choose_miss m1 h1, choose_hit m2 h2, g1]
          · rw [← hb]; exact g2
        · intro he; cases he
      · rw [if_neg (by simp [h2])]
        constructor
        · intro eff he; cases he
        · intro _
          cases hk : o.kind with
          | flag => exact absurd hk hf
          | optional =>
            simp only [List.cons_append, List.nil_append]
            rw [choose_miss m1 h1, choose_miss m2 h2]
          | required =>
            simp only [List.cons_append, List.nil_append]
            rw [choose_miss m1 h1, choose_miss m2 h2]

theorem long_options {arg : Str} (h : St C e s k) (ha : e.vars vArg = .str arg) : ∀ (os : List BOpt), (∀ o ∈ os, PlainBashOption o ∧ o.longs ≠ []) →
    (∀ eff, os.findSome? (v1LongCase arg ((C.words[k + 1]?).getD [])) = some eff →
      ∃ e', choose fuel fs arg (clauses (os.flatMap longClauses)) e = some (e', .continue_ 1) ∧
        St C e' { s with log := s.log ++ eff.log } (if eff.skip then k + 1 else k)) ∧
    (os.findSome? (v1LongCase arg ((C.words[k + 1]?).getD [])) = none →
      choose fuel fs arg (clauses (os.flatMap longClauses)) e = some ({ e with ok := true }, .next))
  | [], _ => ⟨fun _ he => (by cases he), fun _ => choose_nil _ _⟩
  | o :: os, ho => by
    have ih := long_options h ha os (fun x hx => ho x (List.mem_cons_of_mem _ hx))
    obtain ⟨h1, h2⟩ := long_option (fuel := fuel) (fs := fs) (ho o (by simp)).1 (ho o (by simp)).2 h ha (os.flatMap longClauses)
    rw [List.findSome?_cons, List.flatMap_cons]
    cases hc : v1LongCase arg ((C.words[k + 1]?).getD []) o with
    | some x =>
      refine ⟨?_, fun he => by cases he⟩
      intro eff he
      injection he with he
      subst he
      exact h1 _ hc
    | none =>
      rw [h2 hc]
      exact ih

theorem longOpts_some (b : Block) (arg next : Str) : (longOpts b).findSome? (v1LongCase arg next) = b.opts.findSome? (v1LongCase arg next) := by
  unfold longOpts
  induction b.opts with
  | nil => rfl
  | cons o os ih =>
    rw [List.filter_cons]
    by_cases ho : o.longs = []
    · have : v1LongCase arg next o = none := by simp [v1LongCase, ho]
      rw [if_neg (by simp [ho]), List.findSome?_cons, this, ih]
    · rw [if_pos (by simp [ho]), List.findSome?_cons, List.findSome?_cons, ih]

theorem long_blocks {arg : Str} (K : Code) : ∀ (blocks : List Block), (∀ b ∈ blocks, PlainBashBlock b) → ∀ {e : Env}, St C e s k → e.vars vArg = .str arg →
    (∀ eff, v1Long (blocks.filter (Block.active s.cmd)) arg ((C.words[k + 1]?).getD []) = some eff →
      ∃ e', exec fuel fs (codes (longCodes blocks) ++ K) e = some (e', .continue_ 1) ∧
        St C e' { s with log := s.log ++ eff.log } (if eff.skip then k + 1 else k)) ∧
    (v1Long (blocks.filter (Block.active s.cmd)) arg ((C.words[k + 1]?).getD []) = none →
      ∃ b, exec fuel fs (codes (longCodes blocks) ++ K) e = exec fuel fs K { e with ok := b })
  | [], _, e, _, _ => ⟨fun _ he => (by cases he), fun _ => ⟨e.ok, rfl⟩⟩
  | b :: blocks, hb, e, h, ha => by
    have hbs : ∀ x ∈ blocks, PlainBashBlock x := fun x hx => hb x (List.mem_cons_of_mem _ hx)
    have hpb := hb b (by simp)
    have hnone : longOpts b = [] → longCodes (b :: blocks) = longCodes blocks := by
      intro hl; unfold longCodes; rw [List.filterMap_cons]; simp only [hl]
    have hsome : longOpts b ≠ [] → longCodes (b :: blocks) = blockCode (S "arg") b ((longOpts b).flatMap longClauses) :: longCodes blocks := by
      intro hl; unfold longCodes; rw [List.filterMap_cons]
      cases hh : longOpts b with
      | nil => exact absurd hh hl
      | cons o os => rfl
    have hopts : ∀ o ∈ longOpts b, PlainBashOption o ∧ o.longs ≠ [] := by
      intro o ho
      have := List.mem_filter.mp ho
      exact ⟨hpb.opts o this.1, by simpa using this.2⟩
    -- what the rest does
    have rest : ∀ (bo : Bool), _ := fun bo => long_blocks (arg := arg) K blocks hbs (h.ok bo) ha
    by_cases hl : longOpts b = []
    · rw [hnone hl]
      have hsk : v1Long ((b :: blocks).filter (Block.active s.cmd)) arg ((C.words[k + 1]?).getD []) =
          v1Long (blocks.filter (Block.active s.cmd)) arg ((C.words[k + 1]?).getD []) := by
        rw [List.filter_cons]
        split
        · unfold v1Long
          rw [List.findSome?_cons, ← longOpts_some, hl]; rfl
        · rfl
      rw [hsk]
      exact long_blocks (arg := arg) K blocks hbs h ha
    · rw [hsome hl, codes_cons, append_assoc']
      have e0 : exec fuel fs (blockCode (S "arg") b ((longOpts b).flatMap longClauses) ++ (codes (longCodes blocks) ++ K)) e =
          andThen (choose fuel fs s.cmd (clauses [(patPath b, .case_ [.var vArg] (clauses ((longOpts b).flatMap longClauses)) .done)]) e)
            (exec fuel fs (codes (longCodes blocks) ++ K)) := by
        show exec fuel fs (.case_ [.var vCmd] (clauses [(patPath b, .case_ [.var vArg] (clauses ((longOpts b).flatMap longClauses)) .done)])
          (codes (longCodes blocks) ++ K)) e = _
        rw [exec_case, expand_var h.cmd]; rfl
      rw [e0]
      cases hact : Block.active s.cmd b with
      | false =>
        rw [choose_miss (means_path hpb) (by simp [hact]), choose_nil, List.filter_cons, if_neg (by simp [hact])]
        have : andThen (some ({ e with ok := true }, Flow.next)) (exec fuel fs (codes (longCodes blocks) ++ K)) =
          exec fuel fs (codes (longCodes blocks) ++ K) { e with ok := true } := rfl
        rw [this]
        exact rest true
      | true =>
        rw [choose_hit (means_path hpb) hact, exec_case, expand_var (e := { e with ok := true }) ha, List.filter_cons, if_pos hact]
        obtain ⟨o1, o2⟩ := long_options (fuel := fuel) (fs := fs) (h.ok true) (arg := arg) ha (longOpts b) hopts
        rw [longOpts_some] at o1 o2
        unfold v1Long
        rw [List.findSome?_cons]
        cases hc : b.opts.findSome? (v1LongCase arg ((C.words[k + 1]?).getD [])) with
        | some x =>
          refine ⟨?_, fun he => by cases he⟩
          intro eff he
          injection he with he
          subst he
          obtain ⟨e', g1, g2⟩ := o1 _ hc
          refine ⟨e', ?_, g2⟩
          have : (Option.bind (some (arg, ({ e with ok := true } : Env))) (fun r => choose fuel fs r.1 (clauses ((longOpts b).flatMap longClauses)) r.2)) =
            some (e', .continue_ 1) := g1
          rw [andThen_stop (andThen_stop this (by simp) _) (by simp)]
        | none =>
          have : (Option.bind (some (arg, ({ e with ok := true } : Env))) (fun r => choose fuel fs r.1 (clauses ((longOpts b).flatMap longClauses)) r.2)) =
            some ({ e with ok := true }, .next) := o2 hc
          rw [andThen_next this, exec_done]
          have : andThen (some ({ e with ok := true }, Flow.next)) (exec fuel fs (codes (longCodes blocks) ++ K)) =
            exec fuel fs (codes (longCodes blocks) ++ K) { e with ok := true } := rfl
          rw [this]
          exact rest true

end BashText
