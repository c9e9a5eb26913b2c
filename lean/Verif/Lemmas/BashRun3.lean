import Verif.Lemmas.BashRun2
/-!
# Lemmas: what running the letters of the Bash parser (version 1) does
-/

namespace BashText
open CC

variable {C : Ctx} {e : Env} {s : BState} {k : Nat} {fuel : Nat} {fs : Funs}

/-! ## Short options -/

/-- The letters behind, or another value. -/
theorem exec_shortArg {w : Word} (h : St C e s k) {v : Str} (hv : v ∉ C.own) {tr : Str} (htr : e.vars vTrailing = .str tr) (hw : w = wSet ∨ w = wNext) :
    ∃ e1, exec fuel fs (shortArg v w) e = some (e1, .continue_ 2) ∧
      St C e1 { s with log := s.log ++ [(v, if tr ≠ [] then tr else if w = wSet then optIsSet else (C.words[k + 1]?).getD [])] }
        (if tr = [] ∧ w = wNext then k + 1 else k) ∧ Loc e e1 := by
  have hc : exec fuel fs (one (.nonempty wTrailing)) e = some ({ e with ok := !tr.isEmpty }, .next) := by
    rw [exec_one]
    simp only [Act.run, expand_var htr, Option.map_some]
    rfl
  by_cases ht : tr = []
  · subst ht
    have hw' : w = wSet ∨ w = wNext ∨ w = wBehind ∨ w = wTrailing := by rcases hw with h | h <;> simp [h]
    have hnt : w ≠ wTrailing := by rcases hw with rfl | rfl <;> decide
    have hnb : w ≠ wBehind := by rcases hw with rfl | rfl <;> decide
    obtain ⟨e1, h1, h2, h3⟩ := add_value fs (h.ok true) hv (w := w) (arg := []) (tr := []) (fun h => absurd h hnb) (fun h => absurd h hnt) hw'
    refine ⟨e1, ?_, ?_, (Loc.ok e true).trans h3⟩
    · unfold shortArg
      rw [exec_if, andThen_next hc]
      have : exec fuel fs (one (.addArray v [w])) { e with ok := true } = some (e1, .next) := by rw [exec_one, andThen_next h1]
      simp only [List.isEmpty_nil, Bool.not_true, Bool.false_eq_true, if_false]
      rw [andThen_next this, exec_one]; rfl
    · rcases hw with rfl | rfl <;> simpa using h2
  · obtain ⟨e1, h1, h2, h3⟩ := add_value fs (h.ok true) hv (w := wTrailing) (arg := []) (tr := tr) (fun h => absurd h (by decide)) (fun _ => htr) (by simp)
    refine ⟨e1, ?_, ?_, (Loc.ok e true).trans h3⟩
    · unfold shortArg
      rw [exec_if, andThen_next hc]
      have hb : (!tr.isEmpty) = true := by simp [ht]
      have : exec fuel fs (one (.addArray v [wTrailing])) { e with ok := true } = some (e1, .next) := by rw [exec_one, andThen_next h1]
      rw [hb]
      simp only [if_true]
      rw [andThen_next this, exec_one]; rfl
    · rw [if_pos ht, if_neg (by simp [ht])]; exact h2

variable [OwnOnly C]

/-- What a letter does in one command. -/
theorem short_options {c : Char} {tr : Str} (h : St C e s k) (htr : e.vars vTrailing = .str tr) : ∀ (os : List BOpt), (∀ o ∈ os, PlainBashOption o ∧ o.shorts ≠ []) →
    match os.find? (fun o => o.shorts.contains ['-', c]) with
    | none => choose fuel fs [c] (clauses (os.flatMap shortClauses)) e = some ({ e with ok := true }, .next)
    | some o =>
      match o.kind with
      | .flag => ∃ e', choose fuel fs [c] (clauses (os.flatMap shortClauses)) e = some (e', .next) ∧
          St C e' { s with log := s.log ++ [(o.var, optIsSet)] } k ∧ Loc e e'
      | .optional => ∃ e', choose fuel fs [c] (clauses (os.flatMap shortClauses)) e = some (e', .continue_ 2) ∧
          St C e' { s with log := s.log ++ [(o.var, if tr ≠ [] then tr else optIsSet)] } k ∧ Loc e e'
      | .required => ∃ e', choose fuel fs [c] (clauses (os.flatMap shortClauses)) e = some (e', .continue_ 2) ∧
          St C e' { s with log := s.log ++ [(o.var, if tr ≠ [] then tr else (C.words[k + 1]?).getD [])] } (if tr = [] then k + 1 else k) ∧ Loc e e'
  | [], _ => choose_nil _ _
  | o :: os, ho => by
    have ih := short_options (c := c) h htr os (fun x hx => ho x (List.mem_cons_of_mem _ hx))
    obtain ⟨L, m, hL⟩ := means_short (ho o (by simp)).1 (ho o (by simp)).2 c
    have hown : o.var ∉ C.own := OwnOnly.own (ho o (by simp)).1.own
    rw [List.find?_cons, List.flatMap_cons]
    have hcl : ∃ b, shortClauses o = [(patShort o, b)] ∧ b = (match o.kind with
        | .optional => shortArg o.var wSet
        | .required => shortArg o.var wNext
        | .flag => one (.addArray o.var [wSet])) := by
      unfold shortClauses
      cases o.kind <;> exact ⟨_, rfl, rfl⟩
    obtain ⟨b, hb, hbk⟩ := hcl
    rw [hb, List.singleton_append]
    cases hm : o.shorts.contains ['-', c] with
    | true =>
      rw [choose_hit m (hL.2 hm)]
      simp only
      have hloc := Loc.ok e true
      cases hk : o.kind with
      | flag =>
        rw [hk] at hbk; subst hbk
        obtain ⟨e1, h1, h2, h3⟩ := add_value fs (h.ok true) hown (w := wSet) (arg := []) (tr := []) (fun h => absurd h (by decide)) (fun h => absurd h (by decide)) (by simp)
        refine ⟨e1, ?_, ?_, hloc.trans h3⟩
        · rw [exec_one, andThen_next h1]
        · exact h2
      | optional =>
        rw [hk] at hbk; subst hbk
        obtain ⟨e1, h1, h2, h3⟩ := exec_shortArg (fuel := fuel) (fs := fs) (h.ok true) hown (tr := tr) htr (w := wSet) (by simp)
        refine ⟨e1, h1, ?_, hloc.trans h3⟩
        have hn : ¬ wSet = wNext := by decide
        simpa [hn] using h2
      | required =>
        rw [hk] at hbk; subst hbk
        obtain ⟨e1, h1, h2, h3⟩ := exec_shortArg (fuel := fuel) (fs := fs) (h.ok true) hown (tr := tr) htr (w := wNext) (by simp)
        refine ⟨e1, h1, ?_, hloc.trans h3⟩
        rw [if_neg (show ¬ wNext = wSet by decide)] at h2
        simpa using h2
    | false =>
      rw [choose_miss m (fun hh => by rw [hL.1 hh] at hm; cases hm)]
      exact ih

theorem shortOpts_find (b : Block) (c : Char) : (shortOpts b).find? (fun o => o.shorts.contains ['-', c]) = b.opts.find? (fun o => o.shorts.contains ['-', c]) := by
  unfold shortOpts
  induction b.opts with
  | nil => rfl
  | cons o os ih =>
    rw [List.filter_cons]
    by_cases ho : o.shorts = []
    · rw [if_neg (by simp [ho]), List.find?_cons, ih]; simp [ho]
    · rw [if_pos (by simp [ho]), List.find?_cons, List.find?_cons, ih]

theorem letter_skip (c : Char) (tr next : Str) : ∀ (l : List Block), (v1Letter c tr next l).2 = false → (v1Letter c tr next l).1.skip = false
  | [], _ => rfl
  | b :: l, h => by
    have ih := letter_skip c tr next l
    unfold v1Letter at h ⊢
    split
    · rename_i hf; rw [hf] at h; exact ih h
    · rename_i o hf
      rw [hf] at h
      simp only at h ⊢
      split
      · rename_i hk; rw [hk] at h; exact ih h
      · rfl
      · rename_i hk; rw [hk] at h; simp only at h; split at h <;> cases h

/-- What a letter does. -/
theorem short_blocks {c : Char} {tr : Str} : ∀ (blocks : List Block), (∀ b ∈ blocks, PlainBashBlock b) → ∀ {e : Env} {s : BState}, St C e s k → e.vars vChar = .str [c] → e.vars vTrailing = .str tr →
    ∃ e', exec fuel fs (codes (shortCodes blocks)) e =
        some (e', if (v1Letter c tr ((C.words[k + 1]?).getD []) (blocks.filter (Block.active s.cmd))).2 then .continue_ 2 else .next) ∧
      St C e' { s with log := s.log ++ (v1Letter c tr ((C.words[k + 1]?).getD []) (blocks.filter (Block.active s.cmd))).1.log }
        (if (v1Letter c tr ((C.words[k + 1]?).getD []) (blocks.filter (Block.active s.cmd))).1.skip then k + 1 else k) ∧ Loc e e'
  | [], _, e, s, h, _, _ => ⟨e, exec_done e, by simpa [v1Letter] using h, Loc.refl e⟩
  | b :: blocks, hb, e, s, h, hc, htr => by
    have hbs : ∀ x ∈ blocks, PlainBashBlock x := fun x hx => hb x (List.mem_cons_of_mem _ hx)
    have hpb := hb b (by simp)
    have hopts : ∀ o ∈ shortOpts b, PlainBashOption o ∧ o.shorts ≠ [] := by
      intro o ho
      have := List.mem_filter.mp ho
      exact ⟨hpb.opts o this.1, by simpa using this.2⟩
    by_cases hl : shortOpts b = []
    · have h1 : shortCodes (b :: blocks) = shortCodes blocks := by
        unfold shortCodes; rw [List.filterMap_cons]; simp only [hl]
      have h2 : v1Letter c tr ((C.words[k + 1]?).getD []) ((b :: blocks).filter (Block.active s.cmd)) =
          v1Letter c tr ((C.words[k + 1]?).getD []) (blocks.filter (Block.active s.cmd)) := by
        rw [List.filter_cons]
        split
        · rw [v1Letter, ← shortOpts_find, hl]; rfl
        · rfl
      rw [h1, h2]
      exact short_blocks blocks hbs h hc htr
    · have h1 : shortCodes (b :: blocks) = blockCode (S "char") b ((shortOpts b).flatMap shortClauses) :: shortCodes blocks := by
        unfold shortCodes; rw [List.filterMap_cons]
        cases hh : shortOpts b with
        | nil => exact absurd hh hl
        | cons o os => rfl
      rw [h1, codes_cons]
      have e0 : exec fuel fs (blockCode (S "char") b ((shortOpts b).flatMap shortClauses) ++ codes (shortCodes blocks)) e =
          andThen (choose fuel fs s.cmd (clauses [(patPath b, .case_ [.var vChar] (clauses ((shortOpts b).flatMap shortClauses)) .done)]) e)
            (exec fuel fs (codes (shortCodes blocks))) := by
        show exec fuel fs (.case_ [.var vCmd] (clauses [(patPath b, .case_ [.var vChar] (clauses ((shortOpts b).flatMap shortClauses)) .done)])
          (codes (shortCodes blocks))) e = _
        rw [exec_case, expand_var h.cmd]; rfl
      rw [e0]
      cases hact : Block.active s.cmd b with
      | false =>
        rw [choose_miss (means_path hpb) (by simp [hact]), choose_nil, List.filter_cons, if_neg (show ¬ Block.active s.cmd b = true by simp [hact])]
        obtain ⟨e', g1, g2, g3⟩ := short_blocks (c := c) (tr := tr) blocks hbs (h.ok true) hc htr
        exact ⟨e', g1, g2, (Loc.ok e true).trans g3⟩
      | true =>
        rw [choose_hit (means_path hpb) hact, exec_case, expand_var (e := { e with ok := true }) hc, List.filter_cons, if_pos hact]
        have hs := short_options (fuel := fuel) (fs := fs) (c := c) (tr := tr) (h.ok true) htr (shortOpts b) hopts
        rw [shortOpts_find] at hs
        have hbind : (Option.bind (some ([c], ({ e with ok := true } : Env))) (fun r => choose fuel fs r.1 (clauses ((shortOpts b).flatMap shortClauses)) r.2)) =
          choose fuel fs [c] (clauses ((shortOpts b).flatMap shortClauses)) { e with ok := true } := rfl
        rw [hbind]
        cases hf : b.opts.find? (fun o => o.shorts.contains ['-', c]) with
        | none =>
          rw [hf] at hs
          simp only at hs
          have hr : v1Letter c tr ((C.words[k + 1]?).getD []) (b :: blocks.filter (Block.active s.cmd)) =
            v1Letter c tr ((C.words[k + 1]?).getD []) (blocks.filter (Block.active s.cmd)) := by rw [v1Letter, hf]
          rw [andThen_next hs, exec_done, hr]
          obtain ⟨e', g1, g2, g3⟩ := short_blocks (c := c) (tr := tr) blocks hbs (h.ok true) hc htr
          exact ⟨e', g1, g2, (Loc.ok e true).trans g3⟩
        | some o =>
          rw [hf] at hs
          simp only at hs
          cases hk : o.kind with
          | flag =>
            rw [hk] at hs
            simp only at hs
            have hr : v1Letter c tr ((C.words[k + 1]?).getD []) (b :: blocks.filter (Block.active s.cmd)) =
              (⟨(o.var, optIsSet) :: (v1Letter c tr ((C.words[k + 1]?).getD []) (blocks.filter (Block.active s.cmd))).1.log,
                (v1Letter c tr ((C.words[k + 1]?).getD []) (blocks.filter (Block.active s.cmd))).1.skip⟩,
                (v1Letter c tr ((C.words[k + 1]?).getD []) (blocks.filter (Block.active s.cmd))).2) := by
              rw [v1Letter, hf]; simp only [hk]
            rw [hr]
            obtain ⟨e1, a1, a2, a3⟩ := hs
            rw [andThen_next a1, exec_done]
            have l1 := (Loc.ok e true).trans a3
            obtain ⟨e', g1, g2, g3⟩ := short_blocks (c := c) (tr := tr) blocks hbs a2 (l1.char.trans hc) (l1.trailing.trans htr)
            refine ⟨e', g1, ?_, l1.trans g3⟩
            simpa using g2
          | optional =>
            rw [hk] at hs
            simp only at hs
            have hr : v1Letter c tr ((C.words[k + 1]?).getD []) (b :: blocks.filter (Block.active s.cmd)) =
              (⟨[(o.var, if tr ≠ [] then tr else optIsSet)], false⟩, true) := by rw [v1Letter, hf]; simp only [hk]
            rw [hr]
            obtain ⟨e1, a1, a2, a3⟩ := hs
            refine ⟨e1, ?_, by simpa using a2, (Loc.ok e true).trans a3⟩
            rw [andThen_stop (andThen_stop a1 (by simp) _) (by simp)]; rfl
          | required =>
            rw [hk] at hs
            simp only at hs
            have hr : v1Letter c tr ((C.words[k + 1]?).getD []) (b :: blocks.filter (Block.active s.cmd)) =
              (if tr ≠ [] then (⟨[(o.var, tr)], false⟩, true) else (⟨[(o.var, (C.words[k + 1]?).getD [])], true⟩, true)) := by
              rw [v1Letter, hf]; simp only [hk]
            rw [hr]
            obtain ⟨e1, a1, a2, a3⟩ := hs
            refine ⟨e1, ?_, ?_, (Loc.ok e true).trans a3⟩
            · rw [andThen_stop (andThen_stop a1 (by simp) _) (by simp)]
              split <;> rfl
            · by_cases ht : tr = []
              · simpa [ht] using a2
              · simpa [ht] using a2

/-! ## The letters of a word -/

theorem iter_go {cond step : Arith} {body : Env → Option (Env × Flow)} {e e0 e1 e2 : Env} {f : Flow} {fuel n m : Nat} (hc : cond.eval e = some (n, e0)) (hn : n ≠ 0)
    (hb : body e0 = some (e1, f)) (hf : f = .next ∨ f = .continue_ 1) (hs : step.eval e1 = some (m, e2)) :
    iterate cond step body (fuel + 1) e = iterate cond step body fuel e2 := by
  rw [iterate, hc, Option.bind_some, if_neg hn, hb, Option.bind_some]
  rcases hf with rfl | rfl
  · simp only [hs, Option.bind_some]
  · simp only [Nat.le_refl, if_true, hs, Option.bind_some]

theorem iter_out {cond step : Arith} {body : Env → Option (Env × Flow)} {e e0 e1 : Env} {fuel n : Nat} (hc : cond.eval e = some (n, e0)) (hn : n ≠ 0)
    (hb : body e0 = some (e1, .continue_ 2)) : iterate cond step body (fuel + 1) e = some (e1, .continue_ 1) := by
  rw [iterate, hc, Option.bind_some, if_neg hn, hb]; rfl

theorem iter_return {cond step : Arith} {body : Env → Option (Env × Flow)} {e e0 e1 : Env} {fuel n : Nat} (hc : cond.eval e = some (n, e0)) (hn : n ≠ 0)
    (hb : body e0 = some (e1, .return_)) : iterate cond step body (fuel + 1) e = some (e1, .return_) := by
  rw [iterate, hc, Option.bind_some, if_neg hn, hb]; rfl

theorem iter_end {cond step : Arith} {body : Env → Option (Env × Flow)} {e e0 : Env} {fuel : Nat} (hc : cond.eval e = some (0, e0)) :
    iterate cond step body (fuel + 1) e = some (e0, .next) := by
  rw [iterate, hc]; rfl

theorem letter_cond {e : Env} {i : Nat} {arg : Str} (hi : e.vars vI = .str (decimal i)) (ha : e.vars vArg = .str arg) :
    (Arith.lt (.var vI) (.len vArg)).eval e = some (if i < arg.length then 1 else 0, e) := by
  simp only [Arith.eval, Atom.eval, numberOf_of hi, Option.map_some, Option.bind_some]
  rw [value_of (by rw [ha]; intro y hy; cases hy), ha]
  simp [Val.text]

theorem letter_run (blocks : List Block) (hb : ∀ b ∈ blocks, PlainBashBlock b) {e : Env} {s : BState} {arg : Str} {i : Nat} {c : Char} {tr : Str} (h : St C e s k)
    (hi : e.vars vI = .str (decimal i)) (ha : e.vars vArg = .str arg) (hd : arg.drop i = c :: tr) :
    ∃ e', exec fuel fs (letterCode blocks) e =
        some (e', if (v1Letter c tr ((C.words[k + 1]?).getD []) (blocks.filter (Block.active s.cmd))).2 then .continue_ 2 else .next) ∧
      St C e' { s with log := s.log ++ (v1Letter c tr ((C.words[k + 1]?).getD []) (blocks.filter (Block.active s.cmd))).1.log }
        (if (v1Letter c tr ((C.words[k + 1]?).getD []) (blocks.filter (Block.active s.cmd))).1.skip then k + 1 else k) ∧
      e'.vars vI = .str (decimal i) ∧ e'.vars vArg = .str arg := by
  have h1 := h.local (x := vChar) (by decide) [c]
  have a1 : Act.run fs e (.set vChar [.char vArg vI]) = some (e.put vChar (.str [c]), .next) := by
    simp only [Act.run, expand, Part.expand, numberOf_of hi, Option.bind_some]
    rw [value_of (by rw [ha]; intro y hy; cases hy), ha]
    simp only [Option.map_some, Option.bind_some, Val.text, hd]
    rw [target_of (h.refs vChar)]
    simp
  have i1 : (e.put vChar (.str [c])).vars vI = .str (decimal i) := by rw [put_other _ _ (by decide)]; exact hi
  have ar1 : (e.put vChar (.str [c])).vars vArg = .str arg := by rw [put_other _ _ (by decide)]; exact ha
  have hd2 : arg.drop (i + 1) = tr := by rw [← List.drop_drop, hd]; rfl
  have a2 : Act.run fs (e.put vChar (.str [c])) (.set vTrailing [.from_ vArg (.add (.var vI) (.num 1))]) =
      some ((e.put vChar (.str [c])).put vTrailing (.str tr), .next) := by
    simp only [Act.run, expand, Part.expand, Arith.eval, Atom.eval, numberOf_of i1, Option.map_some, Option.bind_some]
    rw [value_of (by rw [ar1]; intro y hy; cases hy), ar1]
    simp only [Option.map_some, Option.bind_some, Val.text, hd2]
    rw [target_of (h1.refs vTrailing)]
    simp
  have h2 := h1.local (x := vTrailing) (by decide) tr
  obtain ⟨e', g1, g2, g3⟩ := short_blocks (fuel := fuel) (fs := fs) (c := c) (tr := tr) blocks hb h2
    (by rw [put_other _ _ (by decide), put_same]) (put_same _ _ _)
  refine ⟨e', ?_, g2, ?_, ?_⟩
  · unfold letterCode
    rw [exec_act, andThen_next a1, exec_act, andThen_next a2, g1]
  · rw [g3.i, put_other _ _ (by decide)]; exact i1
  · rw [g3.arg, put_other _ _ (by decide)]; exact ar1

theorem letters_run (blocks : List Block) (hb : ∀ b ∈ blocks, PlainBashBlock b) {arg : Str} : ∀ (rem : Str) (i n : Nat) {e : Env} {s : BState}, St C e s k →
    e.vars vI = .str (decimal i) → e.vars vArg = .str arg → arg.drop i = rem → rem.length < n →
    ∃ e' f, iterate (.lt (.var vI) (.len vArg)) (.atom (.inc vI)) (exec fuel fs (letterCode blocks)) n e = some (e', f) ∧ (f = .next ∨ f = .continue_ 1) ∧
      St C e' { s with log := s.log ++ (v1Cluster (blocks.filter (Block.active s.cmd)) ((C.words[k + 1]?).getD []) rem).log }
        (if (v1Cluster (blocks.filter (Block.active s.cmd)) ((C.words[k + 1]?).getD []) rem).skip then k + 1 else k)
  | [], i, n, e, s, h, hi, ha, hd, hn => by
    obtain ⟨n, rfl⟩ : ∃ m, n = m + 1 := ⟨n - 1, by simp at hn; omega⟩
    have hc := letter_cond hi ha
    rw [if_neg (by have := List.drop_eq_nil_iff.mp hd; omega)] at hc
    exact ⟨e, .next, iter_end hc, Or.inl rfl, by simpa [v1Cluster] using h⟩
  | c :: tr, i, n, e, s, h, hi, ha, hd, hn => by
    obtain ⟨n, rfl⟩ : ∃ m, n = m + 1 := ⟨n - 1, by simp at hn; omega⟩
    have hlt : i < arg.length := by
      rcases Nat.lt_or_ge i arg.length with h | h
      · exact h
      · rw [List.drop_of_length_le h] at hd; cases hd
    obtain ⟨e1, g1, g2, g3, g4⟩ := letter_run (fuel := fuel) (fs := fs) blocks hb h hi ha hd
    have hc := letter_cond hi ha
    rw [if_pos hlt] at hc
    rw [v1Cluster]
    cases hr : (v1Letter c tr ((C.words[k + 1]?).getD []) (blocks.filter (Block.active s.cmd))).2 with
    | true =>
      rw [hr] at g1
      simp only [if_true] at g1 ⊢
      exact ⟨e1, _, iter_out hc (by omega) g1, Or.inr rfl, g2⟩
    | false =>
      rw [hr] at g1
      simp only [Bool.false_eq_true, if_false] at g1 ⊢
      rw [letter_skip _ _ _ _ hr] at g2
      simp only [Bool.false_eq_true, if_false] at g2
      have hd2 : arg.drop (i + 1) = tr := by rw [← List.drop_drop, hd]; rfl
      have hinc : (Arith.atom (.inc vI)).eval e1 = some (i + 1, e1.put vI (.str (decimal (i + 1)))) := by
        simp only [Arith.eval, Atom.eval, numberOf_of g3, Option.map_some]
      rw [iter_go hc (by omega) g1 (Or.inl rfl) hinc]
      obtain ⟨e', f, a1, a2, a3⟩ := letters_run blocks hb tr (i + 1) n (g2.local (x := vI) (by decide) (decimal (i + 1))) (put_same _ _ _)
        (by rw [put_other _ _ (by decide)]; exact g4) hd2 (by simp at hn; omega)
      refine ⟨e', f, a1, a2, ?_⟩
      simpa using a3

end BashText
