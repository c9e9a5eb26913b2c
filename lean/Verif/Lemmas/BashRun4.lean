import Verif.Lemmas.BashRun3
/-!
# Lemmas: what running the Bash parser (version 1) does with a command line
-/

namespace BashText
open CC

variable {C : Ctx} {e : Env} {s : BState} {k : Nat} {fuel : Nat} {fs : Funs}

/-- A word that begins with `-`. -/
theorem dash_run [OwnOnly C] (blocks : List Block) (hb : ∀ b ∈ blocks, PlainBashBlock b) (h : St C e s k) {arg : Str} (ha : e.vars vArg = .str arg) (hf : arg.length < fuel) :
    ∃ e' f, exec fuel fs (dashCode blocks) e = some (e', f) ∧ (f = .next ∨ f = .continue_ 1) ∧
      St C e' { s with log := s.log ++ (v1Option blocks s.cmd arg ((C.words[k + 1]?).getD [])).log }
        (if (v1Option blocks s.cmd arg ((C.words[k + 1]?).getD [])).skip then k + 1 else k) := by
  unfold dashCode
  obtain ⟨h1, h2⟩ := long_blocks (fuel := fuel) (fs := fs) (arg := arg)
    (.loop (.set vI 1) (.lt (.var vI) (.len vArg)) (.atom (.inc vI)) (letterCode blocks) .done) blocks hb h ha
  rcases hl : v1Long (blocks.filter (Block.active s.cmd)) arg ((C.words[k + 1]?).getD []) with _ | eff
  rotate_left
  · have hv : v1Option blocks s.cmd arg ((C.words[k + 1]?).getD []) = eff := by
      unfold v1Option; simp only [hl]
    rw [hv]
    obtain ⟨e', g1, g2⟩ := h1 _ hl
    exact ⟨e', _, g1, Or.inr rfl, g2⟩
  · have hv : v1Option blocks s.cmd arg ((C.words[k + 1]?).getD []) = v1Cluster (blocks.filter (Block.active s.cmd)) ((C.words[k + 1]?).getD []) arg.tail := by
      unfold v1Option; simp only [hl]
    rw [hv]
    obtain ⟨b, hb1⟩ := h2 hl
    rw [hb1, exec_loop]
    have hset : (Arith.set vI 1).eval { e with ok := b } = some (1, ({ e with ok := b } : Env).put vI (.str (decimal 1))) := rfl
    rw [hset, Option.bind_some]
    obtain ⟨e', f, g1, g2, g3⟩ := letters_run (fuel := fuel) (fs := fs) blocks hb (arg := arg) (arg.drop 1) 1 fuel ((h.ok b).local (x := vI) (by decide) (decimal 1))
      (put_same _ _ _) (by rw [put_other _ _ (by decide)]; exact ha) rfl (by simp; omega)
    refine ⟨e', f, ?_, g2, ?_⟩
    · rw [g1]
      rcases g2 with rfl | rfl
      · exact exec_done (fuel := fuel) (fs := fs) e'
      · rfl
    · rw [← List.drop_one]; exact g3

/-! ## Positional words -/

theorem lits_safe {t : Str} (h : ∀ c ∈ t, PlainChar c) : '\'' ∉ t := by
  intro hm
  have := (h _ hm).2
  revert this; decide

theorem quote_label {p : Str} (hp : ∀ c ∈ p, PlainChar c) (n : Nat) : quote (p ++ '|' :: natStr n) = '\'' :: (p ++ '|' :: natStr n) ++ ['\''] := by
  unfold quote
  simp only [Bool.not_true, Bool.and_false, Bool.false_eq_true, if_false]
  have h1 : needsQuote (p ++ '|' :: natStr n) = true := by
    cases hn : needsQuote (p ++ '|' :: natStr n) with
    | true => rfl
    | false => exact absurd ((needsQuote_false hn).2 '|' (by simp)) (by decide)
  have h2 : '\'' ∉ p ++ '|' :: natStr n := by
    simp only [List.mem_append, List.mem_cons, not_or]
    refine ⟨lits_safe hp, by decide, ?_⟩
    intro hm
    have := natStr_isDigit hm
    revert this; decide
  rw [if_neg (by simp [h1]), if_pos (by simpa using h2)]; rfl

theorem means_label {c : SwitchCase} (h : PlainBashSwitch c) : Means (quote (c.path ++ '|' :: natStr c.num)) (fun w => w = c.path ++ '|' :: natStr c.num) := by
  rw [quote_label h.path]
  apply means_quoted
  simp only [List.mem_append, List.mem_cons, not_or]
  refine ⟨lits_safe h.path, by decide, ?_⟩
  intro hm
  have := natStr_isDigit hm
  revert this; decide

theorem means_names {c : SwitchCase} (h : PlainBashSwitch c) {x : List Str × Str} (hx : x ∈ c.names) : Means (makePattern x.1) (fun w => w ∈ x.1) := by
  obtain ⟨h1, h2, h3, _⟩ := h.names x hx
  exact C11_exact_partial x.1 h1 h2 h3

/-- `cmd+=":word"`. -/
theorem run_addCmd (h : St C e s k) (v : Str) : Act.run fs e (addCmd v) = some (e.put vCmd (.str (s.cmd ++ ':' :: v)), .next) := by
  simp only [addCmd, Act.run, expand_lits, Option.bind_some, target_of (h.refs vCmd), Option.map_some, h.cmd, Val.text]

theorem run_addArg (h : St C e s k) {arg : Str} (ha : e.vars vArg = .str arg) : Act.run fs e addArg = some (e.put vCmd (.str (s.cmd ++ ':' :: arg)), .next) := by
  have : expand e [.lit ':', .var vArg] = some (':' :: arg, e) := by
    have h1 := expand_var ha
    show ((Part.lit ':').expand e).bind _ = _
    simp only [Part.expand, Option.bind_some, h1]; rfl
  simp only [addArg, Act.run, this, Option.bind_some, target_of (h.refs vCmd), Option.map_some, h.cmd, Val.text]

/-- The case of a subcommand. -/
theorem names_run {c : SwitchCase} (hc : PlainBashSwitch c) {arg : Str} : ∀ (l : List (List Str × Str)), (∀ x ∈ l, x ∈ c.names) → ∀ {e : Env}, St C e s k → e.vars vArg = .str arg →
    ∃ e', choose fuel fs arg (clauses (nameClauses l)) e = some (e', .next) ∧ St C e' { s with cmd := s.cmd ++ ':' :: switchName l arg } k
  | [], _, e, h, ha => by
    refine ⟨_, ?_, (h.ok true).setCmd _⟩
    show choose fuel fs arg (clauses [(['*'], one addArg)]) e = _
    rw [choose_hit means_star trivial, exec_one, andThen_next (run_addArg (h.ok true) ha)]; rfl
  | x :: l, hl, e, h, ha => by
    have hm := means_names hc (hl x (by simp))
    show ∃ e', choose fuel fs arg (clauses ((makePattern x.1, one (addCmd x.2)) :: nameClauses l)) e = _ ∧ _
    by_cases hx : arg ∈ x.1
    · refine ⟨_, ?_, (h.ok true).setCmd _⟩
      rw [choose_hit hm hx, exec_one, andThen_next (run_addCmd (h.ok true) x.2)]
      simp [switchName, hx]
    · rw [choose_miss hm hx]
      have := names_run hc (arg := arg) l (fun y hy => hl y (List.mem_cons_of_mem _ hy)) h ha
      simpa [switchName, hx] using this

theorem switchBody_run {c : SwitchCase} (hc : PlainBashSwitch c) {arg : Str} (h : St C e s k) (ha : e.vars vArg = .str arg) :
    ∃ e', exec fuel fs (switchBody c.names) e = some (e', .next) ∧ St C e' { s with cmd := s.cmd ++ ':' :: switchName c.names arg } k := by
  unfold switchBody
  split
  · rename_i hn
    rw [hn]
    refine ⟨_, ?_, h.setCmd _⟩
    rw [exec_one, andThen_next (run_addArg h ha)]; rfl
  · obtain ⟨e', g1, g2⟩ := names_run (fuel := fuel) (fs := fs) hc (arg := arg) c.names (fun _ hx => hx) h ha
    refine ⟨e', ?_, g2⟩
    rw [exec_case, expand_var ha, Option.bind_some, andThen_next g1, exec_done]

theorem switch_run {arg : Str} {n : Nat} : ∀ (cases : List SwitchCase), (∀ c ∈ cases, PlainBashSwitch c) → ∀ {e : Env}, St C e s k → e.vars vArg = .str arg →
    ∃ e', choose fuel fs (s.cmd ++ '|' :: natStr n) (clauses (cases.map (fun c => (quote (c.path ++ '|' :: natStr c.num), switchBody c.names)))) e = some (e', .next) ∧
      St C e' { s with cmd := switchCmd cases s.cmd n arg } k
  | [], _, e, h, _ => ⟨_, choose_nil _ _, h.ok true⟩
  | c :: cs, hc, e, h, ha => by
    have hm := means_label (hc c (by simp))
    rw [List.map_cons]
    by_cases hx : s.cmd ++ '|' :: natStr n = c.path ++ '|' :: natStr c.num
    · rw [choose_hit hm hx]
      have := switchBody_run (fuel := fuel) (fs := fs) (hc c (by simp)) (h.ok true) (arg := arg) ha
      have e1 : switchCmd (c :: cs) s.cmd n arg = s.cmd ++ ':' :: switchName c.names arg := by
        unfold switchCmd; rw [List.find?_cons_of_pos (by simpa using hx)]
      rw [e1]; exact this
    · rw [choose_miss hm hx]
      have e1 : switchCmd (c :: cs) s.cmd n arg = switchCmd cs s.cmd n arg := by
        unfold switchCmd; rw [List.find?_cons_of_neg (by simpa using hx)]
      rw [e1]
      exact switch_run cs (fun y hy => hc y (List.mem_cons_of_mem _ hy)) h ha

theorem positional_run [hp : HasPos C] (cases : List SwitchCase) (hc : ∀ c ∈ cases, PlainBashSwitch c) (h : St C e s k) {arg : Str} (ha : e.vars vArg = .str arg) :
    ∃ e', exec fuel fs (positionalCode cases) e = some (e', .next) ∧
      St C e' { s with positionals := s.positionals ++ [arg], cmd := switchCmd cases s.cmd (s.positionals.length + 1) arg } k := by
  have h1 := run_add fs (expand_var ha) (fun y i hh => by cases hh) (h.refs vPos)
  rw [h.pos, hp.pos] at h1
  simp only [Val.elements] at h1
  have h2 := h.setPos (s.positionals ++ [arg])
  have ha2 : (e.put vPos (.array (s.positionals ++ [arg]))).vars vArg = .str arg := by rw [put_other _ _ (by decide)]; exact ha
  unfold positionalCode
  rw [exec_act, andThen_next h1]
  unfold switchCode
  split
  · rename_i hn
    subst hn
    exact ⟨_, exec_done _, h2⟩
  · have he : expand (e.put vPos (.array (s.positionals ++ [arg]))) [.var vCmd, .lit '|', .count vPos] =
        some (s.cmd ++ '|' :: natStr (s.positionals.length + 1), e.put vPos (.array (s.positionals ++ [arg]))) := by
      simp only [expand, Part.expand]
      rw [value_of (h2.refs vCmd), h2.cmd]
      simp only [Option.map_some, Option.bind_some]
      rw [value_of (h2.refs vPos), h2.pos, hp.pos]
      simp [Val.text, Val.elements, decimal, natStr]
    obtain ⟨e', g1, g2⟩ := switch_run (fuel := fuel) (fs := fs) (arg := arg) (n := s.positionals.length + 1) cases hc h2 ha2
    refine ⟨e', ?_, g2⟩
    rw [exec_case, he, Option.bind_some]
    exact (andThen_next g1 _).trans (exec_done e')

/-! ## A word -/

theorem word_get (h : St C e s k) {w : Str} (hw : (C.words[k]?).getD [] = w) :
    Act.run fs e (.set vArg [.elem vWords (.atom (.var vArgi))]) = some (e.put vArg (.str w), .next) := by
  simp only [Act.run, expand, Part.expand, Arith.eval, Atom.eval, numberOf_of h.argi, Option.map_some, Option.bind_some]
  rw [value_of (h.refs vWords), h.words]
  simp only [Option.map_some, Option.bind_some, Val.elements, hw]
  rw [target_of (h.refs vArg)]
  simp

theorem wordCode_run (blocks : List Block) (cases : List SwitchCase) (h : St C e s k) {w : Str} (hw : (C.words[k]?).getD [] = w) :
    exec fuel fs (wordCode blocks cases) e = andThen
      (choose fuel fs w (clauses [(S "--", endCode), (S "-?*", dashCode blocks), (['*'], positionalCode cases)]) (e.put vArg (.str w)))
      (fun e => some (e, .next)) := by
  unfold wordCode
  rw [exec_act, andThen_next (word_get h hw), exec_case, expand_var (put_same _ _ _), Option.bind_some]
  congr 1

theorem word_dashes [hp : HasPos C] (blocks : List Block) (cases : List SwitchCase) (h : St C e s k) (hw : (C.words[k]?).getD [] = ['-', '-']) :
    ∃ e', exec fuel fs (wordCode blocks cases) e = some (e', .return_) ∧
      St C e' { s with endOfOptions := true, positionals := s.positionals ++ C.words.drop (k + 1) } (k + 1) := by
  rw [wordCode_run blocks cases h hw, choose_hit means_dashes rfl]
  have h1 := (h.local (x := vArg) (by decide) ['-', '-']).ok true
  have h2 := h1.setEnd
  have h3 := h2.inc (k + 1)
  have h4 := h3.setPos (s.positionals ++ C.words.drop (k + 1))
  refine ⟨_, ?_, h4⟩
  unfold endCode
  rw [exec_act]
  have a1 : Act.run fs ({ (e.put vArg (.str ['-', '-'])) with ok := true }) (.set vEnd (lits ['1'])) =
      some (({ (e.put vArg (.str ['-', '-'])) with ok := true } : Env).put vEnd (.str ['1']), .next) := by
    simp only [Act.run, expand_lits, Option.bind_some, target_of (h1.refs vEnd), Option.map_some]
  rw [andThen_next a1, exec_act]
  have a2 : Act.run fs (({ (e.put vArg (.str ['-', '-'])) with ok := true } : Env).put vEnd (.str ['1'])) (.addArray vPos [[.slice vWords (.atom (.inc vArgi))]]) =
      some (((({ (e.put vArg (.str ['-', '-'])) with ok := true } : Env).put vEnd (.str ['1'])).put vArgi (.str (decimal (k + 1)))).put vPos
        (.array (s.positionals ++ C.words.drop (k + 1))), .next) := by
    simp only [Act.run, expandAll, Arith.eval, Atom.eval, numberOf_of h2.argi, Option.map_some, Option.bind_some]
    rw [value_of (h3.refs vWords), h3.words]
    simp only [Option.bind_some, Val.elements, List.append_nil]
    rw [target_of (h3.refs vPos)]
    simp only [Option.map_some, h3.pos, hp.pos]
  rw [andThen_next a2, exec_one]
  rfl

theorem word_option [OwnOnly C] (blocks : List Block) (hb : ∀ b ∈ blocks, PlainBashBlock b) (cases : List SwitchCase) (h : St C e s k) {w : Str} (hw : (C.words[k]?).getD [] = w)
    (h1 : w ≠ ['-', '-']) (h2 : isOptionWord w = true) (hf : w.length < fuel) :
    ∃ e' f, exec fuel fs (wordCode blocks cases) e = some (e', f) ∧ (f = .next ∨ f = .continue_ 1) ∧
      St C e' { s with log := s.log ++ (v1Option blocks s.cmd w ((C.words[k + 1]?).getD [])).log }
        (if (v1Option blocks s.cmd w ((C.words[k + 1]?).getD [])).skip then k + 1 else k) := by
  rw [wordCode_run blocks cases h hw, choose_miss means_dashes h1, choose_hit means_option h2]
  obtain ⟨e', f, g1, g2, g3⟩ := dash_run (fuel := fuel) (fs := fs) blocks hb ((h.local (x := vArg) (by decide) w).ok true) (arg := w) (put_same _ _ _) hf
  refine ⟨e', f, ?_, g2, g3⟩
  rw [g1]
  rcases g2 with rfl | rfl <;> rfl

theorem word_positional [hp : HasPos C] (blocks : List Block) (cases : List SwitchCase) (hc : ∀ c ∈ cases, PlainBashSwitch c) (h : St C e s k) {w : Str} (hw : (C.words[k]?).getD [] = w)
    (h1 : w ≠ ['-', '-']) (h2 : isOptionWord w = false) :
    ∃ e', exec fuel fs (wordCode blocks cases) e = some (e', .next) ∧
      St C e' { s with positionals := s.positionals ++ [w], cmd := switchCmd cases s.cmd (s.positionals.length + 1) w } k := by
  rw [wordCode_run blocks cases h hw, choose_miss means_dashes h1, choose_miss means_option (by simp [h2]), choose_hit means_star trivial]
  obtain ⟨e', g1, g2⟩ := positional_run (fuel := fuel) (fs := fs) cases hc ((h.local (x := vArg) (by decide) w).ok true) (arg := w) (put_same _ _ _)
  exact ⟨e', by rw [g1]; rfl, g2⟩

/-! ## The loop over the words -/

theorem words_cond (h : St C e s k) : (Arith.lt (.var vArgi) (.var vCword)).eval e = some (if k < C.cword then 1 else 0, e) := by
  simp only [Arith.eval, Atom.eval, numberOf_of h.argi, numberOf_of h.cword, Option.map_some, Option.bind_some]

theorem rest_cond (h : St C e s k) : (Arith.le (.var vArgi) (.var vCword)).eval e = some (if k ≤ C.cword then 1 else 0, e) := by
  simp only [Arith.eval, Atom.eval, numberOf_of h.argi, numberOf_of h.cword, Option.map_some, Option.bind_some]

theorem words_inc (h : St C e s k) : (Arith.atom (.inc vArgi)).eval e = some (k + 1, e.put vArgi (.str (decimal (k + 1)))) := by
  simp only [Arith.eval, Atom.eval, numberOf_of h.argi, Option.map_some]

/-- The loop behind: the word at the cursor. -/
theorem rest_run [hp : HasPos C] (h : St C e s k) (hk : k = C.cword ∨ k = C.cword + 1) {cur : Str} (hcur : (C.words[C.cword]?).getD [] = cur) (hf : 2 ≤ fuel) :
    ∃ e' k', iterate (.le (.var vArgi) (.var vCword)) (.atom (.inc vArgi)) (exec fuel fs restCode) fuel e = some (e', .next) ∧
      St C e' (if k = C.cword ∧ isOptionWord cur = false then { s with positionals := s.positionals ++ [cur] } else s) k' := by
  obtain ⟨n, rfl⟩ : ∃ n, fuel = n + 2 := ⟨fuel - 2, by omega⟩
  have hend : ∀ {e : Env} {s : BState} (m : Nat), St C e s (C.cword + 1) →
      iterate (.le (.var vArgi) (.var vCword)) (.atom (.inc vArgi)) (exec (n + 2) fs restCode) (m + 1) e = some (e, .next) := by
    intro e s m h
    have := rest_cond h
    rw [if_neg (by omega)] at this
    exact iter_end this
  rcases hk with rfl | rfl
  · have hc := rest_cond h
    rw [if_pos (Nat.le_refl _)] at hc
    have hx : expand e [.elem vWords (.atom (.var vArgi))] = some (cur, e) := by
      simp only [expand, Part.expand, Arith.eval, Atom.eval, numberOf_of h.argi, Option.map_some, Option.bind_some]
      rw [value_of (h.refs vWords), h.words]
      simp [Val.elements, hcur]
    have hb : ∃ e1, exec (n + 2) fs restCode e = some (e1, .next) ∧
        St C e1 (if isOptionWord cur = false then { s with positionals := s.positionals ++ [cur] } else s) C.cword := by
      unfold restCode
      rw [exec_case, hx, Option.bind_some]
      cases ho : isOptionWord cur with
      | true =>
        rw [choose_hit means_option ho, exec_done]
        exact ⟨_, (andThen_next rfl _).trans (exec_done _), by simpa using h.ok true⟩
      | false =>
        rw [choose_miss means_option (by simp [ho]), choose_hit means_star trivial]
        have hx' : expand { e with ok := true } [.elem vWords (.atom (.var vArgi))] = some (cur, { e with ok := true }) := by
          have h := h.ok true
          simp only [expand, Part.expand, Arith.eval, Atom.eval, numberOf_of h.argi, Option.map_some, Option.bind_some]
          rw [value_of (h.refs vWords), h.words]
          simp [Val.elements, hcur]
        have h1 := run_add fs hx' (fun y i hh => by cases hh) ((h.ok true).refs vPos)
        rw [(h.ok true).pos, hp.pos] at h1
        simp only [Val.elements] at h1
        rw [exec_one, andThen_next h1]
        exact ⟨_, (andThen_next rfl _).trans (exec_done _), by simpa using (h.ok true).setPos (s.positionals ++ [cur])⟩
    obtain ⟨e1, b1, b2⟩ := hb
    have hstep := iter_go (fuel := n + 1) hc (by omega) b1 (Or.inl rfl) (words_inc b2)
    rw [hstep]
    refine ⟨_, C.cword + 1, hend n (b2.inc _), ?_⟩
    have := b2.inc (C.cword + 1)
    simpa using this
  · refine ⟨_, C.cword + 1, hend (n + 1) h, ?_⟩
    simpa using h

theorem after_run [HasPos C] (h : St C e s k) (hk : k = C.cword ∨ k = C.cword + 1) {cur : Str} (hcur : (C.words[C.cword]?).getD [] = cur) (hf : 2 ≤ fuel) :
    ∃ e' k', exec fuel fs (.loop .empty (.le (.var vArgi) (.var vCword)) (.atom (.inc vArgi)) restCode .done) e = some (e', .next) ∧
      St C e' (if k = C.cword ∧ isOptionWord cur = false then { s with positionals := s.positionals ++ [cur] } else s) k' := by
  obtain ⟨e', k', g1, g2⟩ := rest_run (fs := fs) h hk hcur hf
  refine ⟨e', k', ?_, g2⟩
  rw [exec_loop]
  have hinit : (Arith.eval e .empty).bind (fun r => iterate (.le (.var vArgi) (.var vCword)) (.atom (.inc vArgi)) (exec fuel fs restCode) fuel r.2) =
    iterate (.le (.var vArgi) (.var vCword)) (.atom (.inc vArgi)) (exec fuel fs restCode) fuel e := rfl
  rw [hinit]
  exact (andThen_next g1 _).trans (exec_done e')

/-- The code for a word, and the code behind the loop, do what a step of the model does. -/
structure Steps (C : Ctx) (fuel : Nat) (body after : Env → Option (Env × Flow)) (option : Str → Str → Str → BEffect) (cases : List SwitchCase) (cur : Str) : Prop where
  dashes : ∀ {e s k}, St C e s k → (C.words[k]?).getD [] = ['-', '-'] → ∃ e' k', body e = some (e', .return_) ∧
    St C e' { s with endOfOptions := true, positionals := s.positionals ++ C.words.drop (k + 1) } k'
  option : ∀ {e s k w}, St C e s k → (C.words[k]?).getD [] = w → w ≠ ['-', '-'] → isOptionWord w = true → w.length < fuel →
    ∃ e' f, body e = some (e', f) ∧ (f = .next ∨ f = .continue_ 1) ∧
      St C e' { s with log := s.log ++ (option s.cmd w ((C.words[k + 1]?).getD [])).log }
        (if (option s.cmd w ((C.words[k + 1]?).getD [])).skip then k + 1 else k)
  positional : ∀ {e s k w}, St C e s k → (C.words[k]?).getD [] = w → w ≠ ['-', '-'] → isOptionWord w = false →
    ∃ e', body e = some (e', .next) ∧
      St C e' { s with positionals := s.positionals ++ [w], cmd := switchCmd cases s.cmd (s.positionals.length + 1) w } k
  after : ∀ {e s k}, St C e s k → k = C.cword ∨ k = C.cword + 1 → (C.words[C.cword]?).getD [] = cur →
    ∃ e' k', after e = some (e', .next) ∧
      St C e' (if k = C.cword ∧ isOptionWord cur = false then { s with positionals := s.positionals ++ [cur] } else s) k'

/-- Both loops: what is left of the words is `ws`. -/
theorem loops_gen {body after : Env → Option (Env × Flow)} {option : Str → Str → Str → BEffect} {cases : List SwitchCase} {cur : Str} {post : List Str}
    (H : Steps C fuel body after option cases cur) : ∀ (n : Nat) (ws : List Str) (skip : Bool) {e : Env} {s : BState} {k : Nat}, ws.length < n → (∀ w ∈ ws, w.length < fuel) →
      C.words.drop k = ws ++ cur :: post → C.cword = k + ws.length → St C e s (if skip then k + 1 else k) →
      ∃ e' k' f, andThen (iterate (.lt (.var vArgi) (.var vCword)) (.atom (.inc vArgi)) body n e) after = some (e', f) ∧
        (f = .next ∨ f = .return_) ∧ St C e' (bashLoop option cases cur post s skip ws) k'
  | 0, _, _, _, _, _, hn, _, _, _, _ => by omega
  | n + 1, [], skip, e, s, k, hn, hlen, hd, hcw, h => by
    have hcur : (C.words[C.cword]?).getD [] = cur := by
      rw [hcw]
      have : C.words[k]? = some cur := by
        have := congrArg (fun l => l[0]?) hd
        simpa using this
      simp [this]
    have hcond := words_cond h
    rw [if_neg (by simp at hcw; split <;> omega)] at hcond
    rw [andThen_next (iter_end hcond)]
    obtain ⟨e', k', g1, g2⟩ := H.after h (by simp at hcw; cases skip <;> simp <;> omega) hcur
    refine ⟨e', k', .next, g1, Or.inl rfl, ?_⟩
    simp at hcw
    cases skip with
    | true =>
      rw [if_neg (by simp; omega)] at g2
      exact g2
    | false =>
      rw [bashLoop]
      cases ho : isOptionWord cur with
      | true => simpa [ho] using g2
      | false => simpa [ho, hcw] using g2
  | n + 1, w :: ws, true, e, s, k, hn, hlen, hd, hcw, h => by
    have ih := loops_gen (cur := cur) (post := post) H (n + 1) ws false (e := e) (s := s) (k := k + 1) (by simp at hn; omega)
      (fun x hx => hlen x (List.mem_cons_of_mem _ hx)) (by rw [← List.drop_drop, hd]; rfl) (by simp at hcw; omega) h
    rw [bashLoop]; exact ih
  | n + 1, w :: ws, false, e, s, k, hn, hlen, hd, hcw, h => by
    simp only [Bool.false_eq_true, if_false] at h
    have hlt : k < C.cword := by simp at hcw; omega
    have hcond := words_cond h
    rw [if_pos hlt] at hcond
    have hget : C.words[k]? = some w := by
      have := congrArg (fun l => l[0]?) hd
      simpa using this
    have hw : (C.words[k]?).getD [] = w := by rw [hget]; rfl
    have hd1 : C.words.drop (k + 1) = ws ++ cur :: post := by rw [← List.drop_drop, hd]; rfl
    have hnext : (C.words[k + 1]?).getD [] = ws.headD cur := by
      have := congrArg (fun l => l[0]?) hd1
      simp only [List.getElem?_drop, Nat.add_zero] at this
      rw [this]
      cases ws <;> rfl
    rw [bashLoop]
    by_cases h1 : w = ['-', '-']
    · rw [if_pos h1]
      obtain ⟨e', k', g1, g2⟩ := H.dashes h (hw.trans h1)
      refine ⟨e', k', .return_, ?_, Or.inr rfl, ?_⟩
      · rw [iter_return hcond (by omega) g1]; rfl
      · rw [hd1, ← List.append_assoc] at g2; exact g2
    · rw [if_neg h1]
      cases h2 : isOptionWord w with
      | true =>
        obtain ⟨e1, f, g1, g2, g3⟩ := H.option h hw h1 h2 (hlen w (by simp))
        rw [iter_go hcond (by omega) g1 g2 (words_inc g3)]
        rw [hnext] at g3
        have g4 := g3.inc ((if (option s.cmd w (ws.headD cur)).skip = true then k + 1 else k) + 1)
        simp only [if_true]
        rw [hnext]
        refine loops_gen H n ws (option s.cmd w (ws.headD cur)).skip (k := k + 1) (by simp at hn; omega)
          (fun x hx => hlen x (List.mem_cons_of_mem _ hx)) hd1 (by simp at hcw; omega) ?_
        generalize option s.cmd w (ws.headD cur) = eff at g4 ⊢
        cases hs : eff.skip <;> simpa [hs] using g4
      | false =>
        obtain ⟨e1, g1, g3⟩ := H.positional h hw h1 h2
        rw [iter_go hcond (by omega) g1 (Or.inl rfl) (words_inc g3)]
        simp only [Bool.false_eq_true, if_false]
        exact loops_gen H n ws false (k := k + 1) (by simp at hn; omega)
          (fun x hx => hlen x (List.mem_cons_of_mem _ hx)) hd1 (by simp at hcw; omega) (g3.inc _)

theorem v1_steps [HasPos C] [OwnOnly C] (blocks : List Block) (hb : ∀ b ∈ blocks, PlainBashBlock b) (cases : List SwitchCase) (hc : ∀ c ∈ cases, PlainBashSwitch c)
    (cur : Str) (hf : 2 ≤ fuel) : Steps C fuel (exec fuel fs (wordCode blocks cases))
      (exec fuel fs (.loop .empty (.le (.var vArgi) (.var vCword)) (.atom (.inc vArgi)) restCode .done)) (v1Option blocks) cases cur where
  dashes h hw := by
    obtain ⟨e', g1, g2⟩ := word_dashes (fuel := fuel) (fs := fs) blocks cases h hw
    exact ⟨e', _, g1, g2⟩
  option h hw h1 h2 h3 := word_option blocks hb cases h hw h1 h2 h3
  positional h hw h1 h2 := word_positional blocks cases hc h hw h1 h2
  after h hk hcur := after_run h hk hcur hf

/-! ## The function -/

/-- The variables that are local to the function. -/
def localNames : List Str := [vCmd, vArgi, vArg, vI, vChar, vTrailing]

/-- The parser begins with these variables. -/
def headEnv (e : Env) : Env :=
  declare (declare (declare (declare (declare (declare ((e.put vPos (.array [])).put vEnd (.str ['0']))
    vCmd (.str "root".toList)) vArgi .unset) vArg .unset) vI .unset) vChar .unset) vTrailing .unset

theorem head_exec (e : Env) (hr : ∀ x y, e.vars x ≠ .ref y) (K : Code) :
    exec fuel fs (.act (.setArray vPos []) (.act (.set vEnd (lits ['0']))
      (.act (.localSet vCmd (lits "root".toList)) (.act (.local_ vArgi) (.act (.local_ vArg) (.act (.local_ vI) (.act (.local_ vChar)
        (.act (.local_ vTrailing) K)))))))) e = exec fuel fs K (headEnv e) := by
  have a1 : Act.run fs e (.setArray vPos []) = some (e.put vPos (.array []), .next) := by
    simp only [Act.run, expandAll, Option.bind_some, target_of (hr vPos), Option.map_some]
  have r1 : ∀ y, (e.put vPos (.array [])).vars vEnd ≠ .ref y := by
    intro y; rw [put_other _ _ (by decide)]; exact hr _ y
  have a2 : Act.run fs (e.put vPos (.array [])) (.set vEnd (lits ['0'])) = some ((e.put vPos (.array [])).put vEnd (.str ['0']), .next) := by
    simp only [Act.run, expand_lits, Option.bind_some, target_of r1, Option.map_some]
  rw [exec_act, andThen_next a1, exec_act, andThen_next a2, exec_act]
  have a3 : ∀ e : Env, Act.run fs e (.localSet vCmd (lits "root".toList)) = some (declare e vCmd (.str "root".toList), .next) := by
    intro e; simp only [Act.run, expand_lits, Option.map_some]
  have a4 : ∀ (e : Env) (x : Str), Act.run fs e (.local_ x) = some (declare e x .unset, .next) := fun _ _ => rfl
  rw [andThen_next (a3 _), exec_act, andThen_next (a4 _ _), exec_act, andThen_next (a4 _ _), exec_act, andThen_next (a4 _ _), exec_act,
    andThen_next (a4 _ _), exec_act, andThen_next (a4 _ _)]
  rfl

theorem headEnv_other (e : Env) {v : Str} (h : v ∉ localNames) (h1 : v ≠ vPos) (h2 : v ≠ vEnd) : (headEnv e).vars v = e.vars v := by
  simp only [localNames, List.mem_cons, List.not_mem_nil, or_false, not_or] at h
  obtain ⟨g1, g2, g3, g4, g5, g6⟩ := h
  simp only [headEnv, declare, Env.put, if_neg g1, if_neg g2, if_neg g3, if_neg g4, if_neg g5, if_neg g6, if_neg h1, if_neg h2]

theorem headEnv_saved (e : Env) : (headEnv e).saved =
    [(vTrailing, e.vars vTrailing), (vChar, e.vars vChar), (vI, e.vars vI), (vArg, e.vars vArg), (vArgi, e.vars vArgi), (vCmd, e.vars vCmd)] ++ e.saved := rfl

/-- The values from outside. -/
theorem restore_saved {f : Str → Val} : ∀ (l : List Str) (e : Env) (v : Str), (restore e (l.map (fun x => (x, f x)))).vars v = if v ∈ l then f v else e.vars v
  | [], e, v => by simp [restore]
  | x :: l, e, v => by
    rw [List.map_cons, restore, restore_saved l]
    by_cases h1 : v ∈ l
    · simp [h1]
    · by_cases h2 : v = x
      · subst h2; simp [h1]
      · simp [h1, h2]

theorem restore_saved_args : ∀ (l : List (Str × Val)) (e : Env), (restore e l).ok = e.ok
  | [], _ => rfl
  | _ :: l, _ => by rw [restore, restore_saved_args l]

theorem put_refs {e : Env} (hr : ∀ x y, e.vars x ≠ .ref y) (z : Str) {v : Val} (hv : ∀ y, v ≠ .ref y) : ∀ x y, (e.put z v).vars x ≠ .ref y := by
  intro x y
  by_cases hx : x = z
  · subst hx; rw [put_same]; exact hv y
  · rw [put_other _ _ hx]; exact hr x y

theorem declare_refs {e : Env} (hr : ∀ x y, e.vars x ≠ .ref y) (z : Str) {v : Val} (hv : ∀ y, v ≠ .ref y) : ∀ x y, (declare e z v).vars x ≠ .ref y :=
  put_refs hr z hv

theorem head_refs {e : Env} (hr : ∀ x y, e.vars x ≠ .ref y) : ∀ x y, (headEnv e).vars x ≠ .ref y :=
  declare_refs (declare_refs (declare_refs (declare_refs (declare_refs (declare_refs (put_refs (put_refs hr _ (fun _ h => by cases h)) _ (fun _ h => by cases h)) _
    (fun _ h => by cases h)) _ (fun _ h => by cases h)) _ (fun _ h => by cases h)) _ (fun _ h => by cases h)) _ (fun _ h => by cases h)) _ (fun _ h => by cases h)

theorem declare_other (e : Env) {x y : Str} (v : Val) (h : y ≠ x) : (declare e x v).vars y = e.vars y := if_neg h
theorem declare_same (e : Env) (x : Str) (v : Val) : (declare e x v).vars x = v := if_pos rfl

theorem head_st {e : Env} {words : List Str} {cword : Nat} (hr : ∀ x y, e.vars x ≠ .ref y) (hw : e.vars vWords = .array words) (hcw : e.vars vCword = .str (decimal cword)) :
    St ⟨e.vars, words, cword, (headEnv e).saved, e.args, [], .array⟩ ((headEnv e).put vArgi (.str (decimal 1))) {} 1 := by
  refine ⟨put_refs (head_refs hr) _ (fun _ h => by cases h), ?_, put_same _ _ _, ?_, ?_, ?_, ?_, ?_, rfl, rfl⟩
  · unfold headEnv
    rw [put_other _ _ (by decide), declare_other _ _ (by decide), declare_other _ _ (by decide), declare_other _ _ (by decide), declare_other _ _ (by decide),
      declare_other _ _ (by decide), declare_same]
    rfl
  · unfold headEnv
    rw [put_other _ _ (by decide), declare_other _ _ (by decide), declare_other _ _ (by decide), declare_other _ _ (by decide), declare_other _ _ (by decide),
      declare_other _ _ (by decide), declare_other _ _ (by decide), put_other _ _ (by decide), put_same]
  · unfold headEnv
    rw [put_other _ _ (by decide), declare_other _ _ (by decide), declare_other _ _ (by decide), declare_other _ _ (by decide), declare_other _ _ (by decide),
      declare_other _ _ (by decide), declare_other _ _ (by decide), put_same]
    rfl
  · rw [put_other _ _ (by decide), headEnv_other _ (by decide) (by decide) (by decide)]; exact hw
  · rw [put_other _ _ (by decide), headEnv_other _ (by decide) (by decide) (by decide)]; exact hcw
  · intro v hv
    have hl : v ∉ localNames := fun hm => hv (by
      apply List.mem_append_left
      simp only [localNames, List.mem_cons, List.not_mem_nil, or_false] at hm
      rcases hm with rfl | rfl | rfl | rfl | rfl | rfl <;> decide)
    rw [put_other _ _ (Ne.symm (ne_own hv (by decide))), headEnv_other _ hl (Ne.symm (ne_own hv (by decide))) (Ne.symm (ne_own hv (by decide)))]
    rfl

/-- What running the function does. -/
theorem v1_run (blocks : List Block) (hb : ∀ b ∈ blocks, PlainBashBlock b) (cases : List SwitchCase) (hc : ∀ c ∈ cases, PlainBashSwitch c) (e : Env) (args : List Str)
    {prog cur : Str} {words post : List Str} (hr : ∀ x y, e.vars x ≠ .ref y) (hw : e.vars vWords = .array (prog :: words ++ cur :: post))
    (hcw : e.vars vCword = .str (decimal (words.length + 1))) (hf1 : words.length + 2 ≤ fuel) (hf2 : ∀ w ∈ words, w.length < fuel) :
    ∃ e', closure (exec fuel fs (v1Code blocks cases)) args e = some e' ∧ e'.args = e.args ∧ e'.saved = e.saved ∧
      e'.vars vPos = .array (bashParseV1 blocks cases words cur post).positionals ∧
      e'.vars vEnd = .str (if (bashParseV1 blocks cases words cur post).endOfOptions then ['1'] else ['0']) ∧
      (∀ v ∈ parserNames, v ≠ vPos → v ≠ vEnd → e'.vars v = e.vars v) ∧
      (∀ v, v ∉ parserNames → e'.vars v = logged (e.vars v) (valuesOf v (bashParseV1 blocks cases words cur post).log)) := by
  let e0 : Env := { e with args := args, saved := [] }
  have hr0 : ∀ x y, e0.vars x ≠ .ref y := hr
  let C : Ctx := ⟨e.vars, prog :: words ++ cur :: post, words.length + 1, (headEnv e0).saved, args, [], .array⟩
  haveI : HasPos C := ⟨rfl⟩
  haveI : OwnOnly C := ⟨rfl⟩
  have hst : St C ((headEnv e0).put vArgi (.str (decimal 1))) {} 1 := head_st hr0 hw hcw
  obtain ⟨e1, k1, f, g1, g2, g3⟩ := loops_gen (C := C) (fuel := fuel) (cur := cur) (post := post)
    (v1_steps (fs := fs) blocks hb cases hc cur (by omega)) fuel words false (k := 1)
    (e := (headEnv e0).put vArgi (.str (decimal 1))) (s := {}) (by omega) hf2 (by rfl) (by show words.length + 1 = _; omega) (by simpa using hst)
  have hx : exec fuel fs (v1Code blocks cases) e0 = some (e1, f) := by
    unfold v1Code
    rw [head_exec e0 hr0, exec_loop]
    have hset : (Arith.set vArgi 1).eval (headEnv e0) = some (1, (headEnv e0).put vArgi (.str (decimal 1))) := by
      simp only [Arith.eval]
    rw [hset, Option.bind_some]
    exact g1
  have hs := g3.saved
  have hsv : C.saved = [vTrailing, vChar, vI, vArg, vArgi, vCmd].map (fun x => (x, e.vars x)) := rfl
  refine ⟨{ (restore e1 e1.saved) with args := e.args, saved := e.saved }, ?_, rfl, rfl, ?_, ?_, ?_, ?_⟩
  · unfold closure
    show (exec fuel fs (v1Code blocks cases) e0).bind _ = _
    rw [hx, Option.bind_some]
    rcases g2 with rfl | rfl <;> rfl
  · show (restore e1 e1.saved).vars vPos = _
    rw [hs, hsv, restore_saved, if_neg (by decide)]; exact g3.pos
  · show (restore e1 e1.saved).vars vEnd = _
    rw [hs, hsv, restore_saved, if_neg (by decide)]; exact g3.fin
  · intro v hv h1 h2
    show (restore e1 e1.saved).vars v = _
    rw [hs, hsv, restore_saved]
    split
    · rfl
    · rename_i hn
      have : v = vWords ∨ v = vCword := by
        simp only [parserNames, List.mem_cons, List.not_mem_nil, or_false] at hv
        rcases hv with rfl | rfl | rfl | rfl | rfl | rfl | rfl | rfl | rfl | rfl
        · exact absurd (by decide) hn
        · exact absurd (by decide) hn
        · exact absurd (by decide) hn
        · exact absurd (by decide) hn
        · exact absurd (by decide) hn
        · exact absurd (by decide) hn
        · exact absurd rfl h1
        · exact absurd rfl h2
        · exact Or.inl rfl
        · exact Or.inr rfl
      rcases this with rfl | rfl
      · rw [g3.words, hw]
      · rw [g3.cword, hcw]
  · intro v hv
    show (restore e1 e1.saved).vars v = _
    rw [hs, hsv, restore_saved, if_neg]
    · exact g3.opts v (OwnOnly.own hv)
    · intro hm
      apply hv
      simp only [List.mem_cons, List.not_mem_nil, or_false] at hm
      rcases hm with rfl | rfl | rfl | rfl | rfl | rfl <;> decide

end BashText
