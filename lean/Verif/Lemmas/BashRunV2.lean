import Verif.Lemmas.BashReadV2
import Verif.Lemmas.BashPlainText
/-!
# Lemmas: what running the Bash parser (version 2) does
-/

namespace BashText
open CC

variable {C : Ctx} {e : Env} {s : BState} {k : Nat} {fuel : Nat} {fs : Funs}

/-! ## Patterns -/

/-- `t*=*`. -/
theorem means_inside {t : Str} (h : ∀ c ∈ t, LitChar caseCtx c) (ht : '=' ∉ t) :
    Means (t ++ ['*', '=', '*']) (fun w => startsWith w t = true ∧ '=' ∈ w) := by
  have hs := readable_wild (k := '*') (Or.inl rfl)
  have h2 : Readable caseCtx ('=' :: ['*']) := readable_lit_cons lit_equals hs
  have h3 : Readable caseCtx (['*'] ++ '=' :: ['*']) := readable_append hs h2
  refine (means_of_readable (t := t ++ (['*'] ++ '=' :: ['*'])) (readable_append (readable_lits h) h3) (by simp)).congr ?_
  intro w
  rw [matches_append (readable_lits h) h3, startsWith_iff]
  constructor
  · rintro ⟨a, b, rfl, ha, hb⟩
    rw [matches_lits h] at ha
    subst ha
    refine ⟨⟨b, rfl⟩, List.mem_append_right _ ?_⟩
    rw [matches_append hs h2] at hb
    obtain ⟨x, y, rfl, _, hy⟩ := hb
    rw [matches_lit_cons lit_equals hs] at hy
    obtain ⟨z, rfl, _⟩ := hy
    simp
  · rintro ⟨⟨r, rfl⟩, hm⟩
    refine ⟨t, r, rfl, (matches_lits h t).2 rfl, ?_⟩
    have hr : '=' ∈ r := by
      rcases List.mem_append.mp hm with hm | hm
      · exact absurd hm ht
      · exact hm
    obtain ⟨x, y, rfl⟩ := List.append_of_mem hr
    rw [matches_append hs h2]
    refine ⟨x, '=' :: y, rfl, matches_star x, ?_⟩
    rw [matches_lit_cons lit_equals hs]
    exact ⟨y, rfl, matches_star y⟩

/-- `'t'*`. -/
theorem means_quoted_star {t : Str} (h : '\'' ∉ t) : Means ('\'' :: t ++ ['\''] ++ ['*']) (fun w => startsWith w t = true) := by
  have hg : gread caseCtx {} ('\'' :: t ++ ['\''] ++ ['*']) = some ⟨[], [], t.map Glob.lit, .pend '*'⟩ := by
    rw [gread_append, gread_append, gread_cons]
    have : gstep caseCtx {} '\'' = some ⟨[], [], [], .sq⟩ := by rfl
    rw [this]
    show ((gread caseCtx ⟨[], [], [], .sq⟩ t).bind _).bind _ = _
    rw [gread_sq t h]; rfl
  refine ⟨[t.map Glob.lit ++ [.star]], ?_, ?_⟩
  · unfold readGlob
    rw [if_neg (by simp), hg]; rfl
  · intro w
    simp only [Glob.AltLang, or_false, seqLang_append, seqLang_lits, seqLang_single, startsWith_iff]
    constructor
    · rintro ⟨a, b, rfl, rfl, _⟩; exact ⟨b, rfl⟩
    · rintro ⟨b, rfl⟩; exact ⟨t, b, rfl, rfl, by simp [Glob.Lang]⟩

theorem quote_cases {t : Str} (h : '\'' ∉ t) : quote t = t ∨ quote t = '\'' :: t ++ ['\''] := by
  unfold quote
  simp only [Bool.not_true, Bool.and_false, Bool.false_eq_true, if_false]
  cases hn : needsQuote t with
  | false => left; simp
  | true => right; rw [if_neg (by simp), if_pos (by simpa using h)]; rfl

theorem means_path2 {b : Block} (h : PlainBashBlock b) : Means (patPath2 b) (fun w => Block.active w b = true) := by
  have hq : '\'' ∉ b.path := lits_safe h.path.2.2
  rcases quote_cases hq with he | he
  · have := means_path h
    unfold patPath2; rw [he]
    unfold patPath at this
    cases hb : b.inherits <;> simp only [hb] at this ⊢ <;> simpa using this
  · unfold patPath2 Block.active
    rw [he]
    cases hb : b.inherits with
    | true => simpa using means_quoted_star hq
    | false => simpa using means_quoted hq

/-! ## The function that finds options -/

/-- The names of an option. -/
def isNameOf (name : Str) (o : BOpt) : Bool := o.shorts.contains name || o.longs.contains name

/-- The option that the text finds: with one command it is not checked which command it is. -/
def textFind (blocks : List Block) (cmd name : Str) : Option BOpt :=
  match blocks with
  | [b] => b.opts.find? (isNameOf name)
  | blocks => findBOpt blocks cmd name

/-- The variables when an option is found, or not. -/
def foundEnv (e : Env) : Option BOpt → Env
  | some o => (e.put vVar (.str o.var)).put vArgs (.str (argsOf o.kind))
  | none => { e with ok := false }

/-- The environment has no references. -/
abbrev NoRefs (e : Env) : Prop := ∀ x y, e.vars x ≠ .ref y

theorem means_all {o : BOpt} (h : PlainBashOption2 o) : Means (patAll o) (fun w => isNameOf w o = true) := by
  refine Means.congr (C11_exact_partial (o.shorts ++ o.longs) h.ne ?_ h.clash) (fun w => by simp [isNameOf])
  intro t ht
  rcases List.mem_append.mp ht with ht | ht
  · obtain ⟨c, rfl, hc⟩ := h.plain.shorts t ht
    refine ⟨by simp, ?_⟩
    intro x hx
    simp only [List.mem_cons, List.not_mem_nil, or_false] at hx
    rcases hx with rfl | rfl
    · unfold PlainChar; decide
    · exact hc
  · have := h.plain.longs t ht
    refine ⟨?_, this.2⟩
    rintro rfl
    exact absurd this.1 (by simp)

theorem found_exec (hr : NoRefs e) (o : BOpt) : exec fuel fs (foundCode o) e = some (foundEnv e (some o), .return_) := by
  have a1 : Act.run fs e (.set vVar (lits o.var)) = some (e.put vVar (.str o.var), .next) := by
    simp only [Act.run, expand_lits, Option.bind_some, target_of (hr vVar), Option.map_some]
  have a2 : Act.run fs (e.put vVar (.str o.var)) (.set vArgs (lits (argsOf o.kind))) = some (foundEnv e (some o), .next) := by
    have : ∀ y, (e.put vVar (.str o.var)).vars vArgs ≠ .ref y := by intro y; rw [put_other _ _ (by decide)]; exact hr _ y
    simp only [Act.run, expand_lits, Option.bind_some, target_of this, Option.map_some]; rfl
  unfold foundCode
  rw [exec_act, andThen_next a1, exec_act, andThen_next a2, exec_one]; rfl

theorem options_choose (hr : NoRefs e) (name : Str) : ∀ (os : List BOpt), (∀ o ∈ os, PlainBashOption2 o) →
    choose fuel fs name (clauses (optionClauses os)) e = match os.find? (isNameOf name) with
      | some o => some (foundEnv e (some o), .return_)
      | none => some ({ e with ok := true }, .next)
  | [], _ => choose_nil _ _
  | o :: os, h => by
    have ih := options_choose hr name os (fun x hx => h x (List.mem_cons_of_mem _ hx))
    have m := means_all (h o (by simp))
    show choose fuel fs name (clauses ((patAll o, foundCode o) :: optionClauses os)) e = _
    rw [List.find?_cons]
    cases hn : isNameOf name o with
    | true =>
      rw [choose_hit m hn]
      exact found_exec (e := { e with ok := true }) hr o
    | false =>
      rw [choose_miss m (by simp [hn])]
      exact ih

theorem options_exec (hr : NoRefs e) {cmd name : Str} (ha : e.args = [cmd, name]) (os : List BOpt) (h : ∀ o ∈ os, PlainBashOption2 o) (K : Code) :
    exec fuel fs (optionsCode os ++ K) e = match os.find? (isNameOf name) with
      | some o => some (foundEnv e (some o), .return_)
      | none => exec fuel fs K { e with ok := true } := by
  show exec fuel fs (.case_ [.arg 2] (clauses (optionClauses os)) K) e = _
  rw [exec_case]
  have : expand e [.arg 2] = some (name, e) := by simp [expand, Part.expand, ha]
  rw [this, Option.bind_some, options_choose hr name os h]
  cases os.find? (isNameOf name) <;> rfl

theorem blocks_exec {cmd name : Str} : ∀ (bs : List Block), (∀ b ∈ bs, PlainBashBlock b ∧ ∀ o ∈ b.opts, PlainBashOption2 o) → ∀ {e : Env}, NoRefs e → e.args = [cmd, name] →
    exec fuel fs (codes (bs.map blockCode2) ++ one (.return_ (some 1))) e = some (foundEnv e (findBOpt bs cmd name), .return_)
  | [], _, e, _, _ => by
    show exec fuel fs (one (.return_ (some 1))) e = _
    rw [exec_one]; rfl
  | b :: bs, h, e, hr, ha => by
    have m := means_path2 (h b (by simp)).1
    have ih : exec fuel fs (codes (bs.map blockCode2) ++ one (.return_ (some 1))) { e with ok := true } = some (foundEnv e (findBOpt bs cmd name), .return_) := by
      rw [blocks_exec bs (fun x hx => h x (List.mem_cons_of_mem _ hx)) (e := { e with ok := true }) hr ha]
      cases findBOpt bs cmd name <;> rfl
    rw [List.map_cons, codes_cons, append_assoc']
    show exec fuel fs (.case_ [.arg 1] (clauses [(patPath2 b, optionsCode b.opts)]) (codes (bs.map blockCode2) ++ one (.return_ (some 1)))) e = _
    rw [exec_case]
    have : expand e [.arg 1] = some (cmd, e) := by simp [expand, Part.expand, ha]
    rw [this, Option.bind_some]
    cases hact : Block.active cmd b with
    | false =>
      have hf : findBOpt (b :: bs) cmd name = findBOpt bs cmd name := by
        unfold findBOpt; rw [List.filter_cons, if_neg (by simp [hact])]
      rw [choose_miss m (by simp [hact]), choose_nil, hf]
      exact ih
    | true =>
      have hf : findBOpt (b :: bs) cmd name = match b.opts.find? (isNameOf name) with
          | some o => some o
          | none => findBOpt bs cmd name := by
        unfold findBOpt; rw [List.filter_cons, if_pos hact, List.findSome?_cons]
        have hfun : b.opts.find? (fun o => o.shorts.contains name || o.longs.contains name) = b.opts.find? (isNameOf name) := rfl
        rw [hfun]
        cases b.opts.find? (isNameOf name) <;> rfl
      rw [choose_hit m hact, hf]
      have he := options_exec (fuel := fuel) (fs := fs) (e := { e with ok := true }) (name := name) hr ha b.opts (h b (by simp)).2 .done
      rw [append_done] at he
      show andThen (exec fuel fs (optionsCode b.opts) { e with ok := true }) _ = _
      rw [he]
      cases hx : b.opts.find? (isNameOf name) with
      | none => simp only; rw [exec_done]; exact ih
      | some o => rfl

theorem find_exec {cmd name : Str} {blocks : List Block} (h : ∀ b ∈ blocks, PlainBashBlock b ∧ ∀ o ∈ b.opts, PlainBashOption2 o) (hr : NoRefs e) (ha : e.args = [cmd, name]) :
    exec fuel fs (findBody blocks) e = some (foundEnv e (textFind blocks cmd name), .return_) := by
  unfold findBody findCodes textFind
  split
  · rename_i b
    simp only
    split
    · rename_i he
      have : b.opts = [] := by simpa using he
      rw [this]
      show exec fuel fs (one (.return_ (some 1))) e = _
      rw [exec_one]; rfl
    · rw [codes_cons, show codes [] = Code.done from rfl, append_done, options_exec hr ha b.opts (h b (by simp)).2]
      cases b.opts.find? (isNameOf name) with
      | some o => rfl
      | none => simp only; rw [exec_one]; rfl
  · rename_i hne
    split
    · rename_i b; exact absurd rfl (hne b)
    · rename_i hne2
      have := blocks_exec (fuel := fuel) (fs := fs) (cmd := cmd) (name := name) (blocks.filter (fun b => !b.opts.isEmpty)) (fun b hb => h b (List.mem_filter.mp hb).1) hr ha
      rw [this]
      congr 3
      unfold findBOpt
      clear this h hne hne2
      induction blocks with
      | nil => rfl
      | cons b bs ih =>
        rw [List.filter_cons]
        by_cases ho : b.opts = []
        · rw [if_neg (by simp [ho]), ih, List.filter_cons]
          split
          · rw [List.findSome?_cons, ho]; rfl
          · rfl
        · rw [if_pos (by simp [ho]), List.filter_cons, List.filter_cons]
          split
          · rw [List.findSome?_cons, List.findSome?_cons, ih]
          · exact ih

theorem find_run {cmd name : Str} {blocks : List Block} (h : ∀ b ∈ blocks, PlainBashBlock b ∧ ∀ o ∈ b.opts, PlainBashOption2 o) (hr : NoRefs e) :
    closure (exec fuel fs (findBody blocks)) [cmd, name] e = some (foundEnv e (textFind blocks cmd name)) := by
  unfold closure
  rw [find_exec (e := { e with args := [cmd, name], saved := [] }) (cmd := cmd) (name := name) h hr rfl, Option.bind_some]
  cases textFind blocks cmd name <;> rfl

/-! ## The function that appends -/

theorem append_run {v x : Str} (hr : NoRefs e) (hv : v ≠ vArr) :
    closure (exec fuel fs appendBody) [v, x] e = some (e.put v (.array ((e.vars v).elements ++ [x]))) := by
  let e0 : Env := { e with args := [v, x], saved := [] }
  let e1 : Env := declare e0 vArr (.ref v)
  have a1 : Act.run fs e0 (.localRef vArr [.arg 1]) = some (e1, .next) := by
    have : expand e0 [.arg 1] = some (v, e0) := by simp [expand, Part.expand, e0]
    simp only [Act.run, this, Option.bind_some, if_neg hv]; rfl
  have hv1 : e1.vars v = e.vars v := declare_other _ _ hv
  have ht : target e1 vArr = some v := by
    unfold target
    rw [show e1.vars vArr = .ref v from declare_same _ _ _]
    simp only [hv1]
    split
    · rename_i y hy; exact absurd hy (hr v y)
    · rfl
  have a2 : Act.run fs e1 (.addArray vArr [[.arg 2]]) = some (e1.put v (.array ((e.vars v).elements ++ [x])), .next) := by
    have h1 : expandAll e1 [[.arg 2]] = some ([x], e1) := by simp [expandAll, expand, Part.expand, e1, e0, declare, Env.put]
    simp only [Act.run, h1, Option.bind_some, ht, Option.map_some, hv1]
  unfold closure appendBody
  show (exec fuel fs _ e0).bind _ = _
  rw [exec_act, andThen_next a1, exec_one, andThen_next a2, Option.bind_some]
  show some _ = some _
  congr 1
  show Env.mk _ _ _ _ = Env.mk _ _ _ _
  congr 1
  funext y
  show (if y = vArr then e.vars vArr else (if y = v then _ else e1.vars y)) = if y = v then _ else e.vars y
  by_cases hy : y = vArr
  · subst hy; rw [if_pos rfl, if_neg (Ne.symm hv)]
  · rw [if_neg hy]
    by_cases hyv : y = v
    · rw [if_pos hyv, if_pos hyv]
    · rw [if_neg hyv, if_neg hyv]; exact declare_other _ _ hy

/-! ## Calls -/

/-- The functions that the text defines. -/
structure Calls (fs : Funs) (find : Str → Str → Option BOpt) : Prop where
  find : ∀ {e : Env} {cmd name : Str}, NoRefs e → ((fs.find? (fun g => decide (g.1 = fFind))).bind (fun g => g.2 [cmd, name] e)) = some (foundEnv e (find cmd name))
  append : ∀ {e : Env} {v x : Str}, NoRefs e → v ≠ vArr →
    ((fs.find? (fun g => decide (g.1 = fAppend))).bind (fun g => g.2 [v, x] e)) = some (e.put v (.array ((e.vars v).elements ++ [x])))

/-- The options that may be found. -/
def GoodFind (C : Ctx) (find : Str → Str → Option BOpt) : Prop := ∀ cmd name o, find cmd name = some o → o.var ∉ C.own ∧ o.var ≠ vArr

/-- The parser uses two more names. -/
class OwnTwo (C : Ctx) : Prop where
  extra : C.extra = [vVar, vArgs]

theorem expandAll_cons {e e1 : Env} {w : Word} {x : Str} (hw : ∀ y i, w ≠ [.slice y i]) (h : expand e w = some (x, e1)) (r : List Word) :
    expandAll e (w :: r) = (expandAll e1 r).map (fun b => (x :: b.1, b.2)) := by
  rw [expandAll]
  · rw [h]; rfl
  · intro y i hh; exact hw y i hh

theorem St.extra [H : OwnTwo C] (h : St C e s k) {x : Str} (hx : x ∈ [vVar, vArgs]) (t : Str) : St C (e.put x (.str t)) s k := by
  have ho : ∀ y, y ∉ C.own → y ≠ x := by
    rintro y hy rfl
    apply hy
    unfold Ctx.own
    rw [H.extra]
    exact List.mem_append_right _ hx
  have hne : ∀ y ∈ [vCmd, vArgi, vPos, vEnd, vWords, vCword], y ≠ x := by
    simp only [List.mem_cons, List.not_mem_nil, or_false] at hx
    rcases hx with rfl | rfl <;> decide
  refine ⟨?_, ?_, ?_, ?_, ?_, ?_, ?_, ?_, h.saved, h.args⟩
  · intro y z
    by_cases hy : y = x
    · subst hy; rw [put_same]; intro h; cases h
    · rw [put_other _ _ hy]; exact h.refs y z
  · rw [put_other _ _ (hne _ (by decide))]; exact h.cmd
  · rw [put_other _ _ (hne _ (by decide))]; exact h.argi
  · rw [put_other _ _ (hne _ (by decide))]; exact h.pos
  · rw [put_other _ _ (hne _ (by decide))]; exact h.fin
  · rw [put_other _ _ (hne _ (by decide))]; exact h.words
  · rw [put_other _ _ (hne _ (by decide))]; exact h.cword
  · intro y hy
    rw [put_other _ _ (ho y hy)]; exact h.opts y hy

/-- What is known of an option that is found. -/
structure Found (e : Env) (o : BOpt) : Prop where
  var : e.vars vVar = .str o.var
  args : e.vars vArgs = .str (argsOf o.kind)

theorem Found.ok {o : BOpt} (h : Found e o) (b : Bool) : Found { e with ok := b } o := ⟨h.var, h.args⟩

theorem found_st [OwnTwo C] (h : St C e s k) (o : BOpt) : St C (foundEnv e (some o)) s k ∧ Loc e (foundEnv e (some o)) ∧ Found (foundEnv e (some o)) o :=
  ⟨(h.extra (x := vVar) (by decide) _).extra (by decide) _, (Loc.put _ _ (by decide)).trans (Loc.put _ _ (by decide)),
    ⟨by show (Env.put _ _ _).vars vVar = _; rw [put_other _ _ (by decide), put_same], put_same _ _ _⟩⟩

/-- `if __find_option "$cmd" w; then …`. -/
theorem exec_find {find : Str → Str → Option BOpt} (F : Calls fs find) (h : St C e s k) {w : Word} {name : Str} (hw : ∀ y i, w ≠ [.slice y i]) (he : expand e w = some (name, e)) (T K : Code) :
    exec fuel fs (.if_ (callFind w) T .done K) e = match find s.cmd name with
      | some o => andThen (exec fuel fs T (foundEnv e (some o))) (exec fuel fs K)
      | none => exec fuel fs K { e with ok := true } := by
  have h1 : expandAll e [lits fFind, [.var vCmd], w] = some ([fFind, s.cmd, name], e) := by
    rw [expandAll_cons (by intro y i; simp [lits]) (expand_lits e _), expandAll_cons (fun y i hh => by cases hh) (expand_var h.cmd),
      expandAll_cons hw he]
    rfl
  have h2 : Act.run fs e (.call [lits fFind, [.var vCmd], w]) = some (foundEnv e (find s.cmd name), .next) := by
    simp only [Act.run, h1, Option.bind_some, F.find h.refs, Option.map_some]
  rw [exec_if]
  unfold callFind
  rw [exec_one, andThen_next h2]
  cases find s.cmd name with
  | none =>
    show andThen (exec fuel fs .done { e with ok := true }) (exec fuel fs K) = _
    rw [exec_done]; rfl
  | some o => rfl

/-- `__append_to_array "$VAR" w`. -/
theorem append_value {find : Str → Str → Option BOpt} (F : Calls fs find) {w : Word} (h : St C e s k) {o : BOpt} (hf : Found e o) (hv : o.var ∉ C.own ∧ o.var ≠ vArr) {arg tr : Str}
    (harg : w = wBehind → e.vars vArg = .str arg) (htr : w = wTrailing → e.vars vTrailing = .str tr) (hw : w = wSet ∨ w = wNext ∨ w = wBehind ∨ w = wTrailing) :
    ∃ e1, Act.run fs e (appendAct w) = some (e1, .next) ∧
      St C e1 { s with log := s.log ++ [(o.var, if w = wSet then optIsSet else if w = wNext then (C.words[k + 1]?).getD [] else if w = wBehind then behindEquals arg else tr)] }
        (if w = wNext then k + 1 else k) ∧ Loc e e1 := by
  obtain ⟨e1, h1, h2, h3⟩ := element_value h harg htr hw
  refine ⟨_, ?_, h2.addOpt hv.1 _, h3.trans (Loc.put _ _ (own_loc hv.1))⟩
  generalize (if w = wSet then optIsSet else if w = wNext then (C.words[k + 1]?).getD [] else if w = wBehind then behindEquals arg else tr) = x at h1
  have hx : expandAll e [lits fAppend, [.var vVar], w] = some ([fAppend, o.var, x], e1) := by
    rw [expandAll_cons (by intro y i; simp [lits]) (expand_lits e _), expandAll_cons (fun y i hh => by cases hh) (expand_var hf.var),
      expandAll_cons (by rcases hw with rfl | rfl | rfl | rfl <;> · intro y i hh; revert hh; simp [lits]) h1]
    rfl
  simp only [appendAct, Act.run, hx, Option.bind_some, F.append h2.refs hv.2, Option.map_some]

/-! ## Conditions -/

theorem equals_hit {p x : Str} {L : Str → Prop} {w : Word} (m : Means p L) (he : expand e w = some (x, e)) (hx : L x) :
    exec fuel fs (one (.equals w p)) e = some ({ e with ok := true }, .next) := by
  obtain ⟨alts, h1, h2⟩ := m
  rw [exec_one]
  have : Act.run fs e (.equals w p) = some ({ e with ok := true }, .next) := by
    simp only [Act.run, he, Option.bind_some, h1, Option.map_some]
    rw [@decide_eq_true _ (Classical.propDecidable _) ((h2 x).2 hx)]
  rw [andThen_next this]

theorem equals_miss {p x : Str} {L : Str → Prop} {w : Word} (m : Means p L) (he : expand e w = some (x, e)) (hx : ¬ L x) :
    exec fuel fs (one (.equals w p)) e = some ({ e with ok := false }, .next) := by
  obtain ⟨alts, h1, h2⟩ := m
  rw [exec_one]
  have : Act.run fs e (.equals w p) = some ({ e with ok := false }, .next) := by
    simp only [Act.run, he, Option.bind_some, h1, Option.map_some]
    rw [@decide_eq_false _ (Classical.propDecidable _) (fun h => hx ((h2 x).1 h))]
  rw [andThen_next this]

theorem if_hit {p x : Str} {L : Str → Prop} {w : Word} (m : Means p L) (he : expand e w = some (x, e)) (hx : L x) (T E K : Code) :
    exec fuel fs (.if_ (one (.equals w p)) T E K) e = andThen (exec fuel fs T { e with ok := true }) (exec fuel fs K) := by
  rw [exec_if, andThen_next (equals_hit m he hx)]; rfl

theorem if_miss {p x : Str} {L : Str → Prop} {w : Word} (m : Means p L) (he : expand e w = some (x, e)) (hx : ¬ L x) (T E K : Code) :
    exec fuel fs (.if_ (one (.equals w p)) T E K) e = andThen (exec fuel fs E { e with ok := true }) (exec fuel fs K) := by
  rw [exec_if, andThen_next (equals_miss m he hx)]; rfl

theorem means_one : Means ['1'] (fun w => w = ['1']) := means_lits (by decide) (by unfold LitChar; decide)
theorem means_mark : Means (S "'?'") (fun w => w = ['?']) := means_quoted (t := ['?']) (by decide)

theorem args_one (k : ArgKind) : argsOf k = ['1'] ↔ k = .required := by cases k <;> simp [argsOf]
theorem args_mark (k : ArgKind) : argsOf k = ['?'] ↔ k = .optional := by cases k <;> simp [argsOf]

/-! ## Words -/

variable {find : Str → Str → Option BOpt}

theorem wordFound_run (F : Calls fs find) (h : St C e s k) {o : BOpt} (hf : Found e o) (hv : o.var ∉ C.own ∧ o.var ≠ vArr) (K : Code) :
    ∃ e1, exec fuel fs (wordFound K) e = exec fuel fs K e1 ∧ St C e1 { s with log := s.log ++ (v2Word o ((C.words[k + 1]?).getD [])).log }
      (if (v2Word o ((C.words[k + 1]?).getD [])).skip then k + 1 else k) := by
  unfold wordFound v2Word
  by_cases hk : o.kind = .required
  · obtain ⟨e1, h1, h2, _⟩ := append_value F (h.ok true) (hf.ok true) hv (w := wNext) (arg := []) (tr := []) (fun h => absurd h (by decide)) (fun h => absurd h (by decide)) (by simp)
    refine ⟨e1, ?_, ?_⟩
    · rw [if_hit means_one (expand_var hf.args) ((args_one _).2 hk), exec_one, andThen_next h1]; rfl
    · rw [if_neg (show ¬ wNext = wSet by decide), if_pos rfl, if_pos rfl] at h2
      simpa [hk] using h2
  · obtain ⟨e1, h1, h2, _⟩ := append_value F (h.ok true) (hf.ok true) hv (w := wSet) (arg := []) (tr := []) (fun h => absurd h (by decide)) (fun h => absurd h (by decide)) (by simp)
    refine ⟨e1, ?_, ?_⟩
    · rw [if_miss means_one (expand_var hf.args) (fun h => hk ((args_one _).1 h)), exec_one, andThen_next h1]; rfl
    · rw [if_pos rfl, if_neg (show ¬ wSet = wNext by decide)] at h2
      simpa [hk] using h2

theorem expand_before {t : Str} (h : e.vars vArg = .str t) : expand e [.before vArg] = some (beforeEq t, e) := by
  simp only [expand, Part.expand]
  rw [value_of (by rw [h]; intro y hy; cases hy), h]
  simp [Val.text]; rfl

theorem behind_eq {arg : Str} (h : '=' ∈ arg) : behindEquals arg = afterEq arg := by
  unfold behindEquals afterEq
  rw [if_pos h]

theorem longWith_run [OwnTwo C] (F : Calls fs find) (G : GoodFind C find) (h : St C e s k) {arg : Str} (ha : e.vars vArg = .str arg) (hm : '=' ∈ arg) :
    ∃ e1, exec fuel fs longWithCode e = some (e1, .next) ∧ St C e1 { s with log := s.log ++ (match find s.cmd (beforeEq arg) with
      | some o => ({ log := [(o.var, afterEq arg)] } : BEffect)
      | none => {}).log } k := by
  unfold longWithCode
  rw [exec_find F h (fun y i hh => by cases hh) (expand_before ha)]
  cases hf : find s.cmd (beforeEq arg) with
  | none => exact ⟨_, exec_done _, by simpa using h.ok true⟩
  | some o =>
    obtain ⟨h1, h2, h3⟩ := found_st h o
    obtain ⟨e1, a1, a2, _⟩ := append_value F h1 h3 (G _ _ _ hf) (w := wBehind) (arg := arg) (tr := []) (fun _ => h2.arg.trans ha) (fun h => absurd h (by decide)) (by simp)
    refine ⟨e1, ?_, ?_⟩
    · simp only
      rw [exec_one, andThen_next a1]; exact exec_done (fuel := fuel) (fs := fs) _
    · rw [if_neg (show ¬ wBehind = wSet by decide), if_neg (show ¬ wBehind = wNext by decide), if_neg (show ¬ wBehind = wNext by decide), if_pos rfl, behind_eq hm] at a2
      exact a2

theorem longWithout_run [OwnTwo C] (F : Calls fs find) (G : GoodFind C find) (h : St C e s k) {arg : Str} (ha : e.vars vArg = .str arg) :
    ∃ e1, exec fuel fs longWithoutCode e = some (e1, .next) ∧ St C e1 { s with log := s.log ++ (match find s.cmd arg with
      | some o => v2Word o ((C.words[k + 1]?).getD [])
      | none => {}).log } (if (match find s.cmd arg with
      | some o => v2Word o ((C.words[k + 1]?).getD [])
      | none => {}).skip then k + 1 else k) := by
  unfold longWithoutCode
  rw [exec_find F h (fun y i hh => by cases hh) (expand_var ha)]
  cases hf : find s.cmd arg with
  | none => exact ⟨_, exec_done _, by simpa using h.ok true⟩
  | some o =>
    obtain ⟨h1, h2, h3⟩ := found_st h o
    obtain ⟨e1, a1, a2⟩ := wordFound_run (fuel := fuel) F h1 h3 (G _ _ _ hf) .done
    refine ⟨e1, ?_, a2⟩
    simp only
    rw [a1, exec_done]; exact exec_done (fuel := fuel) (fs := fs) _

/-! ## Old-style options -/

theorem means_old : Means (S "-*=*") (fun w => startsWith w ['-'] = true ∧ '=' ∈ w) := means_inside (t := ['-']) (by unfold LitChar; decide) (by decide)

theorem old_run [OwnTwo C] (F : Calls fs find) (G : GoodFind C find) (h : St C e s k) {arg : Str} (ha : e.vars vArg = .str arg) (hd : startsWith arg ['-'] = true) (K : Code) :
    match v2Old (find s.cmd) arg ((C.words[k + 1]?).getD []) with
    | some eff => ∃ e1, exec fuel fs (oldCode K) e = some (e1, .continue_ 1) ∧ St C e1 { s with log := s.log ++ eff.log } (if eff.skip then k + 1 else k)
    | none => exec fuel fs (oldCode K) e = exec fuel fs K { e with ok := true } := by
  have second : ∀ {e : Env}, St C e s k → e.vars vArg = .str arg →
      match (find s.cmd arg).map (fun o => v2Word o ((C.words[k + 1]?).getD [])) with
      | some eff => ∃ e1, exec fuel fs (.if_ (callFind [.var vArg]) (wordFound (one (.continue_ 1))) .done K) e = some (e1, .continue_ 1) ∧
          St C e1 { s with log := s.log ++ eff.log } (if eff.skip then k + 1 else k)
      | none => exec fuel fs (.if_ (callFind [.var vArg]) (wordFound (one (.continue_ 1))) .done K) e = exec fuel fs K { e with ok := true } := by
    intro e h ha
    rw [exec_find F h (fun y i hh => by cases hh) (expand_var ha)]
    cases hf : find s.cmd arg with
    | none => rfl
    | some o =>
      obtain ⟨h1, h2, h3⟩ := found_st h o
      obtain ⟨e1, a1, a2⟩ := wordFound_run (fuel := fuel) F h1 h3 (G _ _ _ hf) (one (.continue_ 1))
      refine ⟨e1, ?_, a2⟩
      show andThen (exec fuel fs (wordFound (one (.continue_ 1))) (foundEnv e (some o))) _ = _
      rw [a1, exec_one]; rfl
  unfold oldCode v2Old
  by_cases hm : '=' ∈ arg
  · rw [if_hit means_old (expand_var ha) ⟨hd, hm⟩, if_pos (by simpa using hm)]
    have h0 := h.ok true
    rw [exec_find F h0 (fun y i hh => by cases hh) (expand_before ha)]
    cases hf : find s.cmd (beforeEq arg) with
    | none =>
      simp only
      rw [exec_done]
      exact second h0 ha
    | some o =>
      obtain ⟨h1, h2, h3⟩ := found_st h0 o
      obtain ⟨e1, a1, a2, _⟩ := append_value F h1 h3 (G _ _ _ hf) (w := wBehind) (arg := arg) (tr := []) (fun _ => h2.arg.trans ha) (fun h => absurd h (by decide)) (by simp)
      refine ⟨e1, ?_, ?_⟩
      · show andThen (andThen (exec fuel fs (.act (appendAct wBehind) (one (.continue_ 1))) (foundEnv { e with ok := true } (some o))) _) _ = _
        rw [exec_act, andThen_next a1, exec_one]; rfl
      · rw [if_neg (show ¬ wBehind = wSet by decide), if_neg (show ¬ wBehind = wNext by decide), if_neg (show ¬ wBehind = wNext by decide), if_pos rfl, behind_eq hm] at a2
        exact a2
  · rw [if_miss means_old (expand_var ha) (fun h => hm h.2), if_neg (by simpa using hm), exec_done]
    exact second (h.ok true) ha

/-! ## Letters -/

theorem trailing_run (F : Calls fs find) {w : Word} (h : St C e s k) {o : BOpt} (hf : Found e o) (hv : o.var ∉ C.own ∧ o.var ≠ vArr) {tr : Str} (htr : e.vars vTrailing = .str tr)
    (hw : w = wSet ∨ w = wNext) :
    ∃ e1, exec fuel fs (trailingOr w) e = some (e1, .break_ 1) ∧
      St C e1 { s with log := s.log ++ [(o.var, if tr ≠ [] then tr else if w = wSet then optIsSet else (C.words[k + 1]?).getD [])] }
        (if tr = [] ∧ w = wNext then k + 1 else k) := by
  have hc : exec fuel fs (one (.nonempty wTrailing)) e = some ({ e with ok := !tr.isEmpty }, .next) := by
    rw [exec_one]
    simp only [Act.run, expand_var htr, Option.map_some]
    rfl
  by_cases ht : tr = []
  · subst ht
    have hw' : w = wSet ∨ w = wNext ∨ w = wBehind ∨ w = wTrailing := by rcases hw with h | h <;> simp [h]
    have hnt : w ≠ wTrailing := by rcases hw with rfl | rfl <;> decide
    have hnb : w ≠ wBehind := by rcases hw with rfl | rfl <;> decide
    obtain ⟨e1, h1, h2, h3⟩ := append_value F (h.ok true) (hf.ok true) hv (w := w) (arg := []) (tr := []) (fun h => absurd h hnb) (fun h => absurd h hnt) hw'
    refine ⟨e1, ?_, ?_⟩
    · unfold trailingOr
      rw [exec_if, andThen_next hc]
      have : exec fuel fs (one (appendAct w)) { e with ok := true } = some (e1, .next) := by rw [exec_one, andThen_next h1]
      simp only [List.isEmpty_nil, Bool.not_true, Bool.false_eq_true, if_false]
      rw [andThen_next this, exec_one]; rfl
    · rcases hw with rfl | rfl <;> simpa using h2
  · obtain ⟨e1, h1, h2, h3⟩ := append_value F (h.ok true) (hf.ok true) hv (w := wTrailing) (arg := []) (tr := tr) (fun h => absurd h (by decide)) (fun _ => htr) (by simp)
    refine ⟨e1, ?_, ?_⟩
    · unfold trailingOr
      rw [exec_if, andThen_next hc]
      have hb : (!tr.isEmpty) = true := by simp [ht]
      have : exec fuel fs (one (appendAct wTrailing)) { e with ok := true } = some (e1, .next) := by rw [exec_one, andThen_next h1]
      rw [hb]
      simp only [if_true]
      rw [andThen_next this, exec_one]; rfl
    · rw [if_pos ht, if_neg (by simp [ht])]; exact h2

/-- What a letter does to the log, whether the next word is used up, and whether the loop ends. -/
def letterEffect (optionals : Bool) (tr next : Str) : Option BOpt → List (Str × Str) × Bool × Bool
  | none => ([], false, false)
  | some o =>
    if o.kind = .required then ([(o.var, if tr ≠ [] then tr else next)], decide (tr = []), true)
    else if optionals && decide (o.kind = .optional) then ([(o.var, if tr ≠ [] then tr else optIsSet)], false, true)
    else ([(o.var, optIsSet)], false, false)

theorem letterFound_run (F : Calls fs find) (h : St C e s k) {o : BOpt} (hf : Found e o) (hv : o.var ∉ C.own ∧ o.var ≠ vArr) {tr : Str} (htr : e.vars vTrailing = .str tr) (optionals : Bool) :
    ∃ e1, exec fuel fs (letterFound optionals) e = some (e1, if (letterEffect optionals tr ((C.words[k + 1]?).getD []) (some o)).2.2 then .break_ 1 else .next) ∧
      St C e1 { s with log := s.log ++ (letterEffect optionals tr ((C.words[k + 1]?).getD []) (some o)).1 }
        (if (letterEffect optionals tr ((C.words[k + 1]?).getD []) (some o)).2.1 then k + 1 else k) ∧
      ((letterEffect optionals tr ((C.words[k + 1]?).getD []) (some o)).2.2 = false → Loc e e1) := by
  have hset : ∀ {e : Env}, St C e s k → Found e o → ∃ e1, exec fuel fs (one (appendAct wSet)) e = some (e1, .next) ∧ St C e1 { s with log := s.log ++ [(o.var, optIsSet)] } k ∧ Loc e e1 := by
    intro e h hf
    obtain ⟨e1, h1, h2, h3⟩ := append_value F h hf hv (w := wSet) (arg := []) (tr := []) (fun h => absurd h (by decide)) (fun h => absurd h (by decide)) (by simp)
    refine ⟨e1, by rw [exec_one, andThen_next h1], ?_, h3⟩
    rw [if_pos rfl, if_neg (show ¬ wSet = wNext by decide)] at h2
    exact h2
  unfold letterFound letterEffect
  by_cases hk : o.kind = .required
  · obtain ⟨e1, h1, h2⟩ := trailing_run (fuel := fuel) F (h.ok true) (hf.ok true) hv (tr := tr) htr (w := wNext) (by simp)
    refine ⟨e1, ?_, ?_, by simp [hk]⟩
    · rw [if_hit means_one (expand_var hf.args) ((args_one _).2 hk), h1]
      simp only [hk, if_true]; rfl
    · rw [if_neg (show ¬ wNext = wSet by decide)] at h2
      simpa [hk] using h2
  · rw [if_miss means_one (expand_var hf.args) (fun h => hk ((args_one _).1 h))]
    simp only [if_neg hk]
    cases optionals with
    | false =>
      obtain ⟨e1, h1, h2, h3⟩ := hset (h.ok true) (hf.ok true)
      simp only [Bool.false_and, Bool.false_eq_true, if_false]
      refine ⟨e1, ?_, h2, fun _ => (Loc.ok e true).trans h3⟩
      rw [andThen_next h1, exec_done]
    | true =>
      simp only [Bool.true_and, if_true, decide_eq_true_eq]
      by_cases ho : o.kind = .optional
      · obtain ⟨e1, h1, h2⟩ := trailing_run (fuel := fuel) F ((h.ok true).ok true) ((hf.ok true).ok true) hv (tr := tr) htr (w := wSet) (by simp)
        rw [if_pos ho]
        refine ⟨e1, ?_, ?_, by simp⟩
        · rw [if_hit means_mark (expand_var (hf.ok true).args) ((args_mark _).2 ho), h1]; rfl
        · rw [if_pos rfl, if_neg (show ¬ (tr = [] ∧ wSet = wNext) from fun h => absurd h.2 (by decide))] at h2
          simpa using h2
      · obtain ⟨e1, h1, h2, h3⟩ := hset ((h.ok true).ok true) ((hf.ok true).ok true)
        rw [if_neg ho]
        refine ⟨e1, ?_, h2, fun _ => (Loc.ok e true).trans h3⟩
        rw [if_miss means_mark (expand_var (hf.ok true).args) (fun h => ho ((args_mark _).1 h)), andThen_next h1, exec_done]
        exact exec_done (fuel := fuel) (fs := fs) _

theorem letter2_run [OwnTwo C] (F : Calls fs find) (G : GoodFind C find) (optionals : Bool) {arg : Str} {i : Nat} {c : Char} {tr : Str} (h : St C e s k)
    (hi : e.vars vI = .str (decimal i)) (ha : e.vars vArg = .str arg) (hd : arg.drop i = c :: tr) :
    ∃ e', exec fuel fs (letterCode2 optionals) e = some (e', if (letterEffect optionals tr ((C.words[k + 1]?).getD []) (find s.cmd ['-', c])).2.2 then .break_ 1 else .next) ∧
      St C e' { s with log := s.log ++ (letterEffect optionals tr ((C.words[k + 1]?).getD []) (find s.cmd ['-', c])).1 }
        (if (letterEffect optionals tr ((C.words[k + 1]?).getD []) (find s.cmd ['-', c])).2.1 then k + 1 else k) ∧
      ((letterEffect optionals tr ((C.words[k + 1]?).getD []) (find s.cmd ['-', c])).2.2 = false → e'.vars vI = .str (decimal i) ∧ e'.vars vArg = .str arg) := by
  have h1 := h.local (x := vChar) (by decide) [c]
  have a1 : Act.run fs e (.set vChar [.char vArg vI]) = some (e.put vChar (.str [c]), .next) := by
    simp only [Act.run, expand, Part.expand, numberOf_of hi, Option.bind_some]
    rw [value_of (by rw [ha]; intro y hy; cases hy), ha]
    simp only [Option.map_some, Option.bind_some, Val.text, hd]
    rw [target_of (h.refs vChar)]
    simp
  have i1 : (e.put vChar (.str [c])).vars vI = .str (decimal i) := by rw [put_other _ _ (by decide)]; exact hi
  have ar1 : (e.put vChar (.str [c])).vars vArg = .str arg := by rw [put_other _ _ (by decide)]; exact ha
  have hd2 : arg.drop (i + 1) = tr := by rw [← List.drop_drop, hd]; rfl
  have a2 : Act.run fs (e.put vChar (.str [c])) (.set vTrailing [.from_ vArg (.add (.var vI) (.num 1))]) =
      some ((e.put vChar (.str [c])).put vTrailing (.str tr), .next) := by
    simp only [Act.run, expand, Part.expand, Arith.eval, Atom.eval, numberOf_of i1, Option.map_some, Option.bind_some]
    rw [value_of (by rw [ar1]; intro y hy; cases hy), ar1]
    simp only [Option.map_some, Option.bind_some, Val.text, hd2]
    rw [target_of (h1.refs vTrailing)]
    simp
  have h2 := h1.local (x := vTrailing) (by decide) tr
  have i2 : ((e.put vChar (.str [c])).put vTrailing (.str tr)).vars vI = .str (decimal i) := by rw [put_other _ _ (by decide)]; exact i1
  have ar2 : ((e.put vChar (.str [c])).put vTrailing (.str tr)).vars vArg = .str arg := by rw [put_other _ _ (by decide)]; exact ar1
  have c2 : ((e.put vChar (.str [c])).put vTrailing (.str tr)).vars vChar = .str [c] := by rw [put_other _ _ (by decide), put_same]
  have t2 : ((e.put vChar (.str [c])).put vTrailing (.str tr)).vars vTrailing = .str tr := put_same _ _ _
  unfold letterCode2
  rw [exec_act, andThen_next a1, exec_act, andThen_next a2]
  generalize (e.put vChar (.str [c])).put vTrailing (.str tr) = e2 at h2 i2 ar2 c2 t2
  have hx : expand e2 [.lit '-', .var vChar] = some (['-', c], e2) := by
    show ((Part.lit '-').expand e2).bind _ = _
    simp only [Part.expand, Option.bind_some, expand_var c2]; rfl
  rw [exec_find F h2 (fun y i hh => by cases hh) hx]
  cases hf : find s.cmd ['-', c] with
  | none => exact ⟨_, exec_done _, by simpa [letterEffect] using h2.ok true, fun _ => ⟨i2, ar2⟩⟩
  | some o =>
    obtain ⟨g1, g2, g3⟩ := found_st h2 o
    obtain ⟨e', b1, b2, b3⟩ := letterFound_run (fuel := fuel) F g1 g3 (G _ _ _ hf) (g2.trailing.trans t2) optionals
    refine ⟨e', ?_, b2, fun hn => ⟨(b3 hn).i.trans (g2.i.trans i2), (b3 hn).arg.trans (g2.arg.trans ar2)⟩⟩
    simp only
    rw [b1]
    split
    · rfl
    · exact exec_done (fuel := fuel) (fs := fs) _

theorem iter_break {cond step : Arith} {body : Env → Option (Env × Flow)} {e e0 e1 : Env} {fuel n : Nat} (hc : cond.eval e = some (n, e0)) (hn : n ≠ 0)
    (hb : body e0 = some (e1, .break_ 1)) : iterate cond step body (fuel + 1) e = some (e1, .next) := by
  rw [iterate, hc, Option.bind_some, if_neg hn, hb]; rfl

theorem cluster_effect (find1 : Str → Option BOpt) (optionals : Bool) (next tr : Str) (c : Char) :
    v2Cluster find1 optionals next (c :: tr) =
      if (letterEffect optionals tr next (find1 ['-', c])).2.2 then ⟨(letterEffect optionals tr next (find1 ['-', c])).1, (letterEffect optionals tr next (find1 ['-', c])).2.1⟩
      else ⟨(letterEffect optionals tr next (find1 ['-', c])).1 ++ (v2Cluster find1 optionals next tr).log, (v2Cluster find1 optionals next tr).skip⟩ := by
  rw [v2Cluster]
  cases find1 ['-', c] with
  | none => rfl
  | some o =>
    simp only [letterEffect]
    by_cases hk : o.kind = .required
    · by_cases ht : tr = [] <;> simp [hk, ht]
    · by_cases ho : (optionals && decide (o.kind = .optional)) = true
      · simp [hk, ho]
      · simp [hk, ho]

theorem letter_noskip {optionals : Bool} {tr next : Str} {x : Option BOpt} (h : (letterEffect optionals tr next x).2.2 = false) : (letterEffect optionals tr next x).2.1 = false := by
  cases x with
  | none => rfl
  | some o =>
    simp only [letterEffect] at h ⊢
    split at h
    · cases h
    · rename_i hk
      rw [if_neg hk]
      split at h
      · cases h
      · rename_i ho; rw [if_neg ho]

theorem letters2_run [OwnTwo C] (F : Calls fs find) (G : GoodFind C find) (optionals : Bool) {arg : Str} : ∀ (rem : Str) (i n : Nat) {e : Env} {s : BState}, St C e s k →
    e.vars vI = .str (decimal i) → e.vars vArg = .str arg → arg.drop i = rem → rem.length < n →
    ∃ e', iterate (.lt (.var vI) (.len vArg)) (.atom (.inc vI)) (exec fuel fs (letterCode2 optionals)) n e = some (e', .next) ∧
      St C e' { s with log := s.log ++ (v2Cluster (find s.cmd) optionals ((C.words[k + 1]?).getD []) rem).log }
        (if (v2Cluster (find s.cmd) optionals ((C.words[k + 1]?).getD []) rem).skip then k + 1 else k)
  | [], i, n, e, s, h, hi, ha, hd, hn => by
    obtain ⟨n, rfl⟩ : ∃ m, n = m + 1 := ⟨n - 1, by simp at hn; omega⟩
    have hc := letter_cond hi ha
    rw [if_neg (by have := List.drop_eq_nil_iff.mp hd; omega)] at hc
    exact ⟨e, iter_end hc, by simpa [v2Cluster] using h⟩
  | c :: tr, i, n, e, s, h, hi, ha, hd, hn => by
    obtain ⟨n, rfl⟩ : ∃ m, n = m + 1 := ⟨n - 1, by simp at hn; omega⟩
    have hlt : i < arg.length := by
      rcases Nat.lt_or_ge i arg.length with h | h
      · exact h
      · rw [List.drop_of_length_le h] at hd; cases hd
    obtain ⟨e1, g1, g2, g3⟩ := letter2_run (fuel := fuel) F G optionals h hi ha hd
    have hc := letter_cond hi ha
    rw [if_pos hlt] at hc
    rw [cluster_effect]
    cases hr : (letterEffect optionals tr ((C.words[k + 1]?).getD []) (find s.cmd ['-', c])).2.2 with
    | true =>
      rw [hr] at g1
      simp only [if_true] at g1 ⊢
      exact ⟨e1, iter_break hc (by omega) g1, g2⟩
    | false =>
      rw [hr] at g1
      simp only [Bool.false_eq_true, if_false] at g1 ⊢
      rw [letter_noskip hr] at g2
      simp only [Bool.false_eq_true, if_false] at g2
      have hd2 : arg.drop (i + 1) = tr := by rw [← List.drop_drop, hd]; rfl
      have hinc : (Arith.atom (.inc vI)).eval e1 = some (i + 1, e1.put vI (.str (decimal (i + 1)))) := by
        simp only [Arith.eval, Atom.eval, numberOf_of (g3 hr).1, Option.map_some]
      rw [iter_go hc (by omega) g1 (Or.inl rfl) hinc]
      obtain ⟨e', a1, a2⟩ := letters2_run F G optionals tr (i + 1) n (g2.local (x := vI) (by decide) (decimal (i + 1))) (put_same _ _ _)
        (by rw [put_other _ _ (by decide)]; exact (g3 hr).2) hd2 (by simp at hn; omega)
      refine ⟨e', a1, ?_⟩
      simpa using a2

theorem lettersCode_run [OwnTwo C] (F : Calls fs find) (G : GoodFind C find) (p : Parts) (h : St C e s k) {arg : Str} (ha : e.vars vArg = .str arg) (hf : arg.length < fuel) :
    ∃ e', exec fuel fs (lettersCode p) e = some (e', .next) ∧
      St C e' { s with log := s.log ++ (if p.short then v2Cluster (find s.cmd) p.shortOptionals ((C.words[k + 1]?).getD []) arg.tail else {}).log }
        (if (if p.short then v2Cluster (find s.cmd) p.shortOptionals ((C.words[k + 1]?).getD []) arg.tail else {}).skip then k + 1 else k) := by
  unfold lettersCode
  cases p.short with
  | false => exact ⟨e, exec_done e, by simpa using h⟩
  | true =>
    simp only [if_true]
    rw [exec_loop]
    have hset : (Arith.set vI 1).eval e = some (1, e.put vI (.str (decimal 1))) := rfl
    rw [hset, Option.bind_some]
    obtain ⟨e', g1, g3⟩ := letters2_run (fuel := fuel) F G p.shortOptionals (arg := arg) (arg.drop 1) 1 fuel (h.local (x := vI) (by decide) (decimal 1))
      (put_same _ _ _) (by rw [put_other _ _ (by decide)]; exact ha) rfl (by simp; omega)
    refine ⟨e', ?_, ?_⟩
    · rw [g1]; exact exec_done (fuel := fuel) (fs := fs) _
    · rw [List.drop_one] at g3; exact g3

/-! ## A word -/

/-- The branches for options, with any function that finds options. -/
def v2OptionBy (p : Parts) (find : Str → Str → Option BOpt) (cmd arg next : Str) : BEffect :=
  if startsWith arg ['-', '-'] then
    if p.long then
      if arg.contains '=' then
        match find cmd (beforeEq arg) with
        | some o => { log := [(o.var, afterEq arg)] }
        | none => {}
      else
        match find cmd arg with
        | some o => v2Word o next
        | none => {}
    else {}
  else
    match (if p.old then v2Old (find cmd) arg next else none) with
    | some e => e
    | none => if p.short then v2Cluster (find cmd) p.shortOptionals next arg.tail else {}

theorem v2Option_by (p : Parts) (blocks : List Block) : v2Option p blocks = v2OptionBy p (findBOpt blocks) := rfl

theorem means_long_with : Means (S "--*=*") (fun w => startsWith w ['-', '-'] = true ∧ '=' ∈ w) := means_inside (t := ['-', '-']) (by unfold LitChar; decide) (by decide)
theorem means_long : Means (S "--*") (fun w => startsWith w ['-', '-'] = true) := means_prefix (t := ['-', '-']) (by unfold LitChar; decide)

theorem dash2_run [OwnTwo C] (F : Calls fs find) (G : GoodFind C find) (p : Parts) (h : St C e s k) {arg : Str} (ha : e.vars vArg = .str arg) (hd : startsWith arg ['-'] = true) (hf : arg.length < fuel)
    (hl : startsWith arg ['-', '-'] = false) :
    ∃ e' f, exec fuel fs (dashCode2 p) e = some (e', f) ∧ (f = .next ∨ f = .continue_ 1) ∧
      St C e' { s with log := s.log ++ (v2OptionBy p find s.cmd arg ((C.words[k + 1]?).getD [])).log }
        (if (v2OptionBy p find s.cmd arg ((C.words[k + 1]?).getD [])).skip then k + 1 else k) := by
  have e0 : v2OptionBy p find s.cmd arg ((C.words[k + 1]?).getD []) = match (if p.old then v2Old (find s.cmd) arg ((C.words[k + 1]?).getD []) else none) with
      | some e => e
      | none => if p.short then v2Cluster (find s.cmd) p.shortOptionals ((C.words[k + 1]?).getD []) arg.tail else {} := by
    unfold v2OptionBy; rw [if_neg (show ¬ startsWith arg ['-', '-'] = true by simp [hl])]
  rw [e0]
  unfold dashCode2
  cases p.old with
  | false =>
    simp only [Bool.false_eq_true, if_false]
    obtain ⟨e', g1, g2⟩ := lettersCode_run (fuel := fuel) F G p h ha hf
    exact ⟨e', _, g1, Or.inl rfl, g2⟩
  | true =>
    simp only [if_true]
    have ho := old_run (fuel := fuel) F G h ha hd (lettersCode p)
    rcases hv : v2Old (find s.cmd) arg ((C.words[k + 1]?).getD []) with _ | eff
    · rw [hv] at ho
      simp only at ho ⊢
      rw [ho]
      obtain ⟨e', g1, g2⟩ := lettersCode_run (fuel := fuel) F G p (h.ok true) ha hf
      exact ⟨e', _, g1, Or.inl rfl, g2⟩
    · rw [hv] at ho
      simp only at ho ⊢
      obtain ⟨e1, g1, g2⟩ := ho
      exact ⟨e1, _, g1, Or.inr rfl, g2⟩

theorem wordCode2_run (p : Parts) (cases : List SwitchCase) (h : St C e s k) {w : Str} (hw : (C.words[k]?).getD [] = w) :
    exec fuel fs (wordCode2 p cases) e = andThen
      (choose fuel fs w (clauses (dashClauses p ++ positionalClauses p cases)) (e.put vArg (.str w)))
      (fun e => some (e, .next)) := by
  unfold wordCode2
  rw [exec_act, andThen_next (word_get h hw), exec_case, expand_var (put_same _ _ _), Option.bind_some]
  congr 1

theorem isOption_dash {w : Str} (h : isOptionWord w = true) : startsWith w ['-'] = true := by
  unfold isOptionWord at h
  split at h
  · rfl
  · cases h

theorem long_isOption {w : Str} (h : startsWith w ['-', '-'] = true) : isOptionWord w = true := by
  obtain ⟨r, rfl⟩ := (startsWith_iff _ _).1 h
  rfl

theorem word2_option [OwnTwo C] (F : Calls fs find) (G : GoodFind C find) (p : Parts) (cases : List SwitchCase) (h : St C e s k) {w : Str} (hw : (C.words[k]?).getD [] = w)
    (h1 : w ≠ ['-', '-']) (h2 : isOptionWord w = true) (hf : w.length < fuel) :
    ∃ e' f, exec fuel fs (wordCode2 p cases) e = some (e', f) ∧ (f = .next ∨ f = .continue_ 1) ∧
      St C e' { s with log := s.log ++ (v2OptionBy p find s.cmd w ((C.words[k + 1]?).getD [])).log }
        (if (v2OptionBy p find s.cmd w ((C.words[k + 1]?).getD [])).skip then k + 1 else k) := by
  rw [wordCode2_run p cases h hw]
  have hst := (h.local (x := vArg) (by decide) w).ok true
  have harg : ({ (e.put vArg (.str w)) with ok := true } : Env).vars vArg = .str w := put_same _ _ _
  have key : ∃ e' f, choose fuel fs w (clauses (dashClauses p ++ positionalClauses p cases)) (e.put vArg (.str w)) = some (e', f) ∧ (f = .next ∨ f = .continue_ 1) ∧
      St C e' { s with log := s.log ++ (v2OptionBy p find s.cmd w ((C.words[k + 1]?).getD [])).log }
        (if (v2OptionBy p find s.cmd w ((C.words[k + 1]?).getD [])).skip then k + 1 else k) := by
    unfold dashClauses
    rw [List.cons_append, choose_miss means_dashes h1]
    unfold longClauses2
    cases hl : startsWith w ['-', '-'] with
    | true =>
      unfold v2OptionBy
      rw [if_pos hl]
      cases p.long with
      | false =>
        simp only [Bool.false_eq_true, if_false, List.cons_append]
        rw [choose_hit means_long hl, exec_done]
        exact ⟨_, _, rfl, Or.inl rfl, by simpa using hst⟩
      | true =>
        simp only [if_true, List.cons_append]
        by_cases hm : '=' ∈ w
        · rw [choose_hit means_long_with ⟨hl, hm⟩, if_pos (by simpa using hm)]
          obtain ⟨e1, g1, g2⟩ := longWith_run (fuel := fuel) F G hst harg hm
          refine ⟨e1, _, g1, Or.inl rfl, ?_⟩
          have : (match find s.cmd (beforeEq w) with
            | some o => ({ log := [(o.var, afterEq w)] } : BEffect)
            | none => {}).skip = false := by cases find s.cmd (beforeEq w) <;> rfl
          rw [this]
          exact g2
        · rw [choose_miss means_long_with (fun hh => hm hh.2), choose_hit means_long hl, if_neg (by simpa using hm)]
          obtain ⟨e1, g1, g2⟩ := longWithout_run (fuel := fuel) F G hst harg
          exact ⟨e1, _, g1, Or.inl rfl, g2⟩
    | false =>
      have hmiss : ∀ r, choose fuel fs w (clauses (((if p.long then [(S "--*=*", longWithCode), (S "--*", longWithoutCode)] else [(S "--*", .done)]) ++ [(S "-?*", dashCode2 p)]) ++ r)) (e.put vArg (.str w)) =
          exec fuel fs (dashCode2 p) { (e.put vArg (.str w)) with ok := true } := by
        intro r
        cases p.long with
        | false =>
          simp only [Bool.false_eq_true, if_false, List.cons_append, List.nil_append]
          rw [choose_miss means_long (by simp [hl]), choose_hit means_option h2]
        | true =>
          simp only [if_true, List.cons_append, List.nil_append]
          rw [choose_miss means_long_with (by simp [hl]), choose_miss means_long (by simp [hl]), choose_hit means_option h2]
      rw [hmiss]
      exact dash2_run F G p hst harg (isOption_dash h2) hf hl
  obtain ⟨e', f, g1, g2, g3⟩ := key
  refine ⟨e', f, ?_, g2, g3⟩
  rw [g1]
  rcases g2 with rfl | rfl <;> rfl

/-- No positionals are kept. -/
class NoPos (C : Ctx) : Prop where
  pos : ∃ v, C.posOf = fun _ => v

theorem St.anyPos [hp : NoPos C] (h : St C e s k) (l : List Str) : St C e { s with positionals := l } k := by
  obtain ⟨v, hv⟩ := hp.pos
  refine ⟨h.refs, h.cmd, h.argi, ?_, h.fin, h.words, h.cword, h.opts, h.saved, h.args⟩
  rw [h.pos, hv]

theorem word2_skip (p : Parts) (cases : List SwitchCase) {w : Str} (h1 : w ≠ ['-', '-']) (h2 : isOptionWord w = false) (e : Env) :
    choose fuel fs w (clauses (dashClauses p ++ positionalClauses p cases)) e = choose fuel fs w (clauses (positionalClauses p cases)) e := by
  have hl : startsWith w ['-', '-'] = false := by
    cases hs : startsWith w ['-', '-'] with
    | false => rfl
    | true => rw [long_isOption hs] at h2; cases h2
  unfold dashClauses longClauses2
  rw [List.cons_append, choose_miss means_dashes h1]
  cases p.long with
  | false =>
    simp only [Bool.false_eq_true, if_false, List.cons_append, List.nil_append]
    rw [choose_miss means_long (by simp [hl]), choose_miss means_option (by simp [h2])]
  | true =>
    simp only [if_true, List.cons_append, List.nil_append]
    rw [choose_miss means_long_with (by simp [hl]), choose_miss means_long (by simp [hl]), choose_miss means_option (by simp [h2])]

theorem word2_dashes (p : Parts) (cases : List SwitchCase) (hpos : if p.positionals then HasPos C else NoPos C) (h : St C e s k) (hw : (C.words[k]?).getD [] = ['-', '-']) :
    ∃ e' k', exec fuel fs (wordCode2 p cases) e = some (e', .return_) ∧
      St C e' { s with endOfOptions := true, positionals := s.positionals ++ C.words.drop (k + 1) } k' := by
  rw [wordCode2_run p cases h hw]
  unfold dashClauses
  rw [List.cons_append, choose_hit means_dashes rfl]
  have h1 := (h.local (x := vArg) (by decide) ['-', '-']).ok true
  have h2 := h1.setEnd
  unfold endCode2
  rw [exec_act]
  have a1 : Act.run fs ({ (e.put vArg (.str ['-', '-'])) with ok := true }) (.set vEnd (lits ['1'])) =
      some (({ (e.put vArg (.str ['-', '-'])) with ok := true } : Env).put vEnd (.str ['1']), .next) := by
    simp only [Act.run, expand_lits, Option.bind_some, target_of (h1.refs vEnd), Option.map_some]
  rw [andThen_next a1]
  cases hp : p.positionals with
  | false =>
    rw [hp] at hpos
    simp only [Bool.false_eq_true, if_false] at hpos ⊢
    refine ⟨_, k, ?_, h2.anyPos _⟩
    rw [exec_one]; rfl
  | true =>
    rw [hp] at hpos
    simp only [if_true] at hpos ⊢
    have h3 := h2.inc (k + 1)
    have h4 := h3.setPos (s.positionals ++ C.words.drop (k + 1))
    refine ⟨_, k + 1, ?_, h4⟩
    have a2 : Act.run fs (({ (e.put vArg (.str ['-', '-'])) with ok := true } : Env).put vEnd (.str ['1'])) (.addArray vPos [[.slice vWords (.atom (.inc vArgi))]]) =
        some (((({ (e.put vArg (.str ['-', '-'])) with ok := true } : Env).put vEnd (.str ['1'])).put vArgi (.str (decimal (k + 1)))).put vPos
          (.array (s.positionals ++ C.words.drop (k + 1))), .next) := by
      simp only [Act.run, expandAll, Arith.eval, Atom.eval, numberOf_of h2.argi, Option.map_some, Option.bind_some]
      rw [value_of (h3.refs vWords), h3.words]
      simp only [Option.bind_some, Val.elements, List.append_nil]
      rw [target_of (h3.refs vPos)]
      simp only [Option.map_some, h3.pos, hpos.pos]
    rw [exec_act, andThen_next a2, exec_one]; rfl

theorem word2_positional (p : Parts) (cases : List SwitchCase) (hc : ∀ c ∈ cases, PlainBashSwitch c) (hpos : if p.positionals then HasPos C else NoPos C) (h : St C e s k) {w : Str}
    (hw : (C.words[k]?).getD [] = w) (h1 : w ≠ ['-', '-']) (h2 : isOptionWord w = false) :
    ∃ e', exec fuel fs (wordCode2 p cases) e = some (e', .next) ∧
      St C e' { s with positionals := s.positionals ++ [w], cmd := switchCmd (if p.positionals then cases else []) s.cmd (s.positionals.length + 1) w } k := by
  rw [wordCode2_run p cases h hw, word2_skip p cases h1 h2]
  have hst := (h.local (x := vArg) (by decide) w).ok true
  unfold positionalClauses
  cases hp : p.positionals with
  | false =>
    rw [hp] at hpos
    simp only [Bool.false_eq_true, if_false] at hpos ⊢
    rw [choose_nil]
    exact ⟨_, rfl, hst.anyPos _⟩
  | true =>
    rw [hp] at hpos
    simp only [if_true] at hpos ⊢
    rw [choose_hit means_star trivial]
    obtain ⟨e', g1, g2⟩ := positional_run (fuel := fuel) (fs := fs) cases hc hst (arg := w) (put_same _ _ _)
    exact ⟨e', by rw [g1]; rfl, g2⟩

theorem v2_steps [OwnTwo C] (F : Calls fs find) (G : GoodFind C find) (p : Parts) (cases : List SwitchCase) (hc : ∀ c ∈ cases, PlainBashSwitch c)
    (hpos : if p.positionals then HasPos C else NoPos C) (cur : Str) (hf : 2 ≤ fuel) :
    Steps C fuel (exec fuel fs (wordCode2 p cases)) (exec fuel fs (afterCode p)) (v2OptionBy p find) (if p.positionals then cases else []) cur where
  dashes h hw := word2_dashes p cases hpos h hw
  option h hw h1 h2 h3 := word2_option F G p cases h hw h1 h2 h3
  positional h hw h1 h2 := word2_positional p cases hc hpos h hw h1 h2
  after h hk hcur := by
    unfold afterCode
    cases hp : p.positionals with
    | false =>
      rw [hp] at hpos
      simp only [Bool.false_eq_true, if_false] at hpos ⊢
      split
      · exact ⟨_, _, exec_done _, h.anyPos _⟩
      · exact ⟨_, _, exec_done _, h⟩
    | true =>
      rw [hp] at hpos
      simp only [if_true] at hpos ⊢
      exact after_run h hk hcur hf

/-! ## The function -/

/-- The variables that are local to the function. -/
def localNames2 : List Str := [vCmd, vArgi, vArg, vI, vChar, vTrailing, vVar, vArgs]

/-- The local variables. -/
def localsEnv (e : Env) : Env :=
  declare (declare (declare (declare (declare (declare (declare (declare (e.put vEnd (.str ['0']))
    vCmd (.str "root".toList)) vArgi .unset) vArg .unset) vI .unset) vChar .unset) vTrailing .unset) vVar .unset) vArgs .unset

/-- The parser begins with these variables. -/
def headEnv2 (p : Parts) (e : Env) : Env := localsEnv (if p.positionals then e.put vPos (.array []) else e)

theorem locals_exec (e : Env) (hr : NoRefs e) (K : Code) : exec fuel fs (localsCode K) e = exec fuel fs K (localsEnv e) := by
  have a2 : Act.run fs e (.set vEnd (lits ['0'])) = some (e.put vEnd (.str ['0']), .next) := by
    simp only [Act.run, expand_lits, Option.bind_some, target_of (hr vEnd), Option.map_some]
  have a3 : ∀ e : Env, Act.run fs e (.localSet vCmd (lits "root".toList)) = some (declare e vCmd (.str "root".toList), .next) := by
    intro e; simp only [Act.run, expand_lits, Option.map_some]
  have a4 : ∀ (e : Env) (x : Str), Act.run fs e (.local_ x) = some (declare e x .unset, .next) := fun _ _ => rfl
  unfold localsCode
  rw [exec_act, andThen_next a2, exec_act, andThen_next (a3 _), exec_act, andThen_next (a4 _ _), exec_act, andThen_next (a4 _ _), exec_act, andThen_next (a4 _ _), exec_act,
    andThen_next (a4 _ _), exec_act, andThen_next (a4 _ _), exec_act, andThen_next (a4 _ _), exec_act, andThen_next (a4 _ _)]
  rfl

theorem head2_exec (p : Parts) (e : Env) (hr : NoRefs e) (K : Code) : exec fuel fs (headCode2 p K) e = exec fuel fs K (headEnv2 p e) := by
  unfold headCode2 headEnv2
  cases p.positionals with
  | false => simp only [Bool.false_eq_true, if_false]; exact locals_exec e hr K
  | true =>
    have a1 : Act.run fs e (.setArray vPos []) = some (e.put vPos (.array []), .next) := by
      simp only [Act.run, expandAll, Option.bind_some, target_of (hr vPos), Option.map_some]
    simp only [if_true]
    rw [exec_act, andThen_next a1, locals_exec _ (put_refs hr _ (fun _ h => by cases h))]

theorem localsEnv_other (e : Env) {v : Str} (h : v ∉ localNames2) (h2 : v ≠ vEnd) : (localsEnv e).vars v = e.vars v := by
  simp only [localNames2, List.mem_cons, List.not_mem_nil, or_false, not_or] at h
  obtain ⟨g1, g2, g3, g4, g5, g6, g7, g8⟩ := h
  simp only [localsEnv, declare, Env.put, if_neg g1, if_neg g2, if_neg g3, if_neg g4, if_neg g5, if_neg g6, if_neg g7, if_neg g8, if_neg h2]

theorem localsEnv_refs {e : Env} (hr : NoRefs e) : NoRefs (localsEnv e) :=
  declare_refs (declare_refs (declare_refs (declare_refs (declare_refs (declare_refs (declare_refs (declare_refs (put_refs hr _ (fun _ h => by cases h)) _
    (fun _ h => by cases h)) _ (fun _ h => by cases h)) _ (fun _ h => by cases h)) _ (fun _ h => by cases h)) _ (fun _ h => by cases h)) _ (fun _ h => by cases h)) _
    (fun _ h => by cases h)) _ (fun _ h => by cases h)

/-- What `POSITIONALS` is during the run. -/
def posOf2 (p : Parts) (e : Env) : List Str → Val := if p.positionals then .array else fun _ => e.vars vPos

theorem head2_saved (p : Parts) (e : Env) : (headEnv2 p e).saved = [vArgs, vVar, vTrailing, vChar, vI, vArg, vArgi, vCmd].map (fun x => (x, e.vars x)) ++ e.saved := by
  unfold headEnv2
  cases p.positionals <;> rfl

theorem head2_args (p : Parts) (e : Env) : (headEnv2 p e).args = e.args := by
  unfold headEnv2
  cases p.positionals <;> rfl

theorem head2_refs (p : Parts) {e : Env} (hr : NoRefs e) : NoRefs (headEnv2 p e) := by
  unfold headEnv2
  cases p.positionals with
  | false => exact localsEnv_refs hr
  | true => exact localsEnv_refs (put_refs hr _ (fun _ h => by cases h))

theorem head2_other (p : Parts) (e : Env) {v : Str} (h : v ∉ localNames2) (h1 : v ≠ vPos) (h2 : v ≠ vEnd) : (headEnv2 p e).vars v = e.vars v := by
  unfold headEnv2
  rw [localsEnv_other _ h h2]
  cases p.positionals with
  | false => rfl
  | true => exact put_other _ _ h1

theorem head2_st (p : Parts) {e : Env} {words : List Str} {cword : Nat} (hr : NoRefs e) (hw : e.vars vWords = .array words) (hcw : e.vars vCword = .str (decimal cword)) :
    St ⟨e.vars, words, cword, (headEnv2 p e).saved, e.args, [vVar, vArgs], posOf2 p e⟩ ((headEnv2 p e).put vArgi (.str (decimal 1))) {} 1 := by
  refine ⟨put_refs (head2_refs p hr) _ (fun _ h => by cases h), ?_, put_same _ _ _, ?_, ?_, ?_, ?_, ?_, rfl, head2_args p e⟩
  · rw [put_other _ _ (by decide)]
    unfold headEnv2 localsEnv
    rw [declare_other _ _ (by decide), declare_other _ _ (by decide), declare_other _ _ (by decide), declare_other _ _ (by decide),
      declare_other _ _ (by decide), declare_other _ _ (by decide), declare_other _ _ (by decide), declare_same]
    rfl
  · rw [put_other _ _ (by decide)]
    unfold headEnv2 posOf2
    rw [localsEnv_other _ (by decide) (by decide)]
    cases p.positionals with
    | false => rfl
    | true => exact put_same _ _ _
  · rw [put_other _ _ (by decide)]
    unfold headEnv2 localsEnv
    rw [declare_other _ _ (by decide), declare_other _ _ (by decide), declare_other _ _ (by decide), declare_other _ _ (by decide),
      declare_other _ _ (by decide), declare_other _ _ (by decide), declare_other _ _ (by decide), declare_other _ _ (by decide), put_same]
    rfl
  · rw [put_other _ _ (by decide), head2_other _ _ (by decide) (by decide) (by decide)]; exact hw
  · rw [put_other _ _ (by decide), head2_other _ _ (by decide) (by decide) (by decide)]; exact hcw
  · intro v hv
    have hl : v ∉ localNames2 := fun hm => hv (by
      show v ∈ parserNames ++ [vVar, vArgs]
      simp only [localNames2, List.mem_cons, List.not_mem_nil, or_false] at hm
      rcases hm with rfl | rfl | rfl | rfl | rfl | rfl | rfl | rfl <;> decide)
    rw [put_other _ _ (Ne.symm (ne_own hv (by decide))), head2_other _ _ hl (Ne.symm (ne_own hv (by decide))) (Ne.symm (ne_own hv (by decide)))]
    rfl

theorem lookup_find (a b : List Str → Env → Option Env) (args : List Str) (e : Env) :
    ((((fAppend, a) :: (fFind, b) :: fs : Funs).find? (fun g => decide (g.1 = fFind))).bind (fun g => g.2 args e)) = b args e := by kernel_rfl

theorem lookup_append (a b : List Str → Env → Option Env) (args : List Str) (e : Env) :
    ((((fAppend, a) :: (fFind, b) :: fs : Funs).find? (fun g => decide (g.1 = fAppend))).bind (fun g => g.2 args e)) = a args e := by kernel_rfl

theorem text_calls {blocks : List Block} (h : ∀ b ∈ blocks, PlainBashBlock b ∧ ∀ o ∈ b.opts, PlainBashOption2 o) :
    Calls ((fAppend, closure (exec fuel ((fFind, closure (exec fuel fs (findBody blocks))) :: fs) appendBody)) :: (fFind, closure (exec fuel fs (findBody blocks))) :: fs) (textFind blocks) where
  find hr := (lookup_find _ _ _ _).trans (find_run h hr)
  append hr hv := (lookup_append _ _ _ _).trans (append_run hr hv)

theorem textFind_mem {blocks : List Block} {cmd name : Str} {o : BOpt} (h : textFind blocks cmd name = some o) : ∃ b ∈ blocks, o ∈ b.opts := by
  unfold textFind at h
  split at h
  · rename_i b
    exact ⟨b, by simp, List.mem_of_find?_eq_some h⟩
  · unfold findBOpt at h
    obtain ⟨b, hb, ho⟩ := List.exists_of_findSome?_eq_some h
    exact ⟨b, (List.mem_filter.mp hb).1, List.mem_of_find?_eq_some ho⟩

/-- The abstract parser, with the options that the text finds. -/
def textParseV2 (p : Parts) (blocks : List Block) (cases : List SwitchCase) (words : List Str) (cur : Str) (post : List Str) : BState :=
  bashLoop (v2OptionBy p (textFind blocks)) (if p.positionals then cases else []) cur post {} false words

/-- With more than one command, or if the command stays the same, the text finds the options that the model finds. -/
theorem textParse_eq (p : Parts) (blocks : List Block) (cases : List SwitchCase) (words : List Str) (cur : Str) (post : List Str)
    (h : ∀ b, blocks = [b] → b.path = "root".toList ∧ (p.positionals = true → cases = [])) :
    textParseV2 p blocks cases words cur post = bashLoop (v2Option p blocks) (if p.positionals then cases else []) cur post {} false words := by
  unfold textParseV2
  rw [v2Option_by]
  by_cases hb : ∃ b, blocks = [b]
  · obtain ⟨b, rfl⟩ := hb
    obtain ⟨h1, h2⟩ := h b rfl
    have hc : (if p.positionals then cases else []) = [] := by
      cases hp : p.positionals with
      | false => rfl
      | true => simpa using h2 hp
    rw [hc]
    have hact : Block.active "root".toList b = true := by
      unfold Block.active; rw [h1]
      cases b.inherits <;> decide
    have hfind : ∀ name, textFind [b] "root".toList name = findBOpt [b] "root".toList name := by
      intro name
      unfold findBOpt
      rw [List.filter_cons, if_pos hact]
      show b.opts.find? (isNameOf name) = _
      rw [List.findSome?_cons]
      have hfun : b.opts.find? (fun o => o.shorts.contains name || o.longs.contains name) = b.opts.find? (isNameOf name) := rfl
      rw [hfun]
      cases b.opts.find? (isNameOf name) <;> rfl
    have hoption : v2OptionBy p (textFind [b]) "root".toList = v2OptionBy p (findBOpt [b]) "root".toList := by
      funext arg next
      unfold v2OptionBy
      rw [show textFind [b] "root".toList = findBOpt [b] "root".toList from funext hfind]
    have hloop : ∀ (ws : List Str) (skip : Bool) (s : BState), s.cmd = "root".toList →
        bashLoop (v2OptionBy p (textFind [b])) [] cur post s skip ws = bashLoop (v2OptionBy p (findBOpt [b])) [] cur post s skip ws := by
      intro ws
      induction ws with
      | nil => intro skip s _; cases skip <;> rfl
      | cons w ws ih =>
        intro skip s hs
        cases skip with
        | true => rw [bashLoop, bashLoop]; exact ih _ _ hs
        | false =>
          rw [bashLoop, bashLoop, hs, hoption]
          split
          · rfl
          · split
            · exact ih _ _ rfl
            · exact ih _ _ rfl
    exact hloop words false {} rfl
  · have : textFind blocks = findBOpt blocks := by
      funext cmd name
      unfold textFind
      split
      · exact absurd ⟨_, rfl⟩ hb
      · rfl
    rw [this]

/-- What running the function does. -/
theorem v2_run (p : Parts) (blocks : List Block) (hb : ∀ b ∈ blocks, PlainBashBlock b ∧ ∀ o ∈ b.opts, PlainBashOption2 o) (cases : List SwitchCase) (hc : ∀ c ∈ cases, PlainBashSwitch c)
    (e : Env) (args : List Str)
    {prog cur : Str} {words post : List Str} (hr : NoRefs e) (hw : e.vars vWords = .array (prog :: words ++ cur :: post))
    (hcw : e.vars vCword = .str (decimal (words.length + 1))) (hf1 : words.length + 2 ≤ fuel) (hf2 : ∀ w ∈ words, w.length < fuel) :
    ∃ e', closure (exec fuel fs (v2Code p blocks cases)) args e = some e' ∧ e'.args = e.args ∧ e'.saved = e.saved ∧
      e'.vars vPos = posOf2 p e (textParseV2 p blocks cases words cur post).positionals ∧
      e'.vars vEnd = .str (if (textParseV2 p blocks cases words cur post).endOfOptions then ['1'] else ['0']) ∧
      (∀ v ∈ parserNames2, v ≠ vPos → v ≠ vEnd → e'.vars v = e.vars v) ∧
      (∀ v, v ∉ parserNames2 → e'.vars v = logged (e.vars v) (valuesOf v (textParseV2 p blocks cases words cur post).log)) := by
  let e0 : Env := { e with args := args, saved := [] }
  have hr0 : NoRefs e0 := hr
  let C : Ctx := ⟨e.vars, prog :: words ++ cur :: post, words.length + 1, (headEnv2 p e0).saved, args, [vVar, vArgs], posOf2 p e0⟩
  haveI : OwnTwo C := ⟨rfl⟩
  have hpos : if p.positionals then HasPos C else NoPos C := by
    cases hp : p.positionals with
    | true => exact ⟨by show posOf2 p e0 = _; unfold posOf2; rw [hp]; rfl⟩
    | false => exact ⟨⟨e.vars vPos, by show posOf2 p e0 = _; unfold posOf2; rw [hp]; rfl⟩⟩
  have hst : St C ((headEnv2 p e0).put vArgi (.str (decimal 1))) {} 1 := head2_st p hr0 hw hcw
  have F := text_calls (fuel := fuel) (fs := fs) hb
  have G : GoodFind C (textFind blocks) := by
    intro cmd name o ho
    obtain ⟨b, hbm, hom⟩ := textFind_mem ho
    have h2 := (hb b hbm).2 o hom
    refine ⟨?_, ?_⟩
    · intro hm
      rcases List.mem_append.mp hm with hm | hm
      · exact h2.plain.own hm
      · exact h2.var (by
          simp only [C, List.mem_cons, List.not_mem_nil, or_false] at hm
          rcases hm with hm | hm <;> rw [hm] <;> decide)
    · intro hm; exact h2.var (by rw [hm]; decide)
  obtain ⟨e1, k1, f, g1, g2, g3⟩ := loops_gen (C := C) (fuel := fuel) (cur := cur) (post := post)
    (v2_steps F G p cases hc hpos cur (by omega)) fuel words false (k := 1)
    (e := (headEnv2 p e0).put vArgi (.str (decimal 1))) (s := {}) (by omega) hf2 (by rfl) (by show words.length + 1 = _; omega) (by simpa using hst)
  have hx : exec fuel fs (v2Code p blocks cases) e0 = some (e1, f) := by
    unfold v2Code
    rw [head2_exec p e0 hr0]
    show exec fuel _ (loopsCode p cases) (headEnv2 p e0) = _
    unfold loopsCode
    rw [exec_loop]
    have hset : (Arith.set vArgi 1).eval (headEnv2 p e0) = some (1, (headEnv2 p e0).put vArgi (.str (decimal 1))) := by
      simp only [Arith.eval]
    rw [hset, Option.bind_some]
    exact g1
  have hs := g3.saved
  have hsv : C.saved = [vArgs, vVar, vTrailing, vChar, vI, vArg, vArgi, vCmd].map (fun x => (x, e.vars x)) := by
    show (headEnv2 p e0).saved = _
    rw [head2_saved]; exact List.append_nil _
  refine ⟨{ (restore e1 e1.saved) with args := e.args, saved := e.saved }, ?_, rfl, rfl, ?_, ?_, ?_, ?_⟩
  · unfold closure
    show (exec fuel fs (v2Code p blocks cases) e0).bind _ = _
    rw [hx, Option.bind_some]
    rcases g2 with rfl | rfl <;> rfl
  · show (restore e1 e1.saved).vars vPos = _
    rw [hs, hsv, restore_saved, if_neg (by decide)]; exact g3.pos
  · show (restore e1 e1.saved).vars vEnd = _
    rw [hs, hsv, restore_saved, if_neg (by decide)]; exact g3.fin
  · intro v hv h1 h2
    show (restore e1 e1.saved).vars v = _
    rw [hs, hsv, restore_saved]
    split
    · rfl
    · rename_i hn
      have : v = vWords ∨ v = vCword := by
        simp only [parserNames2, parserNames, List.cons_append, List.nil_append, List.mem_cons, List.not_mem_nil, or_false] at hv
        rcases hv with rfl | rfl | rfl | rfl | rfl | rfl | rfl | rfl | rfl | rfl | rfl | rfl
        · exact absurd (by decide) hn
        · exact absurd (by decide) hn
        · exact absurd (by decide) hn
        · exact absurd (by decide) hn
        · exact absurd (by decide) hn
        · exact absurd (by decide) hn
        · exact absurd rfl h1
        · exact absurd rfl h2
        · exact Or.inl rfl
        · exact Or.inr rfl
        · exact absurd (by decide) hn
        · exact absurd (by decide) hn
      rcases this with rfl | rfl
      · rw [g3.words, hw]
      · rw [g3.cword, hcw]
  · intro v hv
    show (restore e1 e1.saved).vars v = _
    rw [hs, hsv, restore_saved, if_neg]
    · exact g3.opts v hv
    · intro hm
      apply hv
      simp only [List.mem_cons, List.not_mem_nil, or_false] at hm
      rcases hm with rfl | rfl | rfl | rfl | rfl | rfl | rfl | rfl <;> decide

/-! ## From plain command lines -/

theorem findOk {o : BOpt} (h : PlainBashOption2 o) : FindOk o := by
  have hhead : ∀ t, isNameOf t o = true → t.head? = some '-' := by
    intro t ht
    simp only [isNameOf, Bool.or_eq_true, List.contains_iff_mem] at ht
    rcases ht with ht | ht
    · obtain ⟨c, rfl, _⟩ := h.plain.shorts t ht; rfl
    · exact (h.plain.longs t ht).1
  refine ⟨h.plain.var, pat_of (means_all h) ⟨"esac".toList, ?_⟩ (break_pattern ?_)⟩
  · intro hi
    have := hhead _ (hi.mpr rfl)
    revert this; decide
  · intro t ht
    rcases List.mem_append.mp ht with ht | ht
    · obtain ⟨c, rfl, hc⟩ := h.plain.shorts t ht
      intro hm
      simp only [List.mem_cons, List.not_mem_nil, or_false] at hm
      rcases hm with hm | hm
      · revert hm; decide
      · subst hm; have := hc.2; revert this; decide
    · exact plain_break (h.plain.longs t ht).2

theorem blockOk2 {b : Block} (h : PlainBashBlock b) (ho : ∀ o ∈ b.opts, PlainBashOption2 o) : BlockOk2 b := by
  have hq : '\'' ∉ b.path := lits_safe h.path.2.2
  have hn := plain_break h.path.2.2
  refine ⟨⟨(means_path2 h).some, ?_, ?_⟩, fun o hm => findOk (ho o hm)⟩
  · unfold patPath2
    split
    · intro he
      have : '*' ∈ "esac".toList := by rw [← he]; simp
      revert this; decide
    · rw [List.append_nil]
      rcases quote_cases hq with he | he
      · rw [he]; exact h.path.2.1
      · rw [he]
        intro hc
        have : '\'' ∈ "esac".toList := by rw [← hc]; simp
        revert this; decide
  · unfold patPath2
    rcases quote_cases hq with he | he <;> rw [he] <;> split <;> simp [hn]

end BashText
