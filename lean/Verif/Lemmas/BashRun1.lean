import Verif.Lemmas.BashRead1
import Verif.Lemmas.BashMatch
import Verif.Spec.BashPlain
/-!
# Lemmas: what running the Bash parser (version 1) does
-/

namespace BashText
open CC

/-! ## Variables -/

/-- Values added to a variable. -/
def logged (v : Val) (vs : List Str) : Val := if vs = [] then v else .array (v.elements ++ vs)

/-- The values that a log has for a variable. -/
def valuesOf (v : Str) (log : List (Str × Str)) : List Str := (log.filter (fun e => decide (e.1 = v))).map (·.2)

theorem logged_append (v : Val) (a b : List Str) : logged (logged v a) b = logged v (a ++ b) := by
  unfold logged
  by_cases ha : a = []
  · simp [ha]
  · by_cases hb : b = []
    · simp [ha, hb]
    · simp [ha, hb, Val.elements]

theorem valuesOf_append (v : Str) (a b : List (Str × Str)) : valuesOf v (a ++ b) = valuesOf v a ++ valuesOf v b := by simp [valuesOf]

theorem logged_one (v : Val) (x : Str) : logged v [x] = .array (v.elements ++ [x]) := by simp [logged]

/-- What stays as it is. -/
structure Ctx where
  vars : Str → Val
  words : List Str
  cword : Nat
  saved : List (Str × Val)
  args : List Str
  extra : List Str
  posOf : List Str → Val

/-- The names that the parser uses itself. -/
def Ctx.own (C : Ctx) : List Str := parserNames ++ C.extra

/-- The parser keeps the positionals in an array. -/
class HasPos (C : Ctx) : Prop where
  pos : C.posOf = Val.array

/-- The parser uses no other names. -/
class OwnOnly (C : Ctx) : Prop where
  extra : C.extra = []

theorem OwnOnly.own {C : Ctx} [h : OwnOnly C] {v : Str} (hv : v ∉ parserNames) : v ∉ C.own := by
  unfold Ctx.own; rw [h.extra, List.append_nil]; exact hv

/-- The variables hold the state of the parser; `k` is `argi`. -/
structure St (C : Ctx) (e : Env) (s : BState) (k : Nat) : Prop where
  refs : ∀ x y, e.vars x ≠ .ref y
  cmd : e.vars vCmd = .str s.cmd
  argi : e.vars vArgi = .str (decimal k)
  pos : e.vars vPos = C.posOf s.positionals
  fin : e.vars vEnd = .str (if s.endOfOptions then ['1'] else ['0'])
  words : e.vars vWords = .array C.words
  cword : e.vars vCword = .str (decimal C.cword)
  opts : ∀ v, v ∉ C.own → e.vars v = logged (C.vars v) (valuesOf v s.log)
  saved : e.saved = C.saved
  args : e.args = C.args

theorem put_same (e : Env) (x : Str) (v : Val) : (e.put x v).vars x = v := if_pos rfl
theorem put_other (e : Env) {x y : Str} (v : Val) (h : y ≠ x) : (e.put x v).vars y = e.vars y := if_neg h

theorem ne_own {C : Ctx} {v x : Str} (hv : v ∉ C.own) (hx : x ∈ parserNames) : x ≠ v := fun h => hv (h ▸ List.mem_append_left _ hx)

theorem target_of {e : Env} {x : Str} (h : ∀ y, e.vars x ≠ .ref y) : target e x = some x := by
  unfold target
  split
  · rename_i y hy; exact absurd hy (h y)
  · rfl

theorem value_of {e : Env} {x : Str} (h : ∀ y, e.vars x ≠ .ref y) : value e x = some (e.vars x) := by
  unfold value; rw [target_of h]; rfl

theorem numberOf_of {e : Env} {x : Str} {n : Nat} (h : e.vars x = .str (decimal n)) : numberOf e x = some n := by
  unfold numberOf
  rw [value_of (by rw [h]; intro y hy; cases hy), h]
  show (if decimal n = [] then some 0 else Decimal.digits (decimal n)) = _
  rw [if_neg (show decimal n ≠ [] from Nat.toDigits_ne_nil)]
  exact digits_natStr n

variable {C : Ctx} {e : Env} {s : BState} {k : Nat}

theorem St.ok (h : St C e s k) (b : Bool) : St C { e with ok := b } s k := ⟨h.refs, h.cmd, h.argi, h.pos, h.fin, h.words, h.cword, h.opts, h.saved, h.args⟩

theorem St.addOpt (h : St C e s k) {v : Str} (hv : v ∉ C.own) (x : Str) :
    St C (e.put v (.array ((e.vars v).elements ++ [x]))) { s with log := s.log ++ [(v, x)] } k := by
  refine ⟨?_, ?_, ?_, ?_, ?_, ?_, ?_, ?_, h.saved, h.args⟩
  · intro y z
    by_cases hy : y = v
    · subst hy; rw [put_same]; intro h; cases h
    · rw [put_other _ _ hy]; exact h.refs y z
  · rw [put_other _ _ (ne_own hv (by decide))]; exact h.cmd
  · rw [put_other _ _ (ne_own hv (by decide))]; exact h.argi
  · rw [put_other _ _ (ne_own hv (by decide))]; exact h.pos
  · rw [put_other _ _ (ne_own hv (by decide))]; exact h.fin
  · rw [put_other _ _ (ne_own hv (by decide))]; exact h.words
  · rw [put_other _ _ (ne_own hv (by decide))]; exact h.cword
  · intro y hy
    rw [valuesOf_append, ← logged_append, ← h.opts y hy]
    by_cases hyv : y = v
    · subst hyv
      rw [put_same]
      simp [valuesOf, logged]
    · rw [put_other _ _ hyv]
      simp [valuesOf, logged, Ne.symm hyv]

theorem St.local (h : St C e s k) {x : Str} (hx : x ∈ [vArg, vI, vChar, vTrailing]) (t : Str) : St C (e.put x (.str t)) s k := by
  have ho : x ∈ parserNames := by
    simp only [List.mem_cons, List.not_mem_nil, or_false] at hx
    rcases hx with rfl | rfl | rfl | rfl <;> decide
  have hne : ∀ y ∈ [vCmd, vArgi, vPos, vEnd, vWords, vCword], y ≠ x := by
    simp only [List.mem_cons, List.not_mem_nil, or_false] at hx
    rcases hx with rfl | rfl | rfl | rfl <;> decide
  refine ⟨?_, ?_, ?_, ?_, ?_, ?_, ?_, ?_, h.saved, h.args⟩
  · intro y z
    by_cases hy : y = x
    · subst hy; rw [put_same]; intro h; cases h
    · rw [put_other _ _ hy]; exact h.refs y z
  · rw [put_other _ _ (hne _ (by decide))]; exact h.cmd
  · rw [put_other _ _ (hne _ (by decide))]; exact h.argi
  · rw [put_other _ _ (hne _ (by decide))]; exact h.pos
  · rw [put_other _ _ (hne _ (by decide))]; exact h.fin
  · rw [put_other _ _ (hne _ (by decide))]; exact h.words
  · rw [put_other _ _ (hne _ (by decide))]; exact h.cword
  · intro y hy
    rw [put_other _ _ (Ne.symm (ne_own hy ho))]; exact h.opts y hy

/-- `++argi`. -/
theorem St.inc (h : St C e s k) (n : Nat) : St C (e.put vArgi (.str (decimal n))) s n := by
  refine ⟨?_, ?_, ?_, ?_, ?_, ?_, ?_, ?_, h.saved, h.args⟩
  · intro y z
    by_cases hy : y = vArgi
    · subst hy; rw [put_same]; intro h; cases h
    · rw [put_other _ _ hy]; exact h.refs y z
  · rw [put_other _ _ (by decide)]; exact h.cmd
  · rw [put_same]
  · rw [put_other _ _ (by decide)]; exact h.pos
  · rw [put_other _ _ (by decide)]; exact h.fin
  · rw [put_other _ _ (by decide)]; exact h.words
  · rw [put_other _ _ (by decide)]; exact h.cword
  · intro y hy
    rw [put_other _ _ (Ne.symm (ne_own hy (by decide)))]; exact h.opts y hy

theorem St.setCmd (h : St C e s k) (t : Str) : St C (e.put vCmd (.str t)) { s with cmd := t } k := by
  refine ⟨?_, ?_, ?_, ?_, ?_, ?_, ?_, ?_, h.saved, h.args⟩
  · intro y z
    by_cases hy : y = vCmd
    · subst hy; rw [put_same]; intro h; cases h
    · rw [put_other _ _ hy]; exact h.refs y z
  · rw [put_same]
  · rw [put_other _ _ (by decide)]; exact h.argi
  · rw [put_other _ _ (by decide)]; exact h.pos
  · rw [put_other _ _ (by decide)]; exact h.fin
  · rw [put_other _ _ (by decide)]; exact h.words
  · rw [put_other _ _ (by decide)]; exact h.cword
  · intro y hy
    rw [put_other _ _ (Ne.symm (ne_own hy (by decide)))]; exact h.opts y hy

theorem St.setPos [hp : HasPos C] (h : St C e s k) (l : List Str) : St C (e.put vPos (.array l)) { s with positionals := l } k := by
  refine ⟨?_, ?_, ?_, ?_, ?_, ?_, ?_, ?_, h.saved, h.args⟩
  · intro y z
    by_cases hy : y = vPos
    · subst hy; rw [put_same]; intro h; cases h
    · rw [put_other _ _ hy]; exact h.refs y z
  · rw [put_other _ _ (by decide)]; exact h.cmd
  · rw [put_other _ _ (by decide)]; exact h.argi
  · rw [put_same, hp.pos]
  · rw [put_other _ _ (by decide)]; exact h.fin
  · rw [put_other _ _ (by decide)]; exact h.words
  · rw [put_other _ _ (by decide)]; exact h.cword
  · intro y hy
    rw [put_other _ _ (Ne.symm (ne_own hy (by decide)))]; exact h.opts y hy

theorem St.setEnd (h : St C e s k) : St C (e.put vEnd (.str ['1'])) { s with endOfOptions := true } k := by
  refine ⟨?_, ?_, ?_, ?_, ?_, ?_, ?_, ?_, h.saved, h.args⟩
  · intro y z
    by_cases hy : y = vEnd
    · subst hy; rw [put_same]; intro h; cases h
    · rw [put_other _ _ hy]; exact h.refs y z
  · rw [put_other _ _ (by decide)]; exact h.cmd
  · rw [put_other _ _ (by decide)]; exact h.argi
  · rw [put_other _ _ (by decide)]; exact h.pos
  · rw [put_same]; rfl
  · rw [put_other _ _ (by decide)]; exact h.words
  · rw [put_other _ _ (by decide)]; exact h.cword
  · intro y hy
    rw [put_other _ _ (Ne.symm (ne_own hy (by decide)))]; exact h.opts y hy

/-- The words that the parser looks at. -/
structure Loc (e e' : Env) : Prop where
  arg : e'.vars vArg = e.vars vArg
  i : e'.vars vI = e.vars vI
  char : e'.vars vChar = e.vars vChar
  trailing : e'.vars vTrailing = e.vars vTrailing

theorem Loc.refl (e : Env) : Loc e e := ⟨rfl, rfl, rfl, rfl⟩
theorem Loc.trans {a b c : Env} (h : Loc a b) (g : Loc b c) : Loc a c :=
  ⟨g.arg.trans h.arg, g.i.trans h.i, g.char.trans h.char, g.trailing.trans h.trailing⟩
theorem Loc.ok (e : Env) (b : Bool) : Loc e { e with ok := b } := ⟨rfl, rfl, rfl, rfl⟩
theorem Loc.put (e : Env) {x : Str} (v : Val) (h : x ∉ [vArg, vI, vChar, vTrailing]) : Loc e (e.put x v) := by
  simp only [List.mem_cons, List.not_mem_nil, or_false, not_or] at h
  exact ⟨put_other _ _ (Ne.symm h.1), put_other _ _ (Ne.symm h.2.1), put_other _ _ (Ne.symm h.2.2.1), put_other _ _ (Ne.symm h.2.2.2)⟩

theorem own_loc {v : Str} (h : v ∉ C.own) : v ∉ [vArg, vI, vChar, vTrailing] := by
  intro hm
  apply h
  apply List.mem_append_left
  simp only [List.mem_cons, List.not_mem_nil, or_false] at hm
  rcases hm with rfl | rfl | rfl | rfl <;> decide

/-! ## Words -/

theorem expand_lits (e : Env) (t : Str) : expand e (lits t) = some (t, e) := by
  induction t with
  | nil => rfl
  | cons c t ih =>
    show ((Part.lit c).expand e).bind _ = _
    simp only [Part.expand, Option.bind_some]
    have : expand e (List.map Part.lit t) = some (t, e) := ih
    rw [this]; rfl

theorem expand_var {x t : Str} (h : e.vars x = .str t) : expand e [.var x] = some (t, e) := by
  simp only [expand, Part.expand]
  rw [value_of (by rw [h]; intro y hy; cases hy), h]
  simp [Val.text]

theorem expand_next (h : St C e s k) :
    expand e wNext = some ((C.words[k + 1]?).getD [], e.put vArgi (.str (decimal (k + 1)))) := by
  simp only [expand, Part.expand, Arith.eval, Atom.eval, numberOf_of h.argi, Option.map_some, Option.bind_some]
  have h1 := (h.inc (k + 1))
  rw [value_of (h1.refs _), h1.words]
  simp [Val.elements]

theorem expand_behind {t : Str} (h : e.vars vArg = .str t) : expand e wBehind = some (behindEquals t, e) := by
  simp only [expand, Part.expand]
  rw [value_of (by rw [h]; intro y hy; cases hy), h]
  simp [Val.text]

theorem run_add (fs : Funs) {e e1 : Env} {v : Str} {w : Word} {x : Str} (h : expand e w = some (x, e1)) (hw : ∀ y i, w ≠ [.slice y i])
    (ht : ∀ y, e1.vars v ≠ .ref y) : Act.run fs e (.addArray v [w]) = some (e1.put v (.array ((e1.vars v).elements ++ [x])), .next) := by
  have h1 : expandAll e [w] = some ([x], e1) := by
    unfold expandAll
    split
    · rename_i hh; cases hh
    · rename_i y i r hh
      injection hh with hh _
      exact absurd hh (hw y i)
    · rename_i w' r hn hh
      injection hh with hh1 hh2
      subst hh1; subst hh2
      rw [h]; rfl
  simp only [Act.run, h1, Option.bind_some, target_of ht, Option.map_some]

/-- The words of values, and where they leave `argi`. -/
theorem element_value {w : Word} (h : St C e s k) {arg tr : Str} (harg : w = wBehind → e.vars vArg = .str arg) (htr : w = wTrailing → e.vars vTrailing = .str tr)
    (hw : w = wSet ∨ w = wNext ∨ w = wBehind ∨ w = wTrailing) :
    ∃ e1, expand e w = some (if w = wSet then optIsSet else if w = wNext then (C.words[k + 1]?).getD [] else if w = wBehind then behindEquals arg else tr, e1) ∧
      St C e1 s (if w = wNext then k + 1 else k) ∧ Loc e e1 := by
  rcases hw with rfl | rfl | rfl | rfl
  · refine ⟨e, ?_, ?_, Loc.refl e⟩
    · rw [if_pos rfl]; exact expand_lits e _
    · rw [if_neg (by decide)]; exact h
  · refine ⟨_, ?_, ?_, Loc.put e (x := vArgi) (.str (decimal (k + 1))) (by decide)⟩
    · rw [if_neg (by decide), if_pos rfl]; exact expand_next h
    · rw [if_pos rfl]; exact h.inc _
  · refine ⟨e, ?_, ?_, Loc.refl e⟩
    · rw [if_neg (by decide), if_neg (by decide), if_pos rfl]; exact expand_behind (harg rfl)
    · rw [if_neg (by decide)]; exact h
  · refine ⟨e, ?_, ?_, Loc.refl e⟩
    · rw [if_neg (by decide), if_neg (by decide), if_neg (by decide)]; exact expand_var (htr rfl)
    · rw [if_neg (by decide)]; exact h

/-- `v+=(w)`. -/
theorem add_value (fs : Funs) {w : Word} (h : St C e s k) {v : Str} (hv : v ∉ C.own) {arg tr : Str} (harg : w = wBehind → e.vars vArg = .str arg)
    (htr : w = wTrailing → e.vars vTrailing = .str tr) (hw : w = wSet ∨ w = wNext ∨ w = wBehind ∨ w = wTrailing) :
    ∃ e1, Act.run fs e (.addArray v [w]) = some (e1, .next) ∧
      St C e1 { s with log := s.log ++ [(v, if w = wSet then optIsSet else if w = wNext then (C.words[k + 1]?).getD [] else if w = wBehind then behindEquals arg else tr)] }
        (if w = wNext then k + 1 else k) ∧ Loc e e1 := by
  obtain ⟨e1, h1, h2, h3⟩ := element_value h harg htr hw
  refine ⟨_, run_add fs h1 ?_ (h2.refs v), h2.addOpt hv _, h3.trans (Loc.put _ _ (own_loc hv))⟩
  rcases hw with rfl | rfl | rfl | rfl <;> · intro y i hh; revert hh; simp [lits]

/-! ## Programs -/

variable {fuel : Nat} {fs : Funs}

theorem exec_done (e : Env) : exec fuel fs .done e = some (e, .next) := by rw [exec]
theorem exec_act (a : Act) (K : Code) (e : Env) : exec fuel fs (.act a K) e = andThen (a.run fs e) (exec fuel fs K) := by rw [exec]
theorem exec_one (a : Act) (e : Env) : exec fuel fs (one a) e = andThen (a.run fs e) (fun e => some (e, .next)) := by
  unfold one; rw [exec_act]; congr 1
theorem exec_case (w : Word) (cl K : Code) (e : Env) :
    exec fuel fs (.case_ w cl K) e = andThen ((expand e w).bind (fun r => choose fuel fs r.1 cl r.2)) (exec fuel fs K) := by rw [exec]
theorem exec_if (c t el K : Code) (e : Env) : exec fuel fs (.if_ c t el K) e =
    andThen (andThen (exec fuel fs c e) (fun e => if e.ok then exec fuel fs t e else exec fuel fs el { e with ok := true })) (exec fuel fs K) := by rw [exec]
theorem exec_loop (i c st : Arith) (b K : Code) (e : Env) :
    exec fuel fs (.loop i c st b K) e = andThen ((i.eval e).bind (fun r => iterate c st (exec fuel fs b) fuel r.2)) (exec fuel fs K) := by rw [exec]

theorem choose_nil (v : Str) (e : Env) : choose fuel fs v (clauses []) e = some ({ e with ok := true }, .next) := by
  show choose fuel fs v .done e = _
  rw [choose]

theorem choose_hit {p : Str} {L : Str → Prop} (h : Means p L) {v : Str} (hv : L v) (b : Code) (l : List (Str × Code)) (e : Env) :
    choose fuel fs v (clauses ((p, b) :: l)) e = exec fuel fs b { e with ok := true } := by
  obtain ⟨alts, h1, h2⟩ := h
  show choose fuel fs v (.clause p b (clauses l)) e = _
  rw [choose, h1, Option.bind_some, if_pos ((h2 v).2 hv)]

theorem choose_miss {p : Str} {L : Str → Prop} (h : Means p L) {v : Str} (hv : ¬ L v) (b : Code) (l : List (Str × Code)) (e : Env) :
    choose fuel fs v (clauses ((p, b) :: l)) e = choose fuel fs v (clauses l) e := by
  obtain ⟨alts, h1, h2⟩ := h
  show choose fuel fs v (.clause p b (clauses l)) e = _
  rw [choose, h1, Option.bind_some, if_neg (fun hh => hv ((h2 v).1 hh))]

theorem andThen_next {r : Option (Env × Flow)} {e : Env} (h : r = some (e, .next)) (K : Env → Option (Env × Flow)) : andThen r K = K e := by rw [h]; rfl
theorem andThen_stop {r : Option (Env × Flow)} {e : Env} {f : Flow} (h : r = some (e, f)) (hf : f ≠ .next) (K : Env → Option (Env × Flow)) :
    andThen r K = some (e, f) := by
  rw [h]; cases f <;> first | exact absurd rfl hf | rfl

theorem exec_addGo {w : Word} (h : St C e s k) {v : Str} (hv : v ∉ C.own) {arg : Str} (harg : e.vars vArg = .str arg) (hw : w = wSet ∨ w = wNext ∨ w = wBehind) :
    ∃ e1, exec fuel fs (addGo v w) e = some (e1, .continue_ 1) ∧
      St C e1 { s with log := s.log ++ [(v, if w = wSet then optIsSet else if w = wNext then (C.words[k + 1]?).getD [] else behindEquals arg)] }
        (if w = wNext then k + 1 else k) := by
  have hw' : w = wSet ∨ w = wNext ∨ w = wBehind ∨ w = wTrailing := by rcases hw with h | h | h <;> simp [h]
  have hnt : w ≠ wTrailing := by rcases hw with rfl | rfl | rfl <;> decide
  obtain ⟨e1, h1, h2, _⟩ := add_value fs h hv (w := w) (arg := arg) (tr := []) (fun _ => harg) (fun h => absurd h hnt) hw'
  refine ⟨e1, ?_, ?_⟩
  · unfold addGo
    rw [exec_act, andThen_next h1, exec_one]; rfl
  · rcases hw with rfl | rfl | rfl <;> exact h2

end BashText
