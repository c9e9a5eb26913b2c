import Verif.Lemmas.KernelRfl
import Verif.Lemmas.Glob
import Verif.Lemmas.Decimal
import Verif.Spec.BashText
import Verif.Model.BashFile
import Verif.Props.StrUtils
/-!
# Lemmas: how the reader of Bash programs reads lines
-/

namespace BashText
open CC

theorem append_done (c : Code) : c ++ Code.done = c := by
  show c.append .done = c
  induction c with
  | done => rfl
  | _ => simp_all [Code.append]

theorem done_append (c : Code) : Code.done ++ c = c := rfl

theorem append_assoc' (a b c : Code) : (a ++ b) ++ c = a ++ (b ++ c) := by
  show (a.append b).append c = a.append (b.append c)
  induction a with
  | done => rfl
  | _ => simp_all [Code.append]

theorem run_append (s : State) (a b : Str) : run s (a ++ b) = (run s a).bind (fun s => run s b) := by
  simp [run, List.foldlM_append]

theorem run_cons (s : State) (c : Char) (t : Str) : run s (c :: t) = (step s c).bind (fun s => run s t) := rfl

theorem run_then {s s' : State} {a : Str} (h : run s a = some s') (b : Str) : run s (a ++ b) = run s' b := by
  rw [run_append, h]; rfl

/-- The reader is between words. -/
abbrev at_ (p : PState) : State := ⟨.gap, [], p⟩

theorem gap_blank (p : PState) : step (at_ p) ' ' = some (at_ p) := by
  simp only [step, gapStep, gapCommand]
  split <;> simp

theorem run_blanks (p : PState) (n : Nat) (t : Str) : run (at_ p) (List.replicate n ' ' ++ t) = run (at_ p) t := by
  induction n with
  | zero => rfl
  | succ n ih => rw [List.replicate_succ, List.cons_append, run_cons, gap_blank]; exact ih

theorem run_newline {stack : List Frame} : run (at_ ⟨.start, stack⟩) ['\n'] = some (at_ ⟨.start, stack⟩) := by
  rw [run_cons]
  have : step (at_ ⟨.start, stack⟩) '\n' = some (at_ ⟨.start, stack⟩) := by
    simp only [step, gapStep]
    split
    · simp
    · rfl
  rw [this]; rfl

/-! ## Texts of lines -/

/-- Lines, each with its newline. -/
def flat (ls : List Str) : Str := ls.flatMap (fun l => l ++ ['\n'])

theorem flat_join (l : Str) (ls : List Str) : flat (l :: ls) = joinWith ['\n'] (l :: ls) ++ ['\n'] := by
  induction ls generalizing l with
  | nil => simp [flat, joinWith]
  | cons m ls ih =>
    have := ih m
    simp only [flat, List.flatMap_cons] at this ⊢
    rw [this]
    simp [joinWith]

/-- Lines are read one after the other. -/
inductive Reads : PState → List Str → PState → Prop
  | nil {p} : Reads p [] p
  | cons {p q r l ls} : '\n' ∉ l → run (at_ p) (l ++ ['\n']) = some (at_ q) → Reads q ls r → Reads p (l :: ls) r

theorem Reads.append {p q r : PState} {a b : List Str} (h : Reads p a q) (g : Reads q b r) : Reads p (a ++ b) r := by
  induction h with
  | nil => exact g
  | cons hn hl _ ih => exact .cons hn hl (ih g)

theorem Reads.run {p q : PState} {a : List Str} (h : Reads p a q) : run (at_ p) (flat a) = some (at_ q) := by
  induction h with
  | nil => rfl
  | @cons p q r l ls hn hl _ ih =>
    show BashText.run (at_ p) ((l ++ ['\n']) ++ flat ls) = _
    rw [run_then hl, ih]

theorem Reads.clean {p q : PState} {a : List Str} (h : Reads p a q) : ∀ l ∈ a, '\n' ∉ l := by
  induction h with
  | nil => simp
  | cons hn _ _ ih => simp only [List.mem_cons, forall_eq_or_imp]; exact ⟨hn, ih⟩

/-- A line with blanks in front. -/
def indentLine (n : Nat) (l : Str) : Str := if stripTruthy l then List.replicate n ' ' ++ l else l

theorem Reads.indent {p q : PState} {a : List Str} (h : Reads p a q) (n : Nat) : Reads p (a.map (indentLine n)) q := by
  induction h with
  | nil => exact .nil
  | @cons p q r l ls hn hl _ ih =>
    refine .cons ?_ ?_ ih
    · unfold indentLine; split
      · simp [hn]
      · exact hn
    · unfold indentLine; split
      · rw [List.append_assoc, run_blanks, hl]
      · exact hl

/-- The text is read as lines. -/
def ReadsText (p : PState) (t : Str) (q : PState) : Prop := ∃ ls, ls ≠ [] ∧ t ++ ['\n'] = flat ls ∧ Reads p ls q

theorem ReadsText.line {p q : PState} {l : Str} (hn : '\n' ∉ l) (h : BashText.run (at_ p) (l ++ ['\n']) = some (at_ q)) : ReadsText p l q :=
  ⟨[l], by simp, by simp [flat], .cons hn h .nil⟩

theorem ReadsText.then {p q r : PState} {t u : Str} (h : ReadsText p t q) (g : ReadsText q u r) : ReadsText p (t ++ '\n' :: u) r := by
  obtain ⟨a, ha, ea, ra⟩ := h
  obtain ⟨b, hb, eb, rb⟩ := g
  refine ⟨a ++ b, by simp [ha], ?_, ra.append rb⟩
  have : flat (a ++ b) = flat a ++ flat b := by simp [flat]
  rw [this, ← ea, ← eb]; simp

theorem ReadsText.run {p q : PState} {t : Str} (h : ReadsText p t q) : BashText.run (at_ p) (t ++ ['\n']) = some (at_ q) := by
  obtain ⟨a, _, ea, ra⟩ := h
  rw [ea, ra.run]

theorem ReadsText.run_then {p q : PState} {t : Str} (h : ReadsText p t q) (u : Str) :
    BashText.run (at_ p) (t ++ '\n' :: u) = BashText.run (at_ q) u := by
  have : t ++ '\n' :: u = (t ++ ['\n']) ++ u := by simp
  rw [this, BashText.run_then h.run]

theorem ReadsText.indent {p q : PState} {t : Str} (h : ReadsText p t q) (n : Nat) : ReadsText p (CC.indent t n) q := by
  obtain ⟨a, ha, ea, ra⟩ := h
  refine ⟨a.map (indentLine n), by simp [ha], ?_, ra.indent n⟩
  obtain ⟨l, ls, rfl⟩ := List.exists_cons_of_ne_nil ha
  rw [flat_join] at ea
  have et := List.append_cancel_right ea
  rw [List.map_cons, flat_join, et]
  congr 1
  unfold CC.indent
  rw [splitOn_join _ _ (by simp) ra.clean]
  rfl

/-- An empty line between two texts. -/
theorem ReadsText.then_blank {p r : PState} {stack : List Frame} {t u : Str} (h : ReadsText p t ⟨.start, stack⟩)
    (g : ReadsText ⟨.start, stack⟩ u r) : ReadsText p (t ++ '\n' :: '\n' :: u) r := by
  have := h.then ((ReadsText.line (l := []) (by simp) run_newline).then g)
  simpa using this

/-! ## Patterns -/

theorem gread_prefix {a b : Str} {st : GState} (h : (gread caseCtx st (a ++ b)).isSome) : (gread caseCtx st a).isSome := by
  rw [gread_append] at h
  cases hg : gread caseCtx st a with
  | none => rw [hg] at h; simp at h
  | some _ => rfl

theorem read_pattern_chars (stack : List Frame) (b : Str) : ∀ (a : Str), (gread caseCtx {} (a ++ b)).isSome →
    run ⟨.pattern, a, ⟨.start, stack⟩⟩ b = some ⟨.pattern, a ++ b, ⟨.start, stack⟩⟩ := by
  induction b with
  | nil => intro a _; simp [run]
  | cons c b ih =>
    intro a h
    have hac : (gread caseCtx {} (a ++ [c])).isSome := by
      apply gread_prefix (b := b); simpa using h
    obtain ⟨st, hst⟩ := Option.isSome_iff_exists.mp hac
    have hstep : step ⟨.pattern, a, ⟨.start, stack⟩⟩ c = some ⟨.pattern, a ++ [c], ⟨.start, stack⟩⟩ := by
      simp only [step, patternStep, hst]
    rw [run_cons, hstep]
    show run _ b = _
    rw [ih (a ++ [c]) (by simpa using h)]
    simp

/-- Behind a pattern that is complete, `)` ends it. -/
theorem gread_close {t : Str} (h : (readGlob caseCtx t).isSome) : gread caseCtx {} (t ++ [')']) = none ∧ (gread caseCtx {} t).isSome := by
  unfold readGlob at h
  split at h
  · simp at h
  · split at h
    · simp at h
    · rename_i st hst
      refine ⟨?_, by rw [hst]; rfl⟩
      rw [gread_append, hst]
      show (gread caseCtx st [')']) = none
      split at h
      · rename_i hm hf
        rw [gread_cons]
        have : gstep caseCtx st ')' = none := by
          unfold gstep
          cases hmode : st.mode with
          | plain => simp [gplain, hf]
          | pend k => simp only [GState.flush, hmode]; simp [gplain, hf]
          | _ => simp [GState.flush, hmode] at hm
        rw [this]; rfl
      · simp at h

theorem special_first {c : Char} {t : Str} (h : (readGlob caseCtx (c :: t)).isSome) : c ≠ ' ' ∧ c ≠ '\t' ∧ c ≠ '\n' ∧ c ≠ '#' := by
  have h2 := (gread_close h).2
  rw [gread_cons] at h2
  refine ⟨?_, ?_, ?_, ?_⟩ <;> · rintro rfl; revert h2; simp [gstep, gplain, caseCtx, S]

/-- A pattern and the `)` behind it. -/
theorem read_pattern {w : Word} {cl : Code} {r : List Frame} {t : Str} (h : (readGlob caseCtx t).isSome) (he : t ≠ "esac".toList) (u : Str) :
    run (at_ ⟨.start, ⟨.case_ w, cl⟩ :: r⟩) (t ++ ')' :: u) =
      run (at_ ⟨.start, ⟨.clause t, .done⟩ :: ⟨.case_ w, cl⟩ :: r⟩) u := by
  cases t with
  | nil => simp [readGlob] at h
  | cons c t =>
    obtain ⟨h1, h2, h3, h4⟩ := special_first h
    have hg := (gread_close h).2
    have hc : (gread caseCtx {} [c]).isSome := gread_prefix (b := t) (by simpa using hg)
    obtain ⟨st, hst⟩ := Option.isSome_iff_exists.mp hc
    have hstep : step (at_ ⟨.start, ⟨.case_ w, cl⟩ :: r⟩) c = some ⟨.pattern, [c], ⟨.start, ⟨.case_ w, cl⟩ :: r⟩⟩ := by
      simp only [step, gapStep, atPattern, if_true, h1, h2, h3, h4, or_self, if_false, patternStep, List.nil_append, hst]
    rw [List.cons_append, run_cons, hstep]
    show run _ (t ++ ')' :: u) = _
    rw [run_then (read_pattern_chars _ t [c] (by simpa using hg)), run_cons]
    have : step ⟨.pattern, [c] ++ t, ⟨.start, ⟨.case_ w, cl⟩ :: r⟩⟩ ')' =
        some (at_ ⟨.start, ⟨.clause (c :: t), .done⟩ :: ⟨.case_ w, cl⟩ :: r⟩) := by
      simp only [step, patternStep, List.cons_append, List.nil_append]
      have := (gread_close h).1
      rw [List.cons_append] at this
      rw [this]
      simp only [if_true, h, true_and]
      rw [if_pos he]
    rw [this]; rfl

/-! ## Names -/

theorem name_char {c : Char} (h : nameChar c = true) : c ≠ ' ' ∧ c ≠ '\t' ∧ c ≠ '\n' ∧ c ≠ '\'' ∧ c ≠ '"' ∧ c ≠ ';' ∧ c ≠ '(' ∧ c ≠ ')' ∧
    c ≠ '#' ∧ c ∉ "\\&|<>`".toList ∧ c ≠ '=' ∧ c ≠ '+' := by
  refine ⟨?_, ?_, ?_, ?_, ?_, ?_, ?_, ?_, ?_, ?_, ?_, ?_⟩
  all_goals first
    | (rintro rfl; revert h; decide)
    | (intro hm
       simp only [String.reduceToList, List.mem_cons, List.not_mem_nil, or_false] at hm
       rcases hm with rfl | rfl | rfl | rfl | rfl | rfl <;> · revert h; decide)

theorem read_name_chars (p : PState) (v : Str) (hv : v.all nameChar = true) : ∀ (a : Str),
    run ⟨.word, a, p⟩ v = some ⟨.word, a ++ v, p⟩ := by
  induction v with
  | nil => intro a; simp [run]
  | cons c v ih =>
    intro a
    simp only [List.all_cons, Bool.and_eq_true] at hv
    obtain ⟨h1, h2, h3, h4, h5, h6, h7, h8, h9, h10, _⟩ := name_char hv.1
    have : step ⟨.word, a, p⟩ c = some ⟨.word, a ++ [c], p⟩ := by
      simp only [step, wordStep, h1, h2, h3, h4, h5, h6, h7, h8, h10, or_self, if_false]
    rw [run_cons, this]
    show run _ v = _
    rw [ih hv.2]; simp

theorem isName_all {v : Str} (h : isName v = true) : v.all nameChar = true := by
  cases v with
  | nil => simp [isName] at h
  | cons c v => simp only [isName, Bool.and_eq_true] at h; exact h.2

theorem isName_ne {v : Str} (h : isName v = true) : v ≠ [] := by rintro rfl; simp [isName] at h

/-- The innermost construct is not a `case`. -/
def NotCase : List Frame → Prop
  | [] => False
  | f :: _ => ∀ w, f.kind ≠ .case_ w

theorem atPattern_not {stack : List Frame} (h : NotCase stack) : atPattern ⟨.start, stack⟩ = false := by
  cases stack with
  | nil => cases h
  | cons f r =>
    obtain ⟨k, c⟩ := f
    unfold atPattern
    cases k <;> first | rfl | exact absurd rfl (h _)

/-- A name where a command begins. -/
theorem read_name {stack : List Frame} (hs : NotCase stack) {v : Str} (hv : isName v = true) (t : Str) :
    run (at_ ⟨.start, stack⟩) (v ++ t) = run ⟨.word, v, ⟨.start, stack⟩⟩ t := by
  cases v with
  | nil => simp [isName] at hv
  | cons c v =>
    have ha := isName_all hv
    simp only [List.all_cons, Bool.and_eq_true] at ha
    obtain ⟨h1, h2, h3, h4, h5, h6, h7, h8, h9, h10, _⟩ := name_char ha.1
    have : step (at_ ⟨.start, stack⟩) c = some ⟨.word, [c], ⟨.start, stack⟩⟩ := by
      simp only [step, gapStep, atPattern_not hs, Bool.false_eq_true, if_false, gapCommand, h1, h2, h3, h4, h5, h6, h7, h8, h9, h10, or_self]
    rw [List.cons_append, run_cons, this]
    show run _ (v ++ t) = _
    rw [run_then (read_name_chars _ v ha.2 [c])]
    rfl

theorem span_name {v : Str} (hv : isName v = true) (c : Char) (hc : nameChar c = false) (t : Str) :
    spanName (v ++ c :: t) = some (v, c :: t) := by
  have ha := isName_all hv
  have h1 : (v ++ c :: t).takeWhile nameChar = v := by
    rw [List.takeWhile_append_of_pos (fun x hx => List.all_eq_true.mp ha x hx)]
    simp [List.takeWhile_cons, hc]
  have h2 : (v ++ c :: t).dropWhile nameChar = c :: t := by
    rw [List.dropWhile_append_of_pos (fun x hx => List.all_eq_true.mp ha x hx)]
    simp [List.dropWhile_cons, hc]
  unfold spanName
  rw [h1, h2, if_pos hv]

theorem startWord_add {v : Str} (stack : List Frame) : startWord (v ++ "+=".toList) stack = some ⟨.words [v ++ "+=".toList], stack⟩ := by
  have key : ∀ k : Str, k.getLast? ≠ some '=' → v ++ "+=".toList ≠ k := by
    rintro k hk rfl
    apply hk
    simp
  unfold startWord
  rw [if_neg (key _ (by decide)), if_neg (key _ (by decide)), if_neg (key _ (by decide)), if_neg (key _ (by decide)), if_neg (key _ (by decide)),
    if_neg (key _ (by decide)), if_neg (key _ (by decide)), if_neg (key _ (by decide)), if_neg (key _ (by decide)), if_neg (key _ (by decide))]
  rw [if_neg]
  intro hm
  simp only [List.mem_cons, List.not_mem_nil, or_false] at hm
  rcases hm with h | h | h | h | h | h | h | h | h | h <;> exact key _ (by decide) h

/-- `v+=(e)`: an element that is read as one word. -/
theorem read_add {stack : List Frame} (hs : NotCase stack) {v : Str} (hv : isName v = true) {e : Str} {w : Word}
    (he : ∀ t st, run (at_ ⟨.array t [], st⟩) e = some ⟨.word, e, ⟨.array t [], st⟩⟩) (hw : readWord e = some w) (u : Str) :
    run (at_ ⟨.start, stack⟩) (v ++ ("+=(".toList ++ (e ++ ')' :: u))) =
      (push (one (.addArray v [w])) stack).bind (fun s => run (at_ ⟨.closed, s⟩) u) := by
  rw [read_name hs hv]
  have h1 : run ⟨.word, v, ⟨.start, stack⟩⟩ "+=".toList = some ⟨.word, v ++ "+=".toList, ⟨.start, stack⟩⟩ := by
    show run ⟨.word, v, ⟨.start, stack⟩⟩ ['+', '='] = _
    rw [run_cons]
    have : step ⟨.word, v, ⟨.start, stack⟩⟩ '+' = some ⟨.word, v ++ ['+'], ⟨.start, stack⟩⟩ := by
      simp only [step, wordStep]; rfl
    rw [this]
    show run _ ['='] = _
    rw [run_cons]
    have : step ⟨.word, v ++ ['+'], ⟨.start, stack⟩⟩ '=' = some ⟨.word, v ++ ['+'] ++ ['='], ⟨.start, stack⟩⟩ := by
      simp only [step, wordStep]; rfl
    rw [this]
    simp [run]
  have e1 : "+=(".toList ++ (e ++ ')' :: u) = "+=".toList ++ '(' :: (e ++ ')' :: u) := rfl
  rw [e1, run_then h1, run_cons]
  have h2 : step ⟨.word, v ++ "+=".toList, ⟨.start, stack⟩⟩ '(' = some (at_ ⟨.array (v ++ "+=".toList) [], stack⟩) := by
    have hw : wordStep ⟨.start, stack⟩ (v ++ "+=".toList) '(' =
        (pstep ⟨.start, stack⟩ (.word (v ++ "+=".toList))).bind (fun p => emit p .attached .gap) := rfl
    show wordStep _ _ _ = _
    rw [hw]
    have : pstep ⟨.start, stack⟩ (.word (v ++ "+=".toList)) = startWord (v ++ "+=".toList) stack := rfl
    rw [this, startWord_add]
    show emit _ _ _ = _
    have : opensArray (v ++ "+=".toList) = true := by simp [opensArray]
    simp only [emit, pstep, this, if_true, Option.map_some]
  rw [h2]
  show run _ (e ++ ')' :: u) = _
  rw [run_then (he _ _), run_cons]
  have h3 : step ⟨.word, e, ⟨.array (v ++ "+=".toList) [], stack⟩⟩ ')' =
      (push (one (.addArray v [w])) stack).map (fun s => at_ ⟨.closed, s⟩) := by
    have h : step ⟨.word, e, ⟨.array (v ++ "+=".toList) [], stack⟩⟩ ')' =
        ((readArray (v ++ "+=".toList) [e]).bind (fun c => (push c stack).map (fun s => (⟨.closed, s⟩ : PState)))).map at_ := rfl
    rw [h]
    have : readArray (v ++ "+=".toList) [e] = some (one (.addArray v [w])) := by
      unfold readArray
      have e2 : v ++ "+=".toList = v ++ '+' :: ['='] := rfl
      rw [e2, span_name hv '+' (by decide) ['=']]
      rw [Option.bind_some]
      simp only
      rw [if_neg (by decide), if_pos (by decide)]
      simp [readWords, allSome, hw]
    rw [this]
    simp [Option.map_map, Function.comp_def]
  rw [h3]
  cases push (one (.addArray v [w])) stack <;> rfl

/-- Behind a complete command: the end of the line, `;` and the end of the line, `;;` and the end of the line. -/
theorem read_end (stack : List Frame) (u : Str) : run (at_ ⟨.closed, stack⟩) ('\n' :: u) = run (at_ ⟨.start, stack⟩) u := rfl

theorem read_semi_end (stack : List Frame) (u : Str) : run (at_ ⟨.closed, stack⟩) (';' :: '\n' :: u) = run (at_ ⟨.start, stack⟩) u := by
  rw [run_cons]
  show run ⟨.semi, [], _⟩ ('\n' :: u) = _
  rw [run_cons]
  have : step ⟨.semi, [], ⟨.closed, stack⟩⟩ '\n' = some (at_ ⟨.start, stack⟩) := by
    have h : step ⟨.semi, [], ⟨.closed, stack⟩⟩ '\n' = gapStep ⟨.start, stack⟩ '\n' := rfl
    have h2 := run_newline (stack := stack)
    rw [run_cons] at h2
    rw [h]
    have h3 : step (at_ ⟨.start, stack⟩) '\n' = gapStep ⟨.start, stack⟩ '\n' := rfl
    rw [← h3]
    cases hx : step (at_ ⟨.start, stack⟩) '\n' with
    | none => rw [hx] at h2; simp at h2
    | some s => rw [hx] at h2; exact h2
  rw [this]; rfl

theorem read_dsemi_end {p : Str} {b : Code} {w : Word} {cl : Code} {r : List Frame} (u : Str) :
    run (at_ ⟨.closed, ⟨.clause p, b⟩ :: ⟨.case_ w, cl⟩ :: r⟩) (';' :: ';' :: '\n' :: u) =
      run (at_ ⟨.start, ⟨.case_ w, cl ++ .clause p b .done⟩ :: r⟩) u := rfl

end BashText
