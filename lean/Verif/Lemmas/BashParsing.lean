import Verif.Model.BashParsing
import Verif.Lemmas.BashLocal
import Verif.Lemmas.BashRunV2
import Verif.Props.StrUtils
import Verif.Props.Algo
/-!
# Lemmas: the declarations of the variables of options, and the call of the parser
-/

namespace BashText
open CC

variable {fuel : Nat} {fs : Funs}

/-! ## Reading -/

/-- The declarations as a program. -/
def namesCode (names : List Str) : Code := (names.map Act.local_).foldr Code.act .done

theorem namesCode_append (a b : List Str) : namesCode (a ++ b) = namesCode a ++ namesCode b := by
  induction a with
  | nil => rfl
  | cons x a ih =>
    show Code.act (.local_ x) (namesCode (a ++ b)) = Code.act (.local_ x) (namesCode a ++ namesCode b)
    rw [ih]

/-- A name behind other words. -/
theorem read_next_name (ws : List Str) (st : List Frame) {v : Str} (hv : isName v = true) (t : Str) :
    run (at_ ⟨.words ws, st⟩) (v ++ t) = run ⟨.word, v, ⟨.words ws, st⟩⟩ t := by
  cases v with
  | nil => simp [isName] at hv
  | cons c v =>
    have ha := isName_all hv
    simp only [List.all_cons, Bool.and_eq_true] at ha
    obtain ⟨h1, h2, h3, h4, h5, h6, h7, h8, h9, h10, _⟩ := name_char ha.1
    have : step (at_ ⟨.words ws, st⟩) c = some ⟨.word, [c], ⟨.words ws, st⟩⟩ := by
      show gapStep ⟨.words ws, st⟩ c = _
      have hp : atPattern ⟨.words ws, st⟩ = false := by unfold atPattern; cases st <;> rfl
      simp only [gapStep, hp, Bool.false_eq_true, if_false, gapCommand, h1, h2, h3, h4, h5, h6, h7, h8, h9, h10, or_self]
    rw [List.cons_append, run_cons, this]
    show run _ (v ++ t) = _
    rw [run_then (read_name_chars _ v ha.2 [c])]
    rfl

theorem names_pattern (ws : List Str) (st : List Frame) : atPattern ⟨.words ws, st⟩ = false := by unfold atPattern; cases st <;> rfl

theorem name_blank (ws : List Str) (st : List Frame) (v : Str) : step ⟨.word, v, ⟨.words ws, st⟩⟩ ' ' = some (at_ ⟨.words (ws ++ [v]), st⟩) := by
  show gapStep ⟨.words (ws ++ [v]), st⟩ ' ' = _
  unfold gapStep
  rw [names_pattern]; rfl

theorem name_end (ws : List Str) (st : List Frame) (v : Str) : step ⟨.word, v, ⟨.words ws, st⟩⟩ '\n' =
    ((readSimple (ws ++ [v])).bind (fun c => (push c st).map (fun s => (⟨.start, s⟩ : PState)))).map at_ := by
  show gapStep ⟨.words (ws ++ [v]), st⟩ '\n' = _
  unfold gapStep
  rw [names_pattern]; rfl

/-- Names behind other words, to the end of the line. -/
theorem read_names (st : List Frame) (u : Str) : ∀ (ns : List Str) (ws : List Str) (n : Str), isName n = true → (∀ x ∈ ns, isName x = true) →
    run (at_ ⟨.words ws, st⟩) (joinWith [' '] (n :: ns) ++ '\n' :: u) =
      ((readSimple (ws ++ n :: ns)).bind (fun c => (push c st).map (fun s => (⟨.start, s⟩ : PState)))).bind (fun p => run (at_ p) u)
  | [], ws, n, hn, _ => by
    show run _ (n ++ '\n' :: u) = _
    rw [read_next_name ws st hn, run_cons, name_end]
    cases readSimple (ws ++ [n]) with
    | none => rfl
    | some c => cases h : push c st <;> simp [h]
  | m :: ns, ws, n, hn, hns => by
    show run _ (n ++ [' '] ++ joinWith [' '] (m :: ns) ++ '\n' :: u) = _
    rw [List.append_assoc, List.append_assoc, read_next_name ws st hn]
    show run _ (' ' :: (joinWith [' '] (m :: ns) ++ '\n' :: u)) = _
    rw [run_cons, name_blank]
    show run _ (joinWith [' '] (m :: ns) ++ '\n' :: u) = _
    rw [read_names st u ns (ws ++ [n]) m (hns m (by simp)) (fun x hx => hns x (by simp [hx]))]
    simp

theorem readSimple_locals {names : List Str} (hn : ∀ x ∈ names, isName x = true) :
    readSimple ("local".toList :: "-a".toList :: names) = some (namesCode names) := by
  have h2 : names.all isName = true := List.all_eq_true.mpr hn
  have h1 : readLocals ("-a".toList :: names) = some (namesCode names) := by
    unfold readLocals
    rw [if_pos (show List.head? ("-a".toList :: names) = some "-a".toList from rfl), List.tail_cons, if_pos h2]; rfl
  unfold readSimple
  simp only
  rw [if_pos trivial]
  match names, h1 with
  | [], h1 => exact h1
  | [t], h1 => simp only; rw [if_neg (show ¬ "-a".toList = "-n".toList by decide)]; exact h1
  | _ :: _ :: _, h1 => exact h1

/-- A line that declares arrays. -/
theorem locals_line {k : Kind} {c : Code} {r : List Frame} (hk : ∀ w, k ≠ .case_ w) {names : List Str} (hne : names ≠ []) (hn : ∀ x ∈ names, isName x = true) (u : Str) :
    run (at_ ⟨.start, ⟨k, c⟩ :: r⟩) (S "local -a " ++ joinWith [' '] names ++ '\n' :: u) =
      run (at_ ⟨.start, ⟨k, c ++ namesCode names⟩ :: r⟩) u := by
  obtain ⟨n, ns, rfl⟩ := List.exists_cons_of_ne_nil hne
  have h0 : run (at_ ⟨.start, ⟨k, c⟩ :: r⟩) (S "local -a ") = some (at_ ⟨.words ["local".toList, "-a".toList], ⟨k, c⟩ :: r⟩) := by
    cases k with
    | case_ w => exact absurd rfl (hk w)
    | _ => kernel_rfl
  rw [List.append_assoc, run_then h0, read_names _ _ ns _ n (hn n (by simp)) (fun x hx => hn x (by simp [hx]))]
  show ((readSimple ("local".toList :: "-a".toList :: n :: ns)).bind _).bind _ = _
  rw [readSimple_locals hn]
  rfl

/-- The lines that declare arrays. -/
theorem locals_lines {k : Kind} {r : List Frame} (hk : ∀ w, k ≠ .case_ w) (u : Str) : ∀ (lines : List (List Str)) (c : Code), lines ≠ [] → (∀ l ∈ lines, l ≠ []) →
    (∀ l ∈ lines, ∀ x ∈ l, isName x = true) →
    run (at_ ⟨.start, ⟨k, c⟩ :: r⟩) (joinWith ['\n'] (lines.map (fun l => S "local -a " ++ joinWith [' '] l)) ++ '\n' :: u) =
      run (at_ ⟨.start, ⟨k, c ++ namesCode lines.flatten⟩ :: r⟩) u
  | [], _, h, _, _ => absurd rfl h
  | [l], c, _, h1, h2 => by
    have := locals_line hk (c := c) (r := r) (h1 l (by simp)) (h2 l (by simp)) u
    simpa [joinWith] using this
  | l :: m :: ls, c, _, h1, h2 => by
    have e1 := locals_line hk (c := c) (r := r) (h1 l (by simp)) (h2 l (by simp)) (joinWith ['\n'] ((m :: ls).map (fun l => S "local -a " ++ joinWith [' '] l)) ++ '\n' :: u)
    have e2 := locals_lines hk (r := r) u (m :: ls) (c ++ namesCode l) (by simp) (fun x hx => h1 x (by simp [hx])) (fun x hx => h2 x (by simp [hx]))
    rw [e2] at e1
    rw [List.flatten_cons, namesCode_append, ← append_assoc']
    rw [← e1]
    congr 1
    simp [joinWith]

/-- The name of a function that is called: a name that begins with `_`. -/
theorem startWord_call {f : Str} (hf : f.head? = some '_') (st : List Frame) : startWord f st = some ⟨.words [f], st⟩ := by
  have key : ∀ k : Str, k.head? ≠ some '_' → f ≠ k := by
    rintro k hk rfl
    exact hk hf
  unfold startWord
  rw [if_neg (key _ (by decide)), if_neg (key _ (by decide)), if_neg (key _ (by decide)), if_neg (key _ (by decide)), if_neg (key _ (by decide)),
    if_neg (key _ (by decide)), if_neg (key _ (by decide)), if_neg (key _ (by decide)), if_neg (key _ (by decide)), if_neg (key _ (by decide))]
  rw [if_neg]
  intro hm
  simp only [List.mem_cons, List.not_mem_nil, or_false] at hm
  rcases hm with h | h | h | h | h | h | h | h | h | h <;> exact key _ (by decide) h

/-- The call of a function without arguments. -/
def callCode (f : Str) : Code := one (.call [lits f])

theorem span_all {v : Str} (hv : isName v = true) : spanName v = some (v, []) := by
  have ha := isName_all hv
  have h1 : v.takeWhile nameChar = v := by
    rw [show v = v ++ [] by simp, List.takeWhile_append_of_pos (fun x hx => List.all_eq_true.mp ha x hx)]; simp
  have h2 : v.dropWhile nameChar = [] := by
    rw [show v = v ++ [] by simp, List.dropWhile_append_of_pos (fun x hx => List.all_eq_true.mp ha x hx)]; simp
  unfold spanName
  rw [h1, h2, if_pos hv]

theorem readSimple_call {f : Str} (hn : isName f = true) (hf : f.head? = some '_') : readSimple [f] = some (callCode f) := by
  have key : ∀ k : Str, k.head? ≠ some '_' → f ≠ k := by
    rintro k hk rfl
    exact hk hf
  unfold readSimple
  simp only
  rw [if_neg (key _ (by decide)), if_neg (key _ (by decide)), if_neg (key _ (by decide)), if_neg (key _ (by decide)), if_neg (key _ (by decide))]
  have h3 : readAssign f = none := by
    unfold readAssign
    rw [span_all hn]; rfl
  rw [h3]
  show (readWords [f]).map _ = _
  unfold readWords
  show (allSome [readWord f]).map _ = _
  rw [readWord_name hn]; rfl

theorem call_line {k : Kind} {c : Code} {r : List Frame} (hk : ∀ w, k ≠ .case_ w) {f : Str} (hn : isName f = true) (hf : f.head? = some '_') (u : Str) :
    run (at_ ⟨.start, ⟨k, c⟩ :: r⟩) (f ++ '\n' :: u) = run (at_ ⟨.start, ⟨k, c ++ callCode f⟩ :: r⟩) u := by
  rw [read_name (show NotCase (⟨k, c⟩ :: r) from hk) hn, run_cons]
  have : step ⟨.word, f, ⟨.start, ⟨k, c⟩ :: r⟩⟩ '\n' = some (at_ ⟨.start, ⟨k, c ++ callCode f⟩ :: r⟩) := by
    show (startWord f (⟨k, c⟩ :: r)).bind (fun p => gapStep p '\n') = _
    rw [startWord_call hf]
    show gapStep ⟨.words [f], ⟨k, c⟩ :: r⟩ '\n' = _
    unfold gapStep
    rw [names_pattern]
    show Option.map _ ((readSimple [f]).bind _) = _
    rw [readSimple_call hn hf]; rfl
  rw [this]; rfl

/-- The variables that the completion function declares before it calls the parser. -/
def declared (root : Cmd) : List Str := S "END_OF_OPTIONS" :: S "POSITIONALS" :: uniq (captureNames root)

/-- The text is the declarations and the call. -/
theorem read_parsing (width : Int) {root : Cmd} {f : Str} (hb : ∀ v ∈ captureNames root, isName v = true) (hn : isName f = true)
    (hf : f.head? = some '_') : read (parsingText width root f) = some (namesCode (declared root) ++ callCode f) := by
  have hk : ∀ w, Kind.top ≠ .case_ w := fun w h => by cases h
  have h0 : run {} (S "local END_OF_OPTIONS POSITIONALS\n") = some (at_ ⟨.start, [⟨.top, namesCode [S "END_OF_OPTIONS", S "POSITIONALS"]⟩]⟩) := by kernel_rfl
  unfold read parsingText
  rw [List.append_assoc, List.append_assoc, List.append_assoc, run_then h0]
  have hlast : ∀ c : Code, run (at_ ⟨.start, [⟨.top, c⟩]⟩) (f ++ ['\n']) = some (at_ ⟨.start, [⟨.top, c ++ callCode f⟩]⟩) := by
    intro c
    rw [call_line hk hn hf]; rfl
  by_cases hc : captureNames root = []
  · rw [if_pos hc]
    show Option.bind (run _ ('\n' :: (f ++ ['\n']))) _ = _
    have : declared root = [S "END_OF_OPTIONS", S "POSITIONALS"] := by unfold declared; rw [hc]; rfl
    rw [this, show ∀ t, '\n' :: t = ['\n'] ++ t from fun _ => rfl, run_then run_newline, hlast]
    rfl
  · rw [if_neg hc]
    unfold joinWithWrap
    generalize hl : wrapGo [' '].length (S "local -a ").length (width - 2) [] (S "local -a ").length (uniq (captureNames root)) = lines
    have hg := (wrapGo_greedy 1 9 (width - 2) (uniq (captureNames root)) [] (by simp)).1
    have hl' : wrapGo 1 9 (width - 2) [] (lineLength 1 9 []) (uniq (captureNames root)) = lines := hl
    rw [hl'] at hg
    have hflat : lines.flatten = uniq (captureNames root) := hg.complete
    have hne : lines ≠ [] := by
      rintro rfl
      obtain ⟨x, hx⟩ := List.exists_mem_of_ne_nil _ hc
      have := (C40_uniq_mem (captureNames root) x).mpr hx
      rw [← hflat] at this; simp at this
    have e1 := locals_lines hk (r := []) (f ++ ['\n']) lines (namesCode [S "END_OF_OPTIONS", S "POSITIONALS"]) hne hg.nonempty (by
      intro l hl x hx
      refine hb x ((C40_uniq_mem (captureNames root) x).mp ?_)
      rw [← hflat]
      exact List.mem_flatten.mpr ⟨l, hl, hx⟩)
    show Option.bind (run _ (joinWith ['\n'] (lines.map (fun l => S "local -a " ++ joinWith [' '] l)) ++ '\n' :: (f ++ ['\n']))) _ = _
    rw [e1, hflat, ← namesCode_append, hlast]
    rfl

/-! ## Running -/

/-- Many local variables. -/
def declareAll (e : Env) (names : List Str) : Env := names.foldl (fun e x => declare e x .unset) e

theorem exec_locals (k : Code) : ∀ (names : List Str) (e : Env), exec fuel fs (namesCode names ++ k) e = exec fuel fs k (declareAll e names)
  | [], _ => rfl
  | x :: names, e => by
    show exec fuel fs (.act (.local_ x) (namesCode names ++ k)) e = _
    rw [exec_act]
    show exec fuel fs (namesCode names ++ k) (declare e x .unset) = _
    rw [exec_locals k names]; rfl

theorem declareAll_vars (v : Str) : ∀ (names : List Str) (e : Env), (declareAll e names).vars v = if v ∈ names then .unset else e.vars v
  | [], e => by simp [declareAll]
  | x :: names, e => by
    show (declareAll (declare e x .unset) names).vars v = _
    rw [declareAll_vars v names]
    by_cases h1 : v ∈ names
    · simp [h1]
    · by_cases h2 : v = x
      · subst h2; simp [h1, declare, Env.put]
      · simp [h1, h2, declare, Env.put]

theorem declareAll_args : ∀ (names : List Str) (e : Env), (declareAll e names).args = e.args
  | [], _ => rfl
  | x :: names, e => (declareAll_args names (declare e x .unset)).trans rfl

theorem declareAll_saved : ∀ (names : List Str) (e : Env), names.Nodup →
    (declareAll e names).saved = names.reverse.map (fun x => (x, e.vars x)) ++ e.saved
  | [], e, _ => rfl
  | x :: names, e, h => by
    rw [List.nodup_cons] at h
    show (declareAll (declare e x .unset) names).saved = _
    rw [declareAll_saved names _ h.2]
    have : names.reverse.map (fun y => (y, (declare e x .unset).vars y)) = names.reverse.map (fun y => (y, e.vars y)) := by
      apply List.map_congr_left
      intro y hy
      have hne : y ≠ x := by rintro rfl; exact h.1 (List.mem_reverse.mp hy)
      simp [declare, Env.put, hne]
    rw [this]
    simp [declare]

theorem exec_call {f : Str} {g : List Str → Env → Option Env} {k : Code} (e : Env) :
    exec fuel ((f, g) :: fs) (callCode f ++ k) e = (g [] e).bind (fun e => exec fuel ((f, g) :: fs) k e) := by
  show exec fuel ((f, g) :: fs) (.act (.call [lits f]) k) e = _
  rw [exec_act]
  have h1 : expandAll e [lits f] = some ([f], e) := by
    have : expandAll e [lits f] = (expand e (lits f)).bind (fun a => some ([a.1], a.2)) := by
      cases f with
      | nil => rfl
      | cons c f => cases f <;> rfl
    rw [this, expand_lits]; rfl
  have h2 : Act.run ((f, g) :: fs) e (.call [lits f]) = (g [] e).map (fun e => (e, Flow.next)) := by
    show (expandAll e [lits f]).bind _ = _
    rw [h1]
    show Option.map _ ((List.find? _ ((f, g) :: fs)).bind _) = _
    rw [List.find?_cons_of_pos (by simp)]
    rfl
  rw [h2]
  cases g [] e <;> rfl

end BashText
