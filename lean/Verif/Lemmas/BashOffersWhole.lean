import Verif.Lemmas.BashOffersEntry
/-!
# Lemmas: the whole code that offers option strings
-/

namespace CC
namespace OffersLex
open BashText (isName between)
open BashOffers

/-! ## Lines -/

/-- The lines are these statements. -/
def LinesAre (ls : List Str) (ss : List Stmt) : Prop :=
  BashText.allSome ((ls.filter (fun l => !(trimmed l).isEmpty)).map readLine) = some ss

theorem allSome_append {α : Type} : ∀ {a b : List (Option α)} {x y : List α}, BashText.allSome a = some x → BashText.allSome b = some y →
    BashText.allSome (a ++ b) = some (x ++ y)
  | [], _, x, y, h, h2 => by
    simp only [BashText.allSome, Option.some.injEq] at h
    subst h
    simpa using h2
  | u :: a, b, x, y, h, h2 => by
    cases u with
    | none => simp [BashText.allSome] at h
    | some u =>
      cases ha : BashText.allSome a with
      | none => simp [BashText.allSome, ha] at h
      | some z =>
        simp only [BashText.allSome, ha] at h
        simp only [Option.bind_some, Option.map_some, Option.some.injEq] at h
        subst h
        simp [BashText.allSome, allSome_append ha h2]

theorem lines_append {a b : List Str} {x y : List Stmt} (h1 : LinesAre a x) (h2 : LinesAre b y) : LinesAre (a ++ b) (x ++ y) := by
  unfold LinesAre at *
  rw [List.filter_append, List.map_append]
  exact allSome_append h1 h2

theorem lines_one {l : Str} {s : Stmt} (h : trimmed l ≠ []) (hr : readLine l = some s) : LinesAre [l] [s] := by
  unfold LinesAre
  rw [List.filter_cons, if_pos (by simpa using h)]
  simp [BashText.allSome, hr]

theorem lines_blank : LinesAre [[]] [] := rfl

theorem trimmed_pad (n : Nat) (l : Str) : trimmed (List.replicate n ' ' ++ l) = trimmed l := by
  induction n with
  | zero => rfl
  | succ n ih => rw [List.replicate_succ, List.cons_append]; unfold trimmed at *; rw [List.dropWhile_cons, if_pos (by decide)]; exact ih

/-- Statements that are lists of commands. -/
def AllLists (ss : List Stmt) : Prop := ∀ s ∈ ss, ∃ ts, s = .list ts

theorem lines_add {env : Env} (ind : Str → Str) (hind : ∀ l, ∃ n, ind l = List.replicate n ' ' ++ l) :
    ∀ ps : List (Str × List Str), (∀ p ∈ ps, LineAdds env p.1 p.2) → ∃ ss, LinesAre (ps.map (fun p => ind p.1)) ss ∧ AllLists ss ∧ ss.length = ps.length ∧
      ∀ s r, run env 0 s (ss ++ r) = run env 0 { s with opts := s.opts ++ ps.flatMap (·.2) } r
  | [], _ => ⟨[], rfl, (by intro s hs; cases hs), rfl, (by intro s r; simp)⟩
  | p :: ps, h => by
    obtain ⟨ss, h1, h2, h3, h4⟩ := lines_add ind hind ps (fun q hq => h q (by simp [hq]))
    obtain ⟨n, hn⟩ := hind p.1
    obtain ⟨t1, ts, e, r1, r2, r3⟩ := h p (by simp) n
    rw [← hn] at t1 r1
    refine ⟨.list ts :: ss, lines_append (lines_one t1 r1) h1, ?_, by simp [h3], ?_⟩
    · intro s hs
      rcases List.mem_cons.mp hs with rfl | hs
      · exact ⟨ts, rfl⟩
      · exact h2 s hs
    · intro s r
      obtain ⟨b, hb⟩ := r3 s
      rw [List.cons_append, run, r2, Option.bind_some, hb, Option.bind_some, h4]
      simp

theorem run_skip (env : Env) (k : Nat) (s : State) (r : List Stmt) : ∀ {ss : List Stmt}, AllLists ss → run env (k + 1) s (ss ++ r) = run env (k + 1) s r
  | [], _ => rfl
  | x :: ss, h => by
    obtain ⟨ts, rfl⟩ := h x (by simp)
    rw [List.cons_append, run]
    · exact run_skip env k s r (fun y hy => h y (by simp [hy]))
    all_goals intros; contradiction

theorem nested_lists (n : Nat) (r : List Stmt) : ∀ {b : Bool} {ss : List Stmt}, AllLists ss → nested n b (ss ++ r) = nested n (b && ss.isEmpty) r
  | b, [], _ => by simp
  | b, x :: ss, h => by
    obtain ⟨ts, rfl⟩ := h x (by simp)
    have : nested n b (.list ts :: (ss ++ r)) = nested n false (ss ++ r) := by cases n <;> rfl
    rw [List.cons_append, this, nested_lists n r (fun y hy => h y (by simp [hy]))]
    simp

theorem lineA : readLine (S "if (( ! END_OF_OPTIONS )) && [[ \"$cur\" = -* ]]; then") = some .ifOptions ∧
    trimmed (S "if (( ! END_OF_OPTIONS )) && [[ \"$cur\" = -* ]]; then") ≠ [] := ⟨by decide +kernel, by decide +kernel⟩

theorem lineB : readLine (S "  local -a opts") = some .localOpts ∧ trimmed (S "  local -a opts") ≠ [] := ⟨by decide +kernel, by decide +kernel⟩

theorem lineC : readLine (S "  COMPREPLY+=($(compgen -W \"${opts[*]}\" -- \"$cur\"))") = some .reply ∧
    trimmed (S "  COMPREPLY+=($(compgen -W \"${opts[*]}\" -- \"$cur\"))") ≠ [] := ⟨by decide +kernel, by decide +kernel⟩

theorem lineD : readLine (S "  [[ ${COMPREPLY-} == *= ]] && compopt -o nospace") = some .nospace ∧
    trimmed (S "  [[ ${COMPREPLY-} == *= ]] && compopt -o nospace") ≠ [] := ⟨by decide +kernel, by decide +kernel⟩

theorem lineE : readLine (S "  return 1") = some .ret ∧ trimmed (S "  return 1") ≠ [] := ⟨by decide +kernel, by decide +kernel⟩

theorem lineF : readLine (S "fi") = some .fi ∧ trimmed (S "fi") ≠ [] := ⟨by decide +kernel, by decide +kernel⟩

theorem lineFi (n : Nat) : readLine (List.replicate n ' ' ++ S "fi") = some .fi ∧ trimmed (List.replicate n ' ' ++ S "fi") ≠ [] := by
  have : trimmed (S "fi") = S "fi" := by decide +kernel
  constructor
  · unfold readLine
    simp only
    rw [trimmed_pad, this]
    rfl
  · rw [trimmed_pad, this]; decide +kernel

/-- The test of the final options. -/
theorem lineIf (n : Nat) (v : Str) (vs : List Str) :
    readLine (List.replicate n ' ' ++ (S "if (( " ++ joinWith (S " && ") ((v :: vs).map noneText) ++ S " )); then")) = some (.ifArith (emptyText (v :: vs))) ∧
    trimmed (List.replicate n ' ' ++ (S "if (( " ++ joinWith (S " && ") ((v :: vs).map noneText) ++ S " )); then")) ≠ [] := by
  have e0 : S "if (( " ++ joinWith (S " && ") ((v :: vs).map noneText) ++ S " )); then" = S "if ((" ++ (emptyText (v :: vs) ++ S ")); then") := by
    simp [S, emptyText]
  have ht : trimmed (S "if (( " ++ joinWith (S " && ") ((v :: vs).map noneText) ++ S " )); then") =
      S "if (( " ++ joinWith (S " && ") ((v :: vs).map noneText) ++ S " )); then" := rfl
  obtain ⟨y, hy⟩ : ∃ y, S "if (( " ++ joinWith (S " && ") ((v :: vs).map noneText) ++ S " )); then" = S "if (( ! $" ++ y := by
    cases vs with
    | nil => exact ⟨S "{#" ++ v ++ S "[@]} )); then", by simp [joinWith, noneText, S]⟩
    | cons w ws => exact ⟨S "{#" ++ v ++ S "[@]}" ++ (S " && " ++ joinWith (S " && ") ((w :: ws).map noneText)) ++ S " )); then", by
        simp only [List.map_cons, joinWith]
        simp [noneText, S]⟩
  constructor
  · unfold readLine
    simp only
    rw [trimmed_pad, ht]
    have hne : ∀ t : Str, t.take 9 ≠ S "if (( ! $" → ¬ (S "if (( " ++ joinWith (S " && ") ((v :: vs).map noneText) ++ S " )); then" = t) := by
      rintro t hq rfl
      rw [hy] at hq
      exact hq rfl
    rw [if_neg (hne "if (( ! END_OF_OPTIONS )) && [[ \"$cur\" = -* ]]; then".toList (by decide +kernel)), if_neg (hne "local -a opts".toList (by decide +kernel)),
      if_neg (hne "COMPREPLY+=($(compgen -W \"${opts[*]}\" -- \"$cur\"))".toList (by decide +kernel)),
      if_neg (hne "[[ ${COMPREPLY-} == *= ]] && compopt -o nospace".toList (by decide +kernel)), if_neg (hne "return 1".toList (by decide +kernel)),
      if_neg (hne "fi".toList (by decide +kernel)), e0]
    have hb : between "if ((".toList ")); then".toList (S "if ((" ++ (emptyText (v :: vs) ++ S ")); then")) = some (emptyText (v :: vs)) :=
      BashCalls.between_both (S "if ((") (S ")); then") (emptyText (v :: vs))
    rw [hb]
  · rw [trimmed_pad, ht]; simp [S]

theorem join_append (K : List Str) (hK : K ≠ []) : ∀ (L : List Str), L ≠ [] → joinWith ['\n'] (L ++ K) = joinWith ['\n'] L ++ ['\n'] ++ joinWith ['\n'] K
  | [], h => absurd rfl h
  | [a], _ => by rw [List.cons_append, List.nil_append, ZshLex.join_cons a K hK]; rfl
  | a :: b :: r, _ => by
    have := join_append K hK (b :: r) (by simp)
    rw [List.cons_append, ZshLex.join_cons a _ (by simp), this, ZshLex.join_cons a _ (by simp)]
    simp

/-- The text around the lines. -/
def wholeText (finals lines : List Str) : Str :=
  S "if (( ! END_OF_OPTIONS )) && [[ \"$cur\" = -* ]]; then\n" ++ S "  local -a opts\n" ++
  indent (if finals.isEmpty then joinWith ['\n'] lines
    else S "if (( " ++ joinWith (S " && ") finals ++ S " )); then\n" ++ indent (joinWith ['\n'] lines) 2 ++ S "\nfi") 2 ++ S "\n" ++
  S "  COMPREPLY+=($(compgen -W \"${opts[*]}\" -- \"$cur\"))\n" ++ S "  [[ ${COMPREPLY-} == *= ]] && compopt -o nospace\n" ++ S "  return 1\n" ++ S "fi"

/-- The lines of a text of lines; no lines are one empty one. -/
def someLines (ls : List Str) : List Str := if ls.isEmpty then [[]] else ls

theorem someLines_ne (ls : List Str) : someLines ls ≠ [] := by
  unfold someLines; split <;> simp_all

theorem someLines_join (ls : List Str) : joinWith ['\n'] (someLines ls) = joinWith ['\n'] ls := by
  unfold someLines
  split
  · rename_i h; rw [List.isEmpty_iff.mp h]; rfl
  · rfl

theorem someLines_break {ls : List Str} (h : ∀ l ∈ ls, '\n' ∉ l) : ∀ l ∈ someLines ls, '\n' ∉ l := by
  unfold someLines
  split
  · simp
  · exact h

theorem pad_break {l : Str} (h : '\n' ∉ l) : '\n' ∉ ZshLex.pad l := by
  obtain ⟨n, hn⟩ := ZshLex.pad_spaces l
  rw [hn]
  simp [h, List.mem_replicate]

/-- The lines in the middle. -/
def middle (finals lines : List Str) : List Str :=
  if finals.isEmpty then someLines lines
  else [S "if (( " ++ joinWith (S " && ") finals ++ S " )); then"] ++ (someLines lines).map ZshLex.pad ++ [S "fi"]

theorem whole_lines (finals lines : List Str) (hf : ∀ f ∈ finals, '\n' ∉ f) (hl : ∀ l ∈ lines, '\n' ∉ l) :
    splitOn '\n' (wholeText finals lines) = [S "if (( ! END_OF_OPTIONS )) && [[ \"$cur\" = -* ]]; then", S "  local -a opts"] ++ (middle finals lines).map ZshLex.pad ++
      [S "  COMPREPLY+=($(compgen -W \"${opts[*]}\" -- \"$cur\"))", S "  [[ ${COMPREPLY-} == *= ]] && compopt -o nospace", S "  return 1", S "fi"] := by
  have hifl : '\n' ∉ (S "if (( " ++ joinWith (S " && ") finals ++ S " )); then") := by
    simp only [List.mem_append, not_or]
    exact ⟨⟨by decide +kernel, not_mem_join (by decide +kernel) hf⟩, by decide +kernel⟩
  have hm : ∀ l ∈ middle finals lines, '\n' ∉ l := by
    intro l h
    unfold middle at h
    split at h
    · exact someLines_break hl l h
    · simp only [List.mem_append, List.mem_singleton, List.mem_map] at h
      rcases h with (rfl | ⟨x, hx, rfl⟩) | rfl
      · exact hifl
      · exact pad_break (someLines_break hl x hx)
      · decide +kernel
  have hmne : middle finals lines ≠ [] := by
    unfold middle
    split
    · exact someLines_ne lines
    · simp
  have e : (if finals.isEmpty then joinWith ['\n'] lines
      else S "if (( " ++ joinWith (S " && ") finals ++ S " )); then\n" ++ indent (joinWith ['\n'] lines) 2 ++ S "\nfi") = joinWith ['\n'] (middle finals lines) := by
    unfold middle
    split
    · rw [someLines_join]
    · rw [← someLines_join, ZshLex.indent_lines _ (someLines_ne lines) (someLines_break hl), join_append [S "fi"] (by simp) _ (by simp),
        join_append _ (by simpa using someLines_ne lines) _ (by simp)]
      simp [joinWith, S]
  have e2 : wholeText finals lines = joinWith ['\n'] ([S "if (( ! END_OF_OPTIONS )) && [[ \"$cur\" = -* ]]; then", S "  local -a opts"] ++ (middle finals lines).map ZshLex.pad ++
      [S "  COMPREPLY+=($(compgen -W \"${opts[*]}\" -- \"$cur\"))", S "  [[ ${COMPREPLY-} == *= ]] && compopt -o nospace", S "  return 1", S "fi"]) := by
    unfold wholeText
    rw [e, ZshLex.indent_lines _ hmne hm, join_append _ (by simp) _ (by simp), join_append _ (by simpa using hmne) _ (by simp)]
    have a1 : S "if (( ! END_OF_OPTIONS )) && [[ \"$cur\" = -* ]]; then\n" = S "if (( ! END_OF_OPTIONS )) && [[ \"$cur\" = -* ]]; then" ++ ['\n'] := by decide +kernel
    have a2 : S "  local -a opts\n" = S "  local -a opts" ++ ['\n'] := by decide +kernel
    have a3 : S "  COMPREPLY+=($(compgen -W \"${opts[*]}\" -- \"$cur\"))\n" = S "  COMPREPLY+=($(compgen -W \"${opts[*]}\" -- \"$cur\"))" ++ ['\n'] := by decide +kernel
    have a4 : S "  [[ ${COMPREPLY-} == *= ]] && compopt -o nospace\n" = S "  [[ ${COMPREPLY-} == *= ]] && compopt -o nospace" ++ ['\n'] := by decide +kernel
    have a5 : S "  return 1\n" = S "  return 1" ++ ['\n'] := by decide +kernel
    have a6 : S "\n" = ['\n'] := rfl
    rw [a1, a2, a3, a4, a5, a6]
    simp only [joinWith, List.append_assoc]
  rw [e2]
  apply splitOn_join
  · simp
  · intro l h
    simp only [List.mem_append, List.mem_cons, List.not_mem_nil, or_false, List.mem_map] at h
    rcases h with ((rfl | rfl) | ⟨x, hx, rfl⟩) | rfl | rfl | rfl | rfl
    · decide +kernel
    · decide +kernel
    · exact pad_break (hm x hx)
    · decide +kernel
    · decide +kernel
    · decide +kernel
    · decide +kernel

/-- Statements around the middle. -/
theorem whole_read {env : Env} (finals : List Str) (ps : List (Str × List Str)) (hf : ∀ v ∈ finals, isName v = true) (hps : ∀ p ∈ ps, LineAdds env p.1 p.2)
    (hnl : ∀ p ∈ ps, '\n' ∉ p.1) : ∃ ss, AllLists ss ∧ ss.length = ps.length ∧
      (∀ s r, run env 0 s (ss ++ r) = run env 0 { s with opts := s.opts ++ ps.flatMap (·.2) } r) ∧
      read (wholeText (finals.map noneText) (ps.map (·.1))) =
        (let all := [.ifOptions, .localOpts] ++ (if finals.isEmpty then ss else [.ifArith (emptyText finals)] ++ ss ++ [.fi]) ++ [.reply, .nospace, .ret, .fi]
         if nested 0 false all then some all else none) := by
  have hfb : ∀ f ∈ finals.map noneText, '\n' ∉ f := by
    intro f h
    obtain ⟨v, hv, rfl⟩ := List.mem_map.mp h
    have := fun hm => name_chars (hf v hv) '\n' hm
    unfold noneText
    simp only [List.mem_append, not_or]
    exact ⟨⟨by decide +kernel, fun hm => this hm (by simp)⟩, by decide +kernel⟩
  have hlb : ∀ l ∈ ps.map (·.1), '\n' ∉ l := by
    intro l h
    obtain ⟨p, hp, rfl⟩ := List.mem_map.mp h
    exact hnl p hp
  have hA : LinesAre [S "if (( ! END_OF_OPTIONS )) && [[ \"$cur\" = -* ]]; then", S "  local -a opts"] [.ifOptions, .localOpts] := lines_append (lines_one lineA.2 lineA.1) (lines_one lineB.2 lineB.1)
  have hZ : LinesAre [S "  COMPREPLY+=($(compgen -W \"${opts[*]}\" -- \"$cur\"))", S "  [[ ${COMPREPLY-} == *= ]] && compopt -o nospace", S "  return 1", S "fi"]
      [.reply, .nospace, .ret, .fi] := lines_append (lines_append (lines_one lineC.2 lineC.1) (lines_one lineD.2 lineD.1)) (lines_append (lines_one lineE.2 lineE.1) (lines_one lineF.2 lineF.1))
  have hpad2 : ∀ l, ∃ n, ZshLex.pad (ZshLex.pad l) = List.replicate n ' ' ++ l := by
    intro l
    obtain ⟨n, hn⟩ := ZshLex.pad_spaces l
    obtain ⟨m, hm⟩ := ZshLex.pad_spaces (ZshLex.pad l)
    refine ⟨m + n, ?_⟩
    rw [hm, hn, ← List.append_assoc, List.replicate_append_replicate]
  have finish : ∀ mid, LinesAre ((middle (finals.map noneText) (ps.map (·.1))).map ZshLex.pad) mid →
      read (wholeText (finals.map noneText) (ps.map (·.1))) =
        (let all := [.ifOptions, .localOpts] ++ mid ++ [.reply, .nospace, .ret, .fi]
         if nested 0 false all then some all else none) := by
    intro mid hmid
    have h := lines_append (lines_append hA hmid) hZ
    unfold LinesAre at h
    unfold BashOffers.read
    rw [whole_lines _ _ hfb hlb]
    rw [h, Option.bind_some]
  by_cases hfe : finals = []
  · subst hfe
    obtain ⟨ss, h1, h2, h3, h4⟩ := lines_add (env := env) ZshLex.pad ZshLex.pad_spaces ps hps
    refine ⟨ss, h2, h3, h4, ?_⟩
    rw [finish ss]
    · rfl
    · show LinesAre ((someLines (ps.map (·.1))).map ZshLex.pad) ss
      unfold someLines
      split
      · rename_i he
        have : ps = [] := by simpa using he
        subst this
        have : ss = [] := List.length_eq_zero_iff.mp h3
        subst this
        exact lines_blank
      · rw [List.map_map]; exact h1
  · obtain ⟨ss, h1, h2, h3, h4⟩ := lines_add (env := env) (fun l => ZshLex.pad (ZshLex.pad l)) hpad2 ps hps
    refine ⟨ss, h2, h3, h4, ?_⟩
    rw [finish ([.ifArith (emptyText finals)] ++ ss ++ [.fi])]
    · have hfi : finals.isEmpty = false := by simpa using hfe
      simp only [hfi, Bool.false_eq_true, if_false]
    · unfold middle
      rw [if_neg (by simpa using hfe), List.map_append, List.map_append]
      obtain ⟨v, vs, rfl⟩ := List.exists_cons_of_ne_nil hfe
      refine lines_append (lines_append ?_ ?_) ?_
      · obtain ⟨n, hn⟩ := ZshLex.pad_spaces (S "if (( " ++ joinWith (S " && ") ((v :: vs).map noneText) ++ S " )); then")
        rw [List.map_cons, List.map_nil, hn]
        exact lines_one (lineIf n v vs).2 (lineIf n v vs).1
      · unfold someLines
        split
        · rename_i he
          have : ps = [] := by simpa using he
          subst this
          have : ss = [] := List.length_eq_zero_iff.mp h3
          subst this
          exact lines_blank
        · rw [List.map_map, List.map_map]; exact h1
      · obtain ⟨n, hn⟩ := ZshLex.pad_spaces (S "fi")
        rw [List.map_cons, List.map_nil, hn]
        exact lines_one (lineFi n).2 (lineFi n).1

/-- The result of running the text. -/
theorem whole_run {env : Env} (finals : List Str) (ps : List (Str × List Str)) (hf : ∀ v ∈ finals, isName v = true) (hps : ∀ p ∈ ps, LineAdds env p.1 p.2)
    (hnl : ∀ p ∈ ps, '\n' ∉ p.1) (hok : finals = [] ∨ ps ≠ []) (hw : ∀ p ∈ ps, ∀ w ∈ p.2, w ≠ [] ∧ ∀ c ∈ w, Harmless c) :
    BashOffers.runText env (wholeText (finals.map noneText) (ps.map (·.1))) =
      if env.endOfOptions = false ∧ ['-'] <+: env.cur then
        let opts := if finals.all (fun v => (env.arrays v).isEmpty) then ps.flatMap (·.2) else []
        let added := opts.filter (fun w => decide (env.cur <+: w))
        some (true, ⟨opts, added, decide (['='] <:+ ((env.before ++ added).head?).getD [])⟩)
      else some (false, {}) := by
  obtain ⟨ss, h1, h2, h3, h4⟩ := whole_read finals ps hf hps hnl
  have hcg : compgen (ps.flatMap (·.2)) env.cur = some ((ps.flatMap (·.2)).filter (fun w => decide (env.cur <+: w))) := by
    unfold compgen
    rw [if_pos]
    intro w hm
    obtain ⟨p, hp, hx⟩ := List.mem_flatMap.mp hm
    exact hw p hp w hx
  have hcn : compgen [] env.cur = some [] := by unfold compgen; rw [if_pos (by simp)]; rfl
  unfold BashOffers.runText
  rw [h4]
  by_cases hfe : finals = []
  · subst hfe
    have hn : nested 0 false ([.ifOptions, .localOpts] ++ ss ++ [.reply, .nospace, .ret, .fi]) = true := by
      rw [List.append_assoc]
      show nested 1 false (ss ++ [.reply, .nospace, .ret, .fi]) = true
      rw [nested_lists 1 _ h1]
      rfl
    simp only [List.isEmpty_nil, if_true, hn, Option.bind_some]
    rw [List.append_assoc, List.cons_append, List.cons_append, List.nil_append, run]
    split
    · rw [run, h3]
      simp only [run, List.nil_append, hcg, Option.bind_some, Bool.false_or, List.all_nil, if_true]
    · show run env 1 {} (ss ++ [.reply, .nospace, .ret, .fi]) = _
      rw [run_skip env 0 _ _ h1]
      rfl
  · have hse : ss.isEmpty = false := by
      cases ss with
      | nil =>
        rcases hok with h | h
        · exact absurd h hfe
        · exact absurd (List.length_eq_zero_iff.mp h2.symm) h
      | cons a b => rfl
    have hn : nested 0 false ([.ifOptions, .localOpts] ++ ([.ifArith (emptyText finals)] ++ ss ++ [.fi]) ++ [.reply, .nospace, .ret, .fi]) = true := by
      rw [List.append_assoc, List.append_assoc, List.append_assoc]
      show nested 2 true (ss ++ ([.fi] ++ [.reply, .nospace, .ret, .fi])) = true
      rw [nested_lists 2 _ h1, hse]
      rfl
    have hfi : finals.isEmpty = false := by simpa using hfe
    simp only [hfi, Bool.false_eq_true, if_false, hn, if_true, Option.bind_some]
    rw [List.append_assoc, List.append_assoc, List.append_assoc, List.cons_append, List.cons_append, List.nil_append, run]
    split
    · rw [run, List.cons_append, List.nil_append, run, arithmetic_empty env finals hfe hf, Option.bind_some]
      cases hb : finals.all (fun v => (env.arrays v).isEmpty) with
      | true =>
        simp only [if_true]
        rw [h3]
        simp only [run, List.cons_append, List.nil_append, hcg, Option.bind_some, Bool.false_or]
      | false =>
        simp only [Bool.false_eq_true, if_false]
        rw [run_skip env 0 _ _ h1]
        simp only [run, List.cons_append, List.nil_append, hcn, Option.bind_some, Bool.false_or, List.filter_nil]
        rfl
    · show run env 2 {} (ss ++ ([.fi] ++ [.reply, .nospace, .ret, .fi])) = _
      rw [run_skip env 1 _ _ h1]
      rfl

/-- An empty body cannot be read. -/
theorem whole_unreadable (env : Env) (finals : List Str) (hne : finals ≠ []) (hf : ∀ v ∈ finals, isName v = true) :
    BashOffers.runText env (wholeText (finals.map noneText) []) = none := by
  obtain ⟨ss, h1, h2, h3, h4⟩ := whole_read (env := env) finals [] hf (by simp) (by simp)
  have : ss = [] := List.length_eq_zero_iff.mp h2
  subst this
  unfold BashOffers.runText
  rw [show ([] : List Str) = ([] : List (Str × List Str)).map (·.1) from rfl, h4]
  have hfi : finals.isEmpty = false := by simpa using hne
  simp only [hfi, Bool.false_eq_true, if_false]
  rfl

end OffersLex
end CC
