import Verif.Lemmas.BashCode
/-!
# Lemmas about the lines of the completers' code
-/

namespace CC
open BashCode

/-! ## Parts of lines -/

/-- A word of literal characters. -/
abbrev tok (w : Str) : Tok := .word (chs w)

theorem literal_chs (w : Str) : literal (chs w) = some w := by
  induction w with
  | nil => rfl
  | cons c cs ih =>
    simp only [chs] at ih
    simp [chs, literal, ih]

theorem literals_toks (ws : List Str) : literals (ws.map tok) = some ws := by
  induction ws with
  | nil => rfl
  | cons w ws ih =>
    have ih' : literals (List.map (fun w => Tok.word (List.map Seg.ch w)) ws) = some ws := ih
    have hl : literal (List.map Seg.ch w) = some w := literal_chs w
    simp [literals, hl, ih']

theorem behind_self {α : Type} [DecidableEq α] (p x : List α) : behind p (p ++ x) = some x := by
  induction p with
  | nil => rfl
  | cons a p ih => simp [behind, ih]

theorem before_self {α : Type} [DecidableEq α] (s x : List α) : before s (x ++ s) = some x := by
  simp [before, behind_self]

theorem behind_eq {α : Type} [DecidableEq α] {p l r : List α} (h : behind p l = some r) : l = p ++ r := by
  induction p generalizing l with
  | nil => simp [behind] at h; simp [h]
  | cons a p ih =>
    cases l with
    | nil => simp [behind] at h
    | cons x xs =>
      simp only [behind] at h
      split at h
      · rename_i he; subst he; simp [ih h]
      · simp at h

theorem before_eq {α : Type} [DecidableEq α] {s l r : List α} (h : before s l = some r) : l = r ++ s := by
  unfold before at h
  cases hb : behind s.reverse l.reverse with
  | none => simp [hb] at h
  | some x =>
    simp [hb] at h
    have := behind_eq hb
    have h2 : l.reverse.reverse = (s.reverse ++ x).reverse := by rw [this]
    simp at h2
    rw [h2, ← h]

theorem between_self (f l : List Tok) (ws : List Str) : between f l (f ++ ws.map tok ++ l) = some ws := by
  unfold between
  rw [List.append_assoc, behind_self]
  simp only [Option.bind_some]
  rw [before_self]
  simp only [Option.bind_some]
  exact literals_toks ws

theorem between_eq {f l line : List Tok} {ws : List Str} (h : between f l line = some ws) :
    ∃ x, line = f ++ x ++ l := by
  unfold between at h
  cases hb : behind f line with
  | none => simp [hb] at h
  | some x =>
    simp only [hb, Option.bind_some] at h
    cases ha : before l x with
    | none => simp [ha] at h
    | some y =>
      have h1 := behind_eq hb
      have h2 := before_eq ha
      exact ⟨y, by rw [h1, h2]; simp⟩

theorem between_none {f l line : List Tok} (t : Tok) (ht : t ∈ l ∨ t ∈ f) (hn : t ∉ line) : between f l line = none := by
  cases h : between f l line with
  | none => rfl
  | some ws =>
    obtain ⟨x, hx⟩ := between_eq h
    exfalso; apply hn; rw [hx]; rcases ht with ht | ht <;> simp [ht]

theorem between_none_last {f l line : List Tok} (h : line.getLast? ≠ l.getLast?) (hl : l ≠ []) :
    between f l line = none := by
  cases hb : between f l line with
  | none => rfl
  | some ws =>
    obtain ⟨x, hx⟩ := between_eq hb
    exfalso; apply h
    rw [hx, List.getLast?_append]
    cases hg : l.getLast? with
    | none => simp at hg; exact absurd hg hl
    | some t => simp

theorem between_none_head {f l line : List Tok} (h : line.head? ≠ f.head?) (hf : f ≠ []) :
    between f l line = none := by
  cases hb : between f l line with
  | none => rfl
  | some ws =>
    obtain ⟨x, hx⟩ := between_eq hb
    exfalso; apply h
    cases f with
    | nil => exact absurd rfl hf
    | cons a f => rw [hx]; rfl

/-! ## A line that is a command -/

theorem tok_inj {a b : Str} (h : tok a = tok b) : a = b := by
  have h1 : chs a = chs b := by simpa [tok] using h
  have := congrArg literal h1
  simpa [literal_chs] using this

theorem exp_not_mem (e : List Char) (w : Str) : Seg.exp e ∉ chs w := by simp [chs]

/-- A line of literal words that does not begin with `local`. -/
theorem stmt_call (w : Str) (ws : List Str) (h : w ≠ "local".toList) :
    stmt ((w :: ws).map tok) = some (.call (w :: ws)) := by
  have op : ∀ c g, Tok.op c g ∉ (w :: ws).map tok := by intro c g; simp
  have ex : ∀ e, Tok.word [.exp e] ∉ (w :: ws).map tok := by
    intro e; simp only [List.mem_map, not_exists, not_and]
    intro x _ hx
    have h1 : chs x = [.exp e] := by simpa only [tok, Tok.word.injEq] using hx
    exact exp_not_mem e x (by rw [h1]; simp)
  have hl : (w :: ws).map tok ≠ [] := by simp
  have hloc : lit "local" ≠ tok w := by
    intro he; exact h (tok_inj (show tok "local".toList = tok w from he)).symm
  have hlocal : ∀ (p x : List Tok), (w :: ws).map tok ≠ (lit "local" :: p) ++ x := by
    intro p x he; simp at he; exact hloc he.1.symm
  have h1 : fixedStmt ((w :: ws).map tok) = none := by
    unfold fixedStmt
    have mem : ∀ {l : List Tok} {t : Tok}, t ∈ l → t ∉ (w :: ws).map tok → (w :: ws).map tok ≠ l := by
      intro l t ht hn he; rw [he] at hn; exact hn ht
    rw [if_neg (mem (t := .op '(' true) (by simp) (op _ _)), if_neg (mem (t := .op '(' true) (by simp) (op _ _)),
      if_neg (by have := hlocal [.word ("cur_old=".toList.map .ch ++ [.exp "cur".toList])] []; rwa [List.append_nil] at this), if_neg, if_neg (mem (t := .op '>' false) (by simp) (op _ _)),
      if_neg (mem (t := .op '}' false) (by simp) (op _ _)), if_neg (mem (t := .op '(' true) (by simp) (op _ _))]
    intro he
    simp only [List.map_cons, List.cons.injEq, Tok.word.injEq] at he
    have : Seg.exp "cur_old".toList ∈ chs w := by rw [he.1]; simp
    exact exp_not_mem _ _ this
  have h2 : ∀ p b, compgenStmt p b ((w :: ws).map tok) = none := by
    intro p b; unfold compgenStmt
    rw [between_none (.op '(' true) (Or.inr (by simp)) (op _ _)]; rfl
  have h4 : pushStmt ((w :: ws).map tok) = none := by
    unfold pushStmt
    split
    · rename_i e k r he
      exact absurd (show Tok.word [.exp e] ∈ (w :: ws).map tok by rw [he]; simp) (ex e)
    · rw [between_none (.op '(' true) (Or.inr (by simp)) (op _ _)]; rfl
  have h5 : cutStmt ((w :: ws).map tok) = none := by
    unfold cutStmt
    split
    · rename_i x he
      split
      · rename_i e hb
        have := behind_eq hb
        simp only [List.map_cons, List.cons.injEq, Tok.word.injEq] at he
        exfalso
        have hm : Seg.exp e ∈ chs w := by rw [he.1, this]; simp
        exact exp_not_mem _ _ hm
      · rfl
    · rfl
  have h6 : pathStmt ((w :: ws).map tok) = none := by
    unfold pathStmt
    split
    · rename_i x hb
      exact absurd (behind_eq hb) (by simpa using hlocal [lit "-x"] [.word x])
    · rfl
  have h7 : conditionStmt ((w :: ws).map tok) = none := by
    unfold conditionStmt
    split
    · rename_i x hb
      exact absurd (behind_eq hb) (hlocal [] [.word x])
    · rfl
  have h8 : enterStmt ((w :: ws).map tok) = none := by
    unfold enterStmt
    rw [between_none (.op '{' false) (Or.inl (by simp)) (op _ _)]
  have h9 : ∀ a, callWithStmt a ((w :: ws).map tok) = none := by
    intro a; unfold callWithStmt
    rw [between_none _ (Or.inl List.mem_cons_self) (ex _)]; rfl
  have h10 : callStmt ((w :: ws).map tok) = some (.call (w :: ws)) := by
    unfold callStmt; rw [literals_toks]; rfl
  unfold stmt
  rw [h1, h2, h2, h4, h5, h6, h7, h8, h9, h9, h10]; rfl

theorem or_eq {α : Type} (b : Option α) : ((none : Option α) <|> b) = b := rfl

/-- A command with the elements of an array, and no `local` in front. -/
theorem stmt_callWith (a : String) (ha : a = "a" ∨ a = "COMPREPLY") (w : Str) (ws : List Str)
    (h : w ≠ "local".toList) :
    stmt ((w :: ws).map tok ++ [.word [.exp ("{" ++ a ++ "[@]}").toList]]) = some (.callWith (w :: ws) a.toList) := by
  generalize hline : (w :: ws).map tok ++ [.word [.exp ("{" ++ a ++ "[@]}").toList]] = line
  have op : ∀ c g, Tok.op c g ∉ line := by intro c g; subst hline; simp
  have hloc : lit "local" ≠ tok w := by
    intro he; exact h (tok_inj (show tok "local".toList = tok w from he)).symm
  have hhead : line.head? = some (tok w) := by subst hline; rfl
  have hlocal : ∀ (p x : List Tok), line ≠ (lit "local" :: p) ++ x := by
    intro p x he; rw [he] at hhead; simp at hhead; exact hloc hhead
  have hlen : ∀ t, line ≠ [t] := by
    intro t he; subst hline
    have := congrArg List.length he
    simp at this
  have h1 : fixedStmt line = none := by
    unfold fixedStmt
    have mem : ∀ {l : List Tok} {t : Tok}, t ∈ l → t ∉ line → line ≠ l := by
      intro l t ht hn he; rw [he] at hn; exact hn ht
    rw [if_neg (mem (t := .op '(' true) (by simp) (op _ _)), if_neg (mem (t := .op '(' true) (by simp) (op _ _)),
      if_neg (by have := hlocal [.word ("cur_old=".toList.map .ch ++ [.exp "cur".toList])] []; rwa [List.append_nil] at this),
      if_neg (hlen _), if_neg (mem (t := .op '>' false) (by simp) (op _ _)),
      if_neg (mem (t := .op '}' false) (by simp) (op _ _)), if_neg (mem (t := .op '(' true) (by simp) (op _ _))]
  have h2 : ∀ p b, compgenStmt p b line = none := by
    intro p b; unfold compgenStmt
    rw [between_none (.op '(' true) (Or.inr (by simp)) (op _ _)]; rfl
  have h4 : pushStmt line = none := by
    unfold pushStmt
    split
    · rename_i e k r
      exact absurd (show Tok.op '&' false ∈ _ by simp) (op _ _)
    · rw [between_none (.op '(' true) (Or.inr (by simp)) (op _ _)]; rfl
  have h5 : cutStmt line = none := by
    unfold cutStmt
    split
    · rename_i x; exact absurd rfl (hlen (.word x))
    · rfl
  have h6 : pathStmt line = none := by
    unfold pathStmt
    split
    · rename_i x hb
      exact absurd (behind_eq hb) (by simpa using hlocal [lit "-x"] [.word x])
    · rfl
  have h7 : conditionStmt line = none := by
    unfold conditionStmt
    split
    · rename_i x hb
      exact absurd (behind_eq hb) (hlocal [] [.word x])
    · rfl
  have h8 : enterStmt line = none := by
    unfold enterStmt
    rw [between_none (.op '{' false) (Or.inl (by simp)) (op _ _)]
  have h9 : callWithStmt a line = some (.callWith (w :: ws) a.toList) := by
    unfold callWithStmt
    have := between_self [] [.word [.exp ("{" ++ a ++ "[@]}").toList]] (w :: ws)
    rw [List.nil_append, hline] at this
    rw [this]; rfl
  unfold stmt
  rw [h1, h2, h2, h4, h5, h6, h7, h8]
  rcases ha with rfl | rfl
  · rw [h9]; rfl
  · have h10 : callWithStmt "a" line = none := by
      unfold callWithStmt
      rw [between_none_last ?_ (by simp)]
      · rfl
      · subst hline
        rw [List.getLast?_append]
        simp
    rw [h10, h9]; rfl

/-- A call of `compgen`. -/
theorem stmt_compgen (append : Bool) (ws : List Str) :
    stmt ([lit ("COMPREPLY" ++ (if append then "+" else "") ++ "="), .op '(' true, .op '$' false, .op '(' true,
        lit "compgen"] ++ ws.map tok ++ [lit "--", .word [.exp "cur".toList], .op ')' true, .op ')' true]) =
      some (.compgen append ws) := by
  cases append with
  | false =>
    have h1 : ∀ x : List Tok, fixedStmt ([lit "COMPREPLY=", .op '(' true, .op '$' false, .op '(' true, lit "compgen"] ++
        x) = none := fun _ => rfl
    show stmt ([lit "COMPREPLY=", .op '(' true, .op '$' false, .op '(' true, lit "compgen"] ++ ws.map tok ++
      [lit "--", .word [.exp "cur".toList], .op ')' true, .op ')' true]) = _
    unfold stmt
    rw [List.append_assoc, h1, ← List.append_assoc, or_eq]
    unfold compgenStmt
    have := between_self [lit "COMPREPLY=", .op '(' true, .op '$' false, .op '(' true, lit "compgen"]
      [lit "--", .word [.exp "cur".toList], .op ')' true, .op ')' true] ws
    rw [show "COMPREPLY" ++ "" ++ "=" = "COMPREPLY=" from rfl, this]
    rfl
  | true =>
    have h1 : ∀ x : List Tok, fixedStmt ([lit "COMPREPLY+=", .op '(' true, .op '$' false, .op '(' true, lit "compgen"] ++
        x) = none := fun _ => rfl
    have h2 : ∀ x : List Tok, compgenStmt "" false ([lit "COMPREPLY+=", .op '(' true, .op '$' false, .op '(' true,
        lit "compgen"] ++ x) = none := fun _ => rfl
    show stmt ([lit "COMPREPLY+=", .op '(' true, .op '$' false, .op '(' true, lit "compgen"] ++ ws.map tok ++
      [lit "--", .word [.exp "cur".toList], .op ')' true, .op ')' true]) = _
    unfold stmt
    rw [List.append_assoc, h1, h2, ← List.append_assoc, or_eq, or_eq]
    unfold compgenStmt
    have := between_self [lit "COMPREPLY+=", .op '(' true, .op '$' false, .op '(' true, lit "compgen"]
      [lit "--", .word [.exp "cur".toList], .op ')' true, .op ')' true] ws
    rw [show "COMPREPLY" ++ "+" ++ "=" = "COMPREPLY+=" from rfl, this]
    rfl

/-- An element of the array `a`. -/
theorem stmt_push (ws : List Str) :
    stmt ([lit "a+=", .op '(' true] ++ ws.map tok ++ [.op ')' true]) = some (.push none ws) := by
  have h1 : ∀ x : List Tok, fixedStmt ([lit "a+=", .op '(' true] ++ x) = none := fun _ => rfl
  have h2 : ∀ x : List Tok, compgenStmt "" false ([lit "a+=", .op '(' true] ++ x) = none := fun _ => rfl
  have h3 : ∀ x : List Tok, compgenStmt "+" true ([lit "a+=", .op '(' true] ++ x) = none := fun _ => rfl
  have h4 : pushStmt ([lit "a+=", .op '(' true] ++ ws.map tok ++ [.op ')' true]) = some (.push none ws) := by
    have := between_self [lit "a+=", .op '(' true] [.op ')' true] ws
    unfold pushStmt
    split
    · rename_i e k r he; simp [lit] at he
    · rw [this]; rfl
  unfold stmt
  rw [List.append_assoc, h1, h2, h3, ← List.append_assoc, h4]; rfl

/-- An element of the array `a` behind a condition. -/
theorem stmt_pushIf (k : Str) (ws : List Str) :
    stmt ([.word [.exp "c".toList], tok k, .op '&' false, .op '&' true] ++ ([lit "a+=", .op '(' true] ++ ws.map tok ++
      [.op ')' true])) = some (.push (some k) ws) := by
  have h1 : ∀ x : List Tok, fixedStmt (.word [.exp "c".toList] :: x) = none := fun _ => rfl
  have h2 : ∀ x : List Tok, compgenStmt "" false (.word [.exp "c".toList] :: x) = none := fun _ => rfl
  have h3 : ∀ x : List Tok, compgenStmt "+" true (.word [.exp "c".toList] :: x) = none := fun _ => rfl
  have h4 : pushStmt ([.word [.exp "c".toList], tok k, .op '&' false, .op '&' true] ++
      ([lit "a+=", .op '(' true] ++ ws.map tok ++ [.op ')' true])) = some (.push (some k) ws) := by
    have := between_self [lit "a+=", .op '(' true] [.op ')' true] ws
    generalize hr : [lit "a+=", Tok.op '(' true] ++ ws.map tok ++ [Tok.op ')' true] = r at this
    show (if "c".toList = "c".toList then (literal (chs k)).bind (fun k' =>
      (between [lit "a+=", .op '(' true] [.op ')' true] r).map (Stmt.push (some k'))) else none) = _
    rw [if_pos rfl, literal_chs, this]; rfl
  unfold stmt
  rw [h4]
  show (fixedStmt (.word [.exp "c".toList] :: _) <|> _) = _
  rw [h1, show compgenStmt "" false ([.word [.exp "c".toList], tok k, .op '&' false, .op '&' true] ++
      ([lit "a+=", .op '(' true] ++ ws.map tok ++ [.op ')' true])) = none from h2 _,
    show compgenStmt "+" true ([.word [.exp "c".toList], tok k, .op '&' false, .op '&' true] ++
      ([lit "a+=", .op '(' true] ++ ws.map tok ++ [.op ')' true])) = none from h3 _]
  rfl

/-- `cur="${cur##*SEP}"`. -/
theorem stmt_cut (q sep : Str) (h : Posix.words q = some [sep]) :
    stmt [.word ("cur=".toList.map Seg.ch ++ [.exp ("{cur##*".toList ++ q ++ ['}'])])] = some (.cutCur sep) := by
  have h1 : fixedStmt [.word ("cur=".toList.map Seg.ch ++ [.exp ("{cur##*".toList ++ q ++ ['}'])])] = none := rfl
  have h2 : ∀ b p, compgenStmt p b [.word ("cur=".toList.map Seg.ch ++ [.exp ("{cur##*".toList ++ q ++ ['}'])])] = none := by
    intro b p; unfold compgenStmt
    rw [between_none (.op '(' true) (Or.inr (by simp)) (by simp)]; rfl
  have h3 : pushStmt [.word ("cur=".toList.map Seg.ch ++ [.exp ("{cur##*".toList ++ q ++ ['}'])])] = none := rfl
  have h4 : cutStmt [.word ("cur=".toList.map Seg.ch ++ [.exp ("{cur##*".toList ++ q ++ ['}'])])] =
      some (.cutCur sep) := by
    have hb : behind ("cur=".toList.map Seg.ch) ("cur=".toList.map Seg.ch ++
      [Seg.exp ("{cur##*".toList ++ q ++ ['}'])]) = some [.exp ("{cur##*".toList ++ q ++ ['}'])] := behind_self _ _
    have hb2 : behind "{cur##*".toList ("{cur##*".toList ++ q ++ ['}']) = some (q ++ ['}']) := by
      rw [List.append_assoc]; exact behind_self _ _
    unfold cutStmt
    simp only [hb, hb2, before_self, Option.bind_some, h]
  unfold stmt
  rw [h1, h2, h2, h3, h4]; rfl

/-- `local -x PATH=…`. -/
theorem stmt_path (segs : List Seg) (ps : List (Option Str)) (h : pieces "PATH".toList [] segs = some ps) :
    stmt [lit "local", lit "-x", .word ("PATH=".toList.map Seg.ch ++ segs)] = some (.path ps) := by
  have h0 : pathStmt [lit "local", lit "-x", .word ("PATH=".toList.map Seg.ch ++ segs)] = some (.path ps) := by
    show ((behind ("PATH=".toList.map Seg.ch) ("PATH=".toList.map Seg.ch ++ segs)).bind
      (fun r => (pieces "PATH".toList [] r).map Stmt.path)) = _
    rw [behind_self, Option.bind_some, h]; rfl
  unfold stmt
  rw [h0]; rfl

/-- `local c=FUNCTION`. -/
theorem stmt_condition (f : Str) :
    stmt [lit "local", .word ("c=".toList.map Seg.ch ++ chs f)] = some (.condition f) := by
  have h0 : conditionStmt [lit "local", .word ("c=".toList.map Seg.ch ++ chs f)] = some (.condition f) := by
    show ((behind ("c=".toList.map Seg.ch) ("c=".toList.map Seg.ch ++ chs f)).bind
      (fun r => (literal r).map Stmt.condition)) = _
    rw [behind_self, Option.bind_some, literal_chs]; rfl
  unfold stmt
  rw [h0]; rfl

/-- `builtin pushd DIR …`. -/
theorem stmt_enter (d : Str) :
    stmt [lit "builtin", lit "pushd", tok d, .op '&' false, .op '>' true, lit "/dev/null", .op '&' false, .op '&' true,
      .op '{' false] = some (.enter d) := by
  have h0 : enterStmt [lit "builtin", lit "pushd", tok d, .op '&' false, .op '>' true, lit "/dev/null", .op '&' false,
      .op '&' true, .op '{' false] = some (.enter d) := by
    have := between_self [lit "builtin", lit "pushd"] [.op '&' false, .op '>' true, lit "/dev/null", .op '&' false,
      .op '&' true, .op '{' false] [d]
    unfold enterStmt
    simp only [List.map_cons, List.map_nil, List.cons_append, List.nil_append] at this
    rw [this]
  unfold stmt
  rw [h0]; rfl

end CC
