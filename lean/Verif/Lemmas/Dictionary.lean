import Verif.Model.Dictionary
import Verif.Props.Compat
import Verif.Props.CliTree
/-!
# Lemmas about the dictionary import and export
-/

namespace CC

/-! ## Words -/

/-- A command name that survives `split()`: non-empty, without whitespace. -/
def IsWord (w : Str) : Prop := w ≠ [] ∧ ∀ c ∈ w, pyIsSpace c = false

theorem splitWsGo_word (w cur rest : Str) (h : ∀ c ∈ w, pyIsSpace c = false) :
    splitWsGo cur (w ++ rest) = splitWsGo (w.reverse ++ cur) rest := by
  induction w generalizing cur with
  | nil => rfl
  | cons c cs ih =>
    simp only [List.cons_append, splitWsGo, h c (by simp)]
    rw [if_neg (by simp), ih (c :: cur) (fun x hx => h x (by simp [hx]))]
    simp

theorem splitWs_join (ws : List Str) (h : ∀ w ∈ ws, IsWord w) : splitWs (joinWith [' '] ws) = ws := by
  match ws with
  | [] => rfl
  | [w] =>
    simp only [joinWith, splitWs]
    have := splitWsGo_word w [] [] (h w (by simp)).2
    simp only [List.append_nil] at this
    rw [this]
    have hne := (h w (by simp)).1
    have : w.reverse ≠ [] := by simpa using hne
    cases hr : w.reverse with
    | nil => exact absurd hr this
    | cons c cs => simp only [splitWsGo]; rw [← hr]; simp
  | w :: v :: vs =>
    have ih := splitWs_join (v :: vs) (fun x hx => h x (by simp [hx]))
    simp only [joinWith, splitWs, List.append_assoc]
    rw [splitWsGo_word w [] _ (h w (by simp)).2]
    have hne := (h w (by simp)).1
    have : w.reverse ≠ [] := by simpa using hne
    simp only [List.append_nil, List.cons_append, List.nil_append]
    have hsp : pyIsSpace ' ' = true := by decide
    cases hr : w.reverse with
    | nil => exact absurd hr this
    | cons c cs =>
      simp only [splitWsGo, hsp, if_true, List.isEmpty_cons, Bool.false_eq_true, if_false]
      rw [← hr]
      simp only [List.reverse_reverse, List.cons.injEq, true_and]
      exact ih

theorem word_no_blank {w : Str} (h : IsWord w) : ' ' ∉ w ∧ '\t' ∉ w ∧ '\n' ∉ w :=
  ⟨fun hm => absurd (h.2 _ hm) (by decide), fun hm => absurd (h.2 _ hm) (by decide),
    fun hm => absurd (h.2 _ hm) (by decide)⟩

theorem joinWords_first (w : Str) (ws : List Str) (hw : IsWord w) :
    ∃ c r, joinWith [' '] (w :: ws) = c :: r ∧ pyIsSpace c = false := by
  cases w with
  | nil => exact absurd rfl hw.1
  | cons c cs =>
    cases ws with
    | nil => exact ⟨c, cs, rfl, hw.2 c (by simp)⟩
    | cons v vs => exact ⟨c, cs ++ [' '] ++ joinWith [' '] (v :: vs), rfl, hw.2 c (by simp)⟩

theorem joinWords_last (ws : List Str) (hne : ws ≠ []) (h : ∀ w ∈ ws, IsWord w) :
    ∃ c r, joinWith [' '] ws = r ++ [c] ∧ pyIsSpace c = false := by
  match ws with
  | [] => exact absurd rfl hne
  | [w] =>
    have hw := h w (by simp)
    refine ⟨w.getLast hw.1, w.dropLast, ?_, hw.2 _ (List.getLast_mem _)⟩
    simp [joinWith, List.dropLast_concat_getLast]
  | w :: v :: vs =>
    obtain ⟨c, r, e, hc⟩ := joinWords_last (v :: vs) (by simp) (fun x hx => h x (by simp [hx]))
    exact ⟨c, w ++ [' '] ++ r, by simp only [joinWith]; rw [e]; simp, hc⟩

theorem hds_append (w s : Str) (hw : ' ' ∉ w) (hs : hasDoubleSpace s = false)
    (hh : s.head? ≠ some ' ') : hasDoubleSpace (w ++ ' ' :: s) = false := by
  induction w with
  | nil =>
    cases s with
    | nil => rfl
    | cons c cs =>
      simp only [List.nil_append, hasDoubleSpace, hs]
      have : c ≠ ' ' := by intro h; apply hh; simp [h]
      simp [this]
  | cons x xs ih =>
    simp only [List.mem_cons, not_or] at hw
    have ih' := ih hw.2
    cases xs with
    | nil =>
      simp only [List.cons_append, List.nil_append] at ih' ⊢
      have : x ≠ ' ' := fun h => hw.1 h.symm
      cases s with
      | nil => simp [hasDoubleSpace, this]
      | cons c cs =>
        have hc : c ≠ ' ' := by intro h; apply hh; simp [h]
        simp only [hasDoubleSpace] at ih' ⊢
        simp only [Bool.or_eq_false_iff] at ih' ⊢
        simp [this, ih', hc]
    | cons y ys =>
      have : x ≠ ' ' := fun h => hw.1 h.symm
      simp only [List.cons_append, hasDoubleSpace] at ih' ⊢
      simp [this, ih']

theorem hds_no_space (w : Str) (hw : ' ' ∉ w) : hasDoubleSpace w = false := by
  induction w with
  | nil => rfl
  | cons x xs ih =>
    simp only [List.mem_cons, not_or] at hw
    cases xs with
    | nil => rfl
    | cons y ys =>
      have : x ≠ ' ' := fun h => hw.1 h.symm
      simp [hasDoubleSpace, this, ih hw.2]

theorem hds_join (ws : List Str) (h : ∀ w ∈ ws, IsWord w) : hasDoubleSpace (joinWith [' '] ws) = false := by
  match ws with
  | [] => rfl
  | [w] => exact hds_no_space w (word_no_blank (h w (by simp))).1
  | w :: v :: vs =>
    have ih := hds_join (v :: vs) (fun x hx => h x (by simp [hx]))
    obtain ⟨c, r, e, hc⟩ := joinWords_first v vs (h v (by simp))
    simp only [joinWith, List.append_assoc, List.cons_append, List.nil_append]
    apply hds_append w _ (word_no_blank (h w (by simp))).1 ih
    rw [e]
    simp only [List.head?_cons, ne_eq, Option.some.injEq]
    rintro rfl
    exact absurd hc (by decide)

theorem join_not_mem (ws : List Str) (c : Char) (hc : c ≠ ' ') (h : ∀ w ∈ ws, c ∉ w) :
    c ∉ joinWith [' '] ws := by
  match ws with
  | [] => simp [joinWith]
  | [w] => exact h w (by simp)
  | w :: v :: vs =>
    have ih := join_not_mem (v :: vs) c hc (fun x hx => h x (by simp [hx]))
    simp only [joinWith, List.append_assoc, List.cons_append, List.nil_append, List.mem_append,
      List.mem_cons, not_or]
    exact ⟨h w (by simp), hc, ih⟩

theorem validProg_join (ws : List Str) (hne : ws ≠ []) (h : ∀ w ∈ ws, IsWord w) :
    validProg (joinWith [' '] ws) = true := by
  have h1 := hds_join ws h
  have h2 := join_not_mem ws '\t' (by decide) (fun w hw => (word_no_blank (h w hw)).2.1)
  have h3 := join_not_mem ws '\n' (by decide) (fun w hw => (word_no_blank (h w hw)).2.2)
  obtain ⟨cl, rl, el, hl⟩ := joinWords_last ws hne h
  cases ws with
  | nil => exact absurd rfl hne
  | cons w ws =>
    obtain ⟨cf, rf, ef, hf⟩ := joinWords_first w ws (h w (by simp))
    unfold validProg
    have e1 : isBlank (joinWith [' '] (w :: ws)) = false := by
      rw [ef]; simp [isBlank, hf]
    have e2 : ((joinWith [' '] (w :: ws)).head? != some ' ') = true := by
      rw [ef]
      simp only [List.head?_cons, bne_iff_ne, ne_eq, Option.some.injEq]
      rintro rfl; exact absurd hf (by decide)
    have e3 : ((joinWith [' '] (w :: ws)).getLast? != some ' ') = true := by
      rw [el]
      simp only [List.getLast?_append, List.getLast?_singleton, Option.or, bne_iff_ne, ne_eq,
        Option.some.injEq]
      rintro rfl; exact absurd hl (by decide)
    have e4 : (joinWith [' '] (w :: ws)).contains '\t' = false := by
      rw [← Bool.not_eq_true, List.contains_iff_mem]; exact h2
    have e5 : (joinWith [' '] (w :: ws)).contains '\n' = false := by
      rw [← Bool.not_eq_true, List.contains_iff_mem]; exact h3
    rw [e1, e2, e3, e4, e5, h1]; rfl

/-! ## Reading back what was written -/

theorem getKey_append (a b : List (Key × Val)) (k : Str) :
    getKey (a ++ b) k = (getKey a k).or (getKey b k) := by
  induction a with
  | nil => simp [getKey]
  | cons e a ih =>
    simp only [List.cons_append, getKey_cons, ih]
    split <;> simp

theorem getKey_nil (k : Str) : getKey [] k = none := rfl

theorem getKey_entry (k' k : Str) (v : Option Val) :
    getKey (entry? k' v) k = if k' = k then v else none := by
  cases v with
  | none => simp [entry?, getKey]
  | some v => simp [entry?, getKey_cons, getKey_nil]

theorem getKey_single (k' k : Str) (v : Val) :
    getKey [(Key.str k', v)] k = if k' = k then some v else none := by
  simp [getKey_cons, getKey_nil]

theorem entry_all (allowed : List Str) (k : Str) (v : Option Val) (h : allowed.contains k = true) :
    (entry? k v).all (keyAllowed allowed) = true := by
  cases v with
  | none => rfl
  | some v => simp only [entry?, List.all_cons, keyAllowed, h]; rfl

theorem validateKeys_ok (d : List (Key × Val)) (allowed : List Str)
    (h : d.all (keyAllowed allowed) = true) : validateKeys d allowed = .ok () := by
  unfold validateKeys
  rw [if_pos h]

theorem readStr_of {d : List (Key × Val)} {k : Str} {x : Option Str}
    (h : getKey d k = x.map .str) : readStr? d k = .ok x := by
  unfold readStr?; rw [h]; cases x <;> rfl

theorem readBool_of {d : List (Key × Val)} {k : Str} {x : Bool}
    (h : getKey d k = trueVal x) : readBool d k = .ok x := by
  unfold readBool; rw [h]; cases x <;> rfl

theorem readExt_of {d : List (Key × Val)} {k : Str} {x : ExtBool}
    (h : getKey d k = extVal x) : readExt d k = .ok x := by
  unfold readExt; rw [h]; cases x <;> rfl

theorem readSep_of {d : List (Key × Val)} {k : Str} {x : LongSep}
    (h : getKey d k = sepVal x) : readSep d k = .ok x := by
  unfold readSep; rw [h]; cases x <;> rfl

theorem readList_of {d : List (Key × Val)} {k : Str} {x : Option (List Val)} (hx : x ≠ some [])
    (h : getKey d k = listVal x) : readList? d k = .ok x := by
  unfold readList?; rw [h]
  cases x with
  | none => rfl
  | some l => cases l with
    | nil => exact absurd rfl hx
    | cons => rfl

theorem asStrs_map (l : List Str) : asStrs (l.map .str) = .ok l := by
  induction l with
  | nil => rfl
  | cons s ss ih => simp only [List.map_cons, asStrs, ih]; rfl

theorem readStrs_of {d : List (Key × Val)} {k : Str} {x : Option (List Str)}
    (h : getKey d k = x.map (fun l => .list (l.map .str))) : readStrs? d k = .ok x := by
  unfold readStrs? readList?; rw [h]
  cases x with
  | none => rfl
  | some l =>
    show (do let a ← asStrs (l.map .str); Except.ok (some a)) = _
    rw [asStrs_map]; rfl

theorem readStrs_of' {d : List (Key × Val)} {k : Str} {x : List Str}
    (h : getKey d k = listVal (some (x.map .str))) : ∃ r, readStrs? d k = .ok r ∧ r.getD [] = x := by
  unfold readStrs? readList?; rw [h]
  cases x with
  | nil => exact ⟨none, rfl, rfl⟩
  | cons s ss =>
    refine ⟨some (s :: ss), ?_, rfl⟩
    show (do let a ← asStrs ((s :: ss).map .str); Except.ok (some a)) = _
    rw [asStrs_map]; rfl

/-- The entries written for an option. -/
def optEntries (o : Opt) : List (Key × Val) := match optionToDict o with | .dict e => e | _ => []

/-- The entries written for a positional. -/
def posEntries (p : Pos) : List (Key × Val) := match positionalToDict p with | .dict e => e | _ => []

theorem optEntries_get (o : Opt) (k : Str) : getKey (optEntries o) k =
    (((((((((((((((((((((((((if S "option_strings" = k then some (Val.list (o.strings.map .str)) else none)).or
      (if S "metavar" = k then o.metavar.map .str else none))).or
      (if S "help" = k then o.help.map .str else none))).or
      (if S "optional_arg" = k then trueVal o.optionalArg else none))).or
      (if S "groups" = k then o.groups.map (fun g => .list (g.map .str)) else none))).or
      (if S "repeatable" = k then extVal o.repeatable else none))).or
      (if S "final" = k then trueVal o.final else none))).or
      (if S "hidden" = k then trueVal o.hidden else none))).or
      (if S "complete" = k then listVal o.complete else none))).or
      (if S "nosort" = k then trueVal o.nosort else none))).or
      (if S "when" = k then o.when_.map .str else none))).or
      (if S "capture" = k then o.capture.map .str else none))).or
      (if S "long_opt_arg_sep" = k then sepVal o.longSep else none)) := by
  unfold optEntries optionToDict
  simp only [getKey_append, getKey_entry, getKey_single]

theorem posEntries_get (p : Pos) (k : Str) : getKey (posEntries p) k =
    (((((((((((((((if S "number" = k then some (Val.int p.number) else none)).or
      (if S "metavar" = k then p.metavar.map .str else none))).or
      (if S "help" = k then p.help.map .str else none))).or
      (if S "repeatable" = k then trueVal p.repeatable else none))).or
      (if S "complete" = k then listVal (some p.complete) else none))).or
      (if S "nosort" = k then trueVal p.nosort else none))).or
      (if S "when" = k then p.when_.map .str else none))).or
      (if S "capture" = k then p.capture.map .str else none)) := by
  unfold posEntries positionalToDict
  simp only [getKey_append, getKey_entry, getKey_single]

/-- Writing the option and reading it back. -/
theorem readOption_optionToDict (o : Opt) (hc : o.check = true) (hcomp : o.complete ≠ some []) :
    readOption (optionToDict o) = .ok o := by
  have he : optionToDict o = .dict (optEntries o) := rfl
  rw [he]
  unfold readOption
  simp only [asDict, bind, Except.bind]
  have hk := optEntries_get o
  generalize hd : optEntries o = d at hk
  unfold optEntries optionToDict at hd
  rw [validateKeys_ok d _ (by
    rw [← hd]
    simp only [List.all_append, Bool.and_eq_true]
    refine ⟨⟨⟨⟨⟨⟨⟨⟨⟨⟨⟨⟨rfl, ?_⟩, ?_⟩, ?_⟩, ?_⟩, ?_⟩, ?_⟩, ?_⟩, ?_⟩, ?_⟩, ?_⟩, ?_⟩, ?_⟩ <;>
      exact entry_all _ _ _ (by decide))]
  rw [readStrs_of (x := some o.strings) (by rw [hk]; rfl)]
  simp only
  rw [readStr_of (x := o.metavar) (by rw [hk]; cases o.metavar <;> rfl)]
  simp only
  rw [readStr_of (x := o.help) (by rw [hk]; cases o.help <;> rfl)]
  simp only
  rw [readList_of (x := o.complete) hcomp (by
    rw [hk]; unfold listVal; cases o.complete with | none => rfl | some l => cases l <;> rfl)]
  simp only
  rw [readStrs_of (x := o.groups) (by rw [hk]; cases o.groups <;> rfl)]
  simp only
  rw [readBool_of (x := o.optionalArg) (by rw [hk]; cases o.optionalArg <;> rfl)]
  simp only
  rw [readExt_of (x := o.repeatable) (by rw [hk]; cases o.repeatable <;> rfl)]
  simp only
  rw [readBool_of (x := o.final) (by rw [hk]; cases o.final <;> rfl)]
  simp only
  rw [readBool_of (x := o.hidden) (by rw [hk]; cases o.hidden <;> rfl)]
  simp only
  rw [readBool_of (x := o.nosort) (by rw [hk]; cases o.nosort <;> rfl)]
  simp only
  rw [readStr_of (x := o.when_) (by rw [hk]; cases o.when_ <;> rfl)]
  simp only
  rw [readStr_of (x := o.capture) (by rw [hk]; cases o.capture <;> rfl)]
  simp only
  rw [readSep_of (x := o.longSep) (by rw [hk]; cases o.longSep <;> rfl)]
  simp only [Option.getD_some]
  unfold Opt.init
  rw [if_pos hc]

/-- Writing the positional and reading it back. -/
theorem readPositional_positionalToDict (p : Pos) (hp : Pos.init p = .ok p) :
    readPositional (positionalToDict p) = .ok p := by
  have hne : p.complete ≠ [] := by
    intro he
    unfold Pos.init at hp
    split at hp
    · rw [he] at hp
      simp only [Except.ok.injEq] at hp
      have := congrArg Pos.complete hp
      rw [he] at this
      simp at this
    · cases hp
  have he : positionalToDict p = .dict (posEntries p) := rfl
  rw [he]
  unfold readPositional
  simp only [asDict, bind, Except.bind]
  have hk := posEntries_get p
  generalize hd : posEntries p = d at hk
  unfold posEntries positionalToDict at hd
  rw [validateKeys_ok d _ (by
    rw [← hd]
    simp only [List.all_append, Bool.and_eq_true]
    refine ⟨⟨⟨⟨⟨⟨⟨rfl, ?_⟩, ?_⟩, ?_⟩, ?_⟩, ?_⟩, ?_⟩, ?_⟩ <;>
      exact entry_all _ _ _ (by decide))]
  have hn : readNumber d (S "number") = .ok p.number := by
    unfold readNumber
    have : getKey d (S "number") = some (.int p.number) := by rw [hk]; rfl
    rw [this]; rfl
  rw [hn]
  simp only
  rw [readStr_of (x := p.metavar) (by rw [hk]; cases p.metavar <;> rfl)]
  simp only
  rw [readStr_of (x := p.help) (by rw [hk]; cases p.help <;> rfl)]
  simp only
  rw [readList_of (x := some p.complete) (by simpa using hne) (by
    rw [hk]; unfold listVal; cases p.complete <;> rfl)]
  simp only
  rw [readBool_of (x := p.repeatable) (by rw [hk]; cases p.repeatable <;> rfl)]
  simp only
  rw [readBool_of (x := p.nosort) (by rw [hk]; cases p.nosort <;> rfl)]
  simp only
  rw [readStr_of (x := p.when_) (by rw [hk]; cases p.when_ <;> rfl)]
  simp only
  rw [readStr_of (x := p.capture) (by rw [hk]; cases p.capture <;> rfl)]
  simp only [Option.getD_some]
  exact hp

theorem readAll_map {α} (f : Val → Except Err α) (g : α → Val) (l : List α)
    (h : ∀ x ∈ l, f (g x) = .ok x) : readAll f (l.map g) = .ok l := by
  induction l with
  | nil => rfl
  | cons x xs ih =>
    simp only [List.map_cons, readAll, h x (by simp), ih (fun y hy => h y (by simp [hy]))]
    rfl

theorem readItems_of {d : List (Key × Val)} {k : Str} {l : List Val}
    (h : getKey d k = listVal (some l)) : readItems d k = .ok l := by
  unfold readItems; rw [h]; cases l <;> rfl

/-- The entries written for a command. -/
def cmdEntries (path : Str) (d : CmdData) : List (Key × Val) :=
  match cmdToDict path d with | .dict e => e | _ => []

theorem cmdToDict_eq (path : Str) (d : CmdData) : cmdToDict path d = .dict (cmdEntries path d) := rfl

theorem cmdEntries_get (path : Str) (d : CmdData) (k : Str) : getKey (cmdEntries path d) k =
    ((((((((if S "prog" = k then some (Val.str path) else none).or
      (if S "aliases" = k then listVal (some (d.aliases.map .str)) else none)).or
      (if S "help" = k then d.help.map .str else none)).or
      (if S "wraps" = k then d.wraps.map .str else none)).or
      (if S "abbreviate_commands" = k then extVal d.abbreviateCommands else none)).or
      (if S "abbreviate_options" = k then extVal d.abbreviateOptions else none)).or
      (if S "inherit_options" = k then extVal d.inheritOptions else none)).or
      (if S "options" = k then listVal (some (d.options.map optionToDict)) else none)).or
      (if S "positionals" = k then listVal (some (d.positionals.map positionalToDict)) else none) := by
  unfold cmdEntries cmdToDict
  simp only [getKey_append, getKey_entry, getKey_single]

/-- Writing the attributes of a command and reading them back. -/
theorem dictToCmd_cmdEntries (path : Str) (d : CmdData) (hc : d.check = true)
    (ho : ∀ o ∈ d.options, o.check = true ∧ o.complete ≠ some [])
    (hp : ∀ p ∈ d.positionals, Pos.init p = .ok p) :
    dictToCmd (cmdEntries path d) d.prog = .ok d := by
  have hk := cmdEntries_get path d
  have hv : (cmdEntries path d).all (keyAllowed [S "prog", S "help", S "aliases", S "wraps",
      S "abbreviate_commands", S "abbreviate_options", S "inherit_options", S "options",
      S "positionals"]) = true := by
    unfold cmdEntries cmdToDict
    simp only [List.all_append, Bool.and_eq_true]
    refine ⟨⟨⟨⟨⟨⟨⟨⟨rfl, ?_⟩, ?_⟩, ?_⟩, ?_⟩, ?_⟩, ?_⟩, ?_⟩, ?_⟩ <;>
      exact entry_all _ _ _ (by decide)
  unfold dictToCmd
  simp only [bind, Except.bind]
  generalize cmdEntries path d = e at hk hv ⊢
  rw [validateKeys_ok e _ hv]
  simp only
  rw [readItems_of (l := d.options.map optionToDict) (by rw [hk]; cases d.options <;> rfl)]
  simp only
  rw [readItems_of (l := d.positionals.map positionalToDict) (by rw [hk]; cases d.positionals <;> rfl)]
  simp only
  rw [readStr_of (x := d.help) (by rw [hk]; cases d.help <;> rfl)]
  simp only
  obtain ⟨r, hr, hra⟩ := readStrs_of' (d := e) (k := S "aliases") (x := d.aliases)
    (by rw [hk]; cases d.aliases <;> rfl)
  rw [hr]
  simp only
  rw [readStr_of (x := d.wraps) (by rw [hk]; cases d.wraps <;> rfl)]
  simp only
  rw [readExt_of (x := d.abbreviateCommands) (by rw [hk]; cases d.abbreviateCommands <;> rfl)]
  simp only
  rw [readExt_of (x := d.abbreviateOptions) (by rw [hk]; cases d.abbreviateOptions <;> rfl)]
  simp only
  rw [readExt_of (x := d.inheritOptions) (by rw [hk]; cases d.inheritOptions <;> rfl)]
  simp only
  rw [readAll_map readOption optionToDict d.options
    (fun o h => readOption_optionToDict o (ho o h).1 (ho o h).2)]
  simp only
  rw [readAll_map readPositional positionalToDict d.positionals
    (fun p h => readPositional_positionalToDict p (hp p h))]
  simp only [hra]
  rw [if_pos hc]

theorem fixOption_optionToDict (o : Opt) : fixOption (optionToDict o) = optionToDict o := by
  have he : optionToDict o = .dict (optEntries o) := rfl
  rw [he]
  unfold fixOption
  have : getKey (optEntries o) (S "group") = none := by
    unfold optEntries optionToDict
    simp only [getKey_append, getKey_entry, getKey_single]
    rfl
  simp only [this]

theorem setKey_same_value (d : List (Key × Val)) (k : Str) (v : Val) (h : getKey d k = some v) :
    setKey d (.str k) v = d := by
  induction d with
  | nil => simp [getKey] at h
  | cons e d ih =>
    obtain ⟨k', v'⟩ := e
    rw [getKey_cons] at h
    simp only [setKey]
    by_cases hk : k' = .str k
    · rw [if_pos hk] at h ⊢
      simp only [Option.some.injEq] at h
      rw [← h, hk]
    · rw [if_neg hk] at h ⊢
      rw [ih h]

theorem fixCommandline_cmdToDict (path : Str) (d : CmdData) :
    fixCommandline (cmdToDict path d) = cmdToDict path d := by
  rw [cmdToDict_eq]
  unfold fixCommandline
  have hk := cmdEntries_get path d (S "options")
  cases ho : d.options with
  | nil =>
    have : getKey (cmdEntries path d) (S "options") = none := by rw [hk, ho]; rfl
    simp only [this]
  | cons o os =>
    have h1 : getKey (cmdEntries path d) (S "options") = some (.list ((o :: os).map optionToDict)) := by
      rw [hk, ho]; rfl
    simp only [h1]
    have h2 : ((o :: os).map optionToDict).map fixOption = (o :: os).map optionToDict := by
      rw [List.map_map]
      apply List.map_congr_left
      intro x _
      exact fixOption_optionToDict x
    rw [h2, setKey_same_value _ _ _ h1]

theorem checkProg_cmdToDict (ws : List Str) (hne : ws ≠ []) (h : ∀ w ∈ ws, IsWord w) (d : CmdData) :
    checkProg (cmdToDict (joinWith [' '] ws) d) = .ok (cmdEntries (joinWith [' '] ws) d, ws) := by
  rw [cmdToDict_eq]
  unfold checkProg
  have : getKey (cmdEntries (joinWith [' '] ws) d) (S "prog") = some (.str (joinWith [' '] ws)) := by
    rw [cmdEntries_get]; rfl
  simp only [this, validProg_join ws hne h, if_true, splitWs_join ws h]

end CC
