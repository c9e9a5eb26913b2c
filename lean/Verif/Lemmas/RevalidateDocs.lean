import Verif.Lemmas.RevalidateTree
import Verif.Props.Loading
/-!
# Lemmas: what was accepted and imported is accepted again
-/

namespace CC

/-! ## Reading one attribute -/

theorem readStr_inv {d : List (Key × Val)} {k : Str} {s : Str} (h : readStr? d k = .ok (some s)) :
    getKey d k = some (.str s) := by
  unfold readStr? at h
  split at h <;> simp_all

theorem readBool_inv {d : List (Key × Val)} {k : Str} (h : readBool d k = .ok true) :
    getKey d k = some (.bool true) := by
  unfold readBool at h
  split at h <;> simp_all

theorem readBool_false {d : List (Key × Val)} {k : Str} (h : readBool d k = .ok false) :
    getKey d k = none ∨ getKey d k = some (.bool false) := by
  unfold readBool at h
  split at h <;> simp_all

theorem readList_inv {d : List (Key × Val)} {k : Str} {r : Option (List Val)} (h : readList? d k = .ok r) :
    (r = none ∧ ¬ Doc.Given d k) ∨ ∃ l, r = some l ∧ getKey d k = some (.list l) := by
  unfold readList? at h
  unfold Doc.Given
  split at h <;> simp_all

theorem readNumber_inv {d : List (Key × Val)} {k : Str} {n : Nat} (h : readNumber d k = .ok n) :
    ∃ v i, getKey d k = some v ∧ numOf v = some i ∧ n = i.toNat := by
  unfold readNumber at h
  split at h
  · rename_i i hi
    simp only [Except.ok.injEq] at h
    exact ⟨_, i, hi, rfl, h.symm⟩
  · rename_i b hb
    simp only [Except.ok.injEq] at h
    refine ⟨_, _, hb, rfl, ?_⟩
    cases b <;> simp_all
  · cases h

theorem readAll_mem {α} {f : Val → Except Err α} {l : List Val} {xs : List α} (h : readAll f l = .ok xs) :
    ∀ x ∈ xs, ∃ v ∈ l, f v = .ok x := by
  induction l generalizing xs with
  | nil => simp only [readAll, Except.ok.injEq] at h; subst h; simp
  | cons v l ih =>
    simp only [readAll, except_bind_ok] at h
    obtain ⟨x, h1, xs', h2, h3⟩ := h
    simp only [Except.ok.injEq] at h3
    subst h3
    intro y hy
    rcases List.mem_cons.1 hy with rfl | hy
    · exact ⟨v, by simp, h1⟩
    · obtain ⟨w, hw, h4⟩ := ih h2 y hy
      exact ⟨w, by simp [hw], h4⟩

/-! ## Options -/

theorem option_again (env : ValEnv) (ctx : ValCtx) (v : Val) (x : Opt) (h : checkOption env ctx v = .ok ())
    (hr : readOption (fixOption v) = .ok x) : OptAccepted env x := by
  rw [checkOption, handle_ok] at h
  cases v with
  | dict o =>
    obtain ⟨o', he, _, _, hf⟩ := C30_fix_option o
    rw [he] at hr
    have hf' : o'.filter (fun e => (fun k => decide (k ≠ Key.str (S "group") ∧ k ≠ .str (S "groups"))) e.1) =
        o.filter (fun e => (fun k => decide (k ≠ Key.str (S "group") ∧ k ≠ .str (S "groups"))) e.1) := hf
    have get : ∀ k, k ≠ S "group" → k ≠ S "groups" → getKey o' k = getKey o k := by
      intro k h1 h2
      exact getKey_congr (p := fun k => decide (k ≠ Key.str (S "group") ∧ k ≠ .str (S "groups"))) (by simp [h1, h2]) hf'
    rw [option0_iff] at h
    obtain ⟨_, _, hmeta, hoa, _, _, _, ⟨hcomp, hwhen, _⟩, _⟩ := h
    rw [checkCompleteAttr_iff] at hcomp
    rw [checkWhenAttr_iff] at hwhen
    unfold readOption at hr
    simp only [except_bind_ok, except_unit_bind_ok, asDict, Except.ok.injEq, exists_eq_left'] at hr
    obtain ⟨_, _, strings, _, metavar, e2, help, _, complete, e4, groups, _, optionalArg, e6, repeatable, _, final, _,
      hidden, _, nosort, _, when_, e11, capture, _, longSep, _, hi⟩ := hr
    obtain ⟨rfl, hck⟩ := optInit_ok hi
    have hgiven : Doc.Given o (S "complete") → complete.isSome = true := by
      intro hg
      rcases readList_inv e4 with ⟨_, hng⟩ | ⟨l, rfl, _⟩
      · unfold Doc.Given at hng hg
        rw [get _ (by decide) (by decide)] at hng
        exact absurd hg hng
      · rfl
    simp only [Opt.check, Bool.and_eq_true, List.all_eq_true, Bool.not_eq_true', List.isEmpty_eq_false_iff] at hck
    obtain ⟨⟨⟨⟨⟨c1, c2⟩, c3⟩, _⟩, _⟩, c6⟩ := hck
    refine ⟨⟨c1, c2⟩, fun hm => ?_, fun ho => ?_, ?_, fun c hc => ?_, fun s hs => ?_, fun s hs => ?_⟩
    · obtain ⟨m, hm⟩ := Option.isSome_iff_exists.1 hm
      simp only at hm
      subst hm
      have := readStr_inv e2
      rw [get _ (by decide) (by decide)] at this
      exact hgiven (hmeta ⟨_, this, by simp⟩)
    · simp only at ho
      subst ho
      have := readBool_inv e6
      rw [get _ (by decide) (by decide)] at this
      exact hgiven (hoa this)
    · rintro ⟨r1, r2⟩
      simp only at r1 r2
      subst r1 r2
      simp at c6
    · simp only at hc
      subst hc
      rcases readList_inv e4 with ⟨h0, _⟩ | ⟨l, h0, hl⟩
      · cases h0
      · cases h0
        rw [get _ (by decide) (by decide)] at hl
        obtain ⟨t, ht⟩ := hcomp c hl
        exact ⟨t, complete_ctx env _ _ (noPositional _ _) _ _ _ ht⟩
    · simp only at hs
      subst hs
      have := readStr_inv e11
      rw [get _ (by decide) (by decide)] at this
      obtain ⟨s', toks, e, h'⟩ := hwhen _ this (by simp)
      cases e
      exact ⟨toks, h'⟩
    · simp only at hs
      subst hs
      exact c3
  | _ => simp [checkOption0, checkDictionary, bind, Except.bind] at h

/-! ## Positionals -/

/-- What is read from a positional. -/
theorem readPositional_inv {o : List (Key × Val)} {x : Pos} (h : readPositional (.dict o) = .ok x) :
    (∃ v i, getKey o (S "number") = some v ∧ numOf v = some i ∧ x.number = i.toNat) ∧
    ((x.complete = [.str (S "none")] ∧ (¬ Doc.Given o (S "complete") ∨ getKey o (S "complete") = some (.list []))) ∨
      (x.complete ≠ [] ∧ getKey o (S "complete") = some (.list x.complete))) ∧
    (x.repeatable = true → getKey o (S "repeatable") = some (.bool true)) ∧
    (x.repeatable = false → getKey o (S "repeatable") = none ∨ getKey o (S "repeatable") = some (.bool false)) ∧
    (∀ s, x.when_ = some s → getKey o (S "when") = some (.str s)) ∧
    (∀ s, x.capture = some s → getKey o (S "capture") = some (.str s)) ∧ Pos.init x = .ok x := by
  unfold readPositional at h
  simp only [except_bind_ok, except_unit_bind_ok, asDict, Except.ok.injEq, exists_eq_left'] at h
  obtain ⟨_, _, number, e1, metavar, _, help, _, complete, e4, repeatable, e5, nosort, _, when_, e7, capture, e8, hi⟩ := h
  have hidem := posInit_idem hi
  unfold Pos.init at hi
  split at hi
  · simp only [Except.ok.injEq] at hi
    subst hi
    refine ⟨readNumber_inv e1, ?_, ?_, ?_, ?_, ?_, hidem⟩
    · rcases readList_inv e4 with ⟨rfl, hn⟩ | ⟨l, rfl, hl⟩
      · exact .inl ⟨rfl, .inl hn⟩
      · cases l with
        | nil => exact .inl ⟨rfl, .inr hl⟩
        | cons a l => exact .inr ⟨by simp, hl⟩
    · intro hr
      simp only at hr
      subst hr
      exact readBool_inv e5
    · intro hr
      simp only at hr
      subst hr
      exact readBool_false e5
    · intro s hs
      simp only at hs
      subst hs
      exact readStr_inv e7
    · intro s hs
      simp only at hs
      subst hs
      exact readStr_inv e8
  · cases hi

theorem commandBefore_again (n n' : Option Val) (hn : n.bind numOf = n'.bind numOf) (o : List (Key × Val)) (x : Pos)
    (hx : readPositional (.dict o) = .ok x) (hpos : ∃ v i, getKey o (S "number") = some v ∧ Doc.Integer v i ∧ 1 ≤ i)
    (b : Bool) (h : commandBefore n (.dict o) = .ok b) :
    commandBefore n' (.dict (positionalEntries x)) = .ok b := by
  obtain ⟨⟨v, i, hv, hi, hnum⟩, hcomp, _⟩ := readPositional_inv hx
  obtain ⟨v', i', hv', hi', hge⟩ := hpos
  rw [hv] at hv'
  cases hv'
  rw [integer_numOf, hi] at hi'
  cases hi'
  have a1 : getKey (positionalEntries x) (S "number") = some (.int x.number) := rfl
  have a2 : getKey (positionalEntries x) (S "complete") = some (.list x.complete) := rfl
  have a3 : hasSet (.dict (positionalEntries x)) (S "complete") = .ok true := rfl
  have hxi : (x.number : Int) = i := by omega
  unfold commandBefore at h ⊢
  rw [a3]
  simp only [hasSet, except_bind_ok] at h
  obtain ⟨set, hset, h⟩ := h
  simp only [Except.ok.injEq] at hset
  simp only [a1, a2, Option.getD_some, except_bind_ok, Except.ok.injEq, exists_eq_left', if_true]
  rcases hcomp with ⟨hc, hd⟩ | ⟨hne, hd⟩
  · -- no completer given
    rw [hc]
    rcases hd with hd | hd
    · have : set = false := by
        rw [← hset]
        cases hs : isSet o (S "complete") with
        | false => rfl
        | true => exact absurd ((isSet_iff _ _).1 hs) hd
      subst this
      simp only [Bool.false_eq_true, if_false, Except.ok.injEq] at h
      subst h
      exact ⟨false, by rfl, by simp⟩
    · have : set = true := by
        rw [← hset, isSet_iff]
        exact ⟨_, hd, by simp⟩
      subst this
      simp [hd, firstIsCommand, bind, Except.bind] at h
  · have : set = true := by
      rw [← hset, isSet_iff]
      exact ⟨_, hd, by simp⟩
    subst this
    simp only [if_true, hd, Option.getD_some, except_bind_ok] at h
    obtain ⟨f, hf, h⟩ := h
    refine ⟨f, hf, ?_⟩
    cases f with
    | false => simpa using h
    | true =>
      simp only [if_true, hv] at h ⊢
      cases v with
      | float t => simp [numOf] at hi
      | int j =>
        simp only [numOf, Option.some.injEq] at hi
        subst hi
        simp only [numOf] at h ⊢
        rw [← hn, hxi]
        exact h
      | bool c =>
        simp only [numOf, Option.some.injEq] at hi
        simp only [numOf] at h ⊢
        rw [← hn, hxi, ← hi]
        exact h
      | none => simp [numOf] at hi
      | str s => simp [numOf] at hi
      | list l => simp [numOf] at hi
      | dict d => simp [numOf] at hi

theorem anyCommandBefore_again (n n' : Option Val) (hn : n.bind numOf = n'.bind numOf) (vs : List Val) (xs : List Pos)
    (hx : readAll readPositional vs = .ok xs)
    (hpos : ∀ v ∈ vs, ∃ o, v = .dict o ∧ ∃ w i, getKey o (S "number") = some w ∧ Doc.Integer w i ∧ 1 ≤ i)
    (b : Bool) (h : anyCommandBefore n vs = .ok b) :
    anyCommandBefore n' (xs.map (fun q => .dict (positionalEntries q))) = .ok b := by
  induction vs generalizing xs with
  | nil =>
    simp only [readAll, Except.ok.injEq] at hx
    subst hx
    exact h
  | cons v vs ih =>
    simp only [readAll, except_bind_ok, Except.ok.injEq] at hx
    obtain ⟨x, h1, xs', h2, rfl⟩ := hx
    obtain ⟨o, rfl, hp⟩ := hpos v (by simp)
    simp only [anyCommandBefore, except_bind_ok] at h
    obtain ⟨c, hc, h⟩ := h
    simp only [List.map_cons, anyCommandBefore, except_bind_ok]
    refine ⟨c, commandBefore_again n n' hn o x h1 hp c hc, ?_⟩
    cases c with
    | true => exact h
    | false =>
      simp only [Bool.false_eq_true, if_false] at h ⊢
      exact ih xs' h2 (fun w hw => hpos w (by simp [hw])) h

theorem positional_again (env : ValEnv) (d : List (Key × Val)) (vs : List Val) (xs : List Pos)
    (hd : getKey d (S "positionals") = some (.list vs)) (hxs : readAll readPositional vs = .ok xs)
    (hall : ∀ v ∈ vs, checkPositional env { definition := d } v = .ok ()) (v : Val) (hv : v ∈ vs) (x : Pos)
    (hx : readPositional v = .ok x) : PosAccepted env xs x := by
  have hpos : ∀ v ∈ vs, ∃ o, v = .dict o ∧ ∃ w i, getKey o (S "number") = some w ∧ Doc.Integer w i ∧ 1 ≤ i := by
    intro v hv
    have h := hall v hv
    rw [checkPositional, handle_ok] at h
    cases v with
    | dict o =>
      unfold checkPositional0 at h
      simp only [except_unit_bind_ok, checkPosNumber_ok] at h
      exact ⟨o, rfl, h.2.1⟩
    | _ => simp [checkPositional0, checkDictionary, bind, Except.bind] at h
  have h := hall v hv
  obtain ⟨o, rfl, w, i, hw, hwi, hge⟩ := hpos v hv
  rw [checkPositional, handle_ok] at h
  unfold checkPositional0 at h
  simp only [except_unit_bind_ok] at h
  obtain ⟨_, _, hcomp, hwhen, hcap⟩ := h
  rw [checkCompleteAttr_iff] at hcomp
  rw [checkWhenAttr_iff] at hwhen
  rw [checkCaptureAttr_iff] at hcap
  obtain ⟨⟨w', i', hw', hi', hnum⟩, hc, hr1, hr2, h7, h8, _⟩ := readPositional_inv hx
  rw [hw] at hw'
  cases hw'
  rw [integer_numOf, hi'] at hwi
  cases hwi
  refine ⟨by omega, ?_, fun s hs => ?_, fun s hs => ?_⟩
  · rcases hc with ⟨hc, hg⟩ | ⟨_, hg⟩
    · refine ⟨[], ?_⟩
      rw [hc]
      simp [checkComplete, checkSimple, voidCompleters, checkNone, need, bind, Except.bind, S]
    · obtain ⟨t, ht⟩ := hcomp _ hg
      refine ⟨t, complete_ctx env _ _ ?_ _ _ _ ht⟩
      intro tr args hca
      have a1 : getKey (positionalEntries x) (S "number") = some (.int x.number) := rfl
      have a2 : getKey (positionalEntries x) (S "repeatable") = some (.bool x.repeatable) := rfl
      have a3 : isSet (positionalEntries x) (S "repeatable") = true := rfl
      have a4 : getKey (posCtx xs x).definition (S "positionals") =
        some (.list (xs.map (fun q => .dict (positionalEntries q)))) := rfl
      have a5 : (posCtx xs x).positional = some (positionalEntries x) := rfl
      unfold checkCommandArg at hca ⊢
      simp only [a1, a2, a3, a4, a5, hd, except_unit_bind_ok, except_bind_ok, need_ok, Bool.true_and, Bool.and_eq_true,
        decide_eq_true_eq] at hca ⊢
      obtain ⟨_, g1, _, g2, _, g3, b, g5, g6⟩ := hca
      rw [need_ok, Bool.and_eq_true, decide_eq_true_eq] at g3
      obtain ⟨g3, g4⟩ := g3
      refine ⟨_, g1, _, g2, (), ?_, b, ?_, g6⟩
      · rw [need_ok, decide_eq_true_eq]
        cases hr : x.repeatable with
        | true => simp
        | false =>
          rcases hr2 hr with h0 | h0
          · obtain ⟨v, hv, _⟩ := (isSet_iff _ _).1 g3
            rw [h0] at hv
            cases hv
          · exact absurd h0 g4
      · refine anyCommandBefore_again _ _ ?_ vs xs hxs hpos b g5
        rw [hw]
        show numOf w = some (x.number : Int)
        rw [hi', hnum]
        congr 1
        omega
  · obtain ⟨s', toks, e, h'⟩ := hwhen _ (h7 s hs) (by simp)
    cases e
    exact ⟨toks, h'⟩
  · obtain ⟨s', e, h'⟩ := hcap _ (h8 s hs) (by simp)
    cases e
    exact h'

/-! ## Definitions -/

theorem asStrs_inv {l : List Val} {ss : List Str} (h : asStrs l = .ok ss) : l = ss.map .str := by
  induction l generalizing ss with
  | nil => simp only [asStrs, Except.ok.injEq] at h; subst h; rfl
  | cons v l ih =>
    cases v with
    | str s =>
      simp only [asStrs, except_bind_ok, Except.ok.injEq] at h
      obtain ⟨ss', h1, rfl⟩ := h
      rw [ih h1]; rfl
    | _ => simp [asStrs] at h

theorem readStrs_inv {d : List (Key × Val)} {k : Str} {r : Option (List Str)} (h : readStrs? d k = .ok r) :
    r = none ∨ ∃ ss, r = some ss ∧ getKey d k = some (.list (ss.map .str)) := by
  unfold readStrs? at h
  simp only [except_bind_ok] at h
  obtain ⟨l, h1, h2⟩ := h
  rcases readList_inv h1 with ⟨rfl, _⟩ | ⟨l, rfl, hl⟩
  · simp only [Except.ok.injEq] at h2
    exact .inl h2.symm
  · simp only [except_bind_ok, Except.ok.injEq] at h2
    obtain ⟨ss, h3, rfl⟩ := h2
    exact .inr ⟨ss, rfl, by rw [hl, asStrs_inv h3]⟩

theorem readItems_inv {d : List (Key × Val)} {k : Str} {l : List Val} (h : readItems d k = .ok l) :
    (l = [] ∧ getKey d k = none) ∨ getKey d k = some (.list l) := by
  unfold readItems at h
  split at h <;> simp_all

theorem dictToCmd_inv {e : List (Key × Val)} {n : Str} {d : CmdData} (h : dictToCmd e n = .ok d) :
    (∃ os, readItems e (S "options") = .ok os ∧ readAll readOption os = .ok d.options) ∧
    (∃ ps, readItems e (S "positionals") = .ok ps ∧ readAll readPositional ps = .ok d.positionals) ∧
    (∃ al, readStrs? e (S "aliases") = .ok al ∧ d.aliases = al.getD []) ∧ readStr? e (S "wraps") = .ok d.wraps ∧
    d.check = true := by
  unfold dictToCmd at h
  simp only [except_bind_ok] at h
  obtain ⟨_, _, os, h1, ps, h2, _, _, al, h3, wraps, h4, _, _, _, _, _, _, options, h5, positionals, h6, h⟩ := h
  split at h
  · rename_i hc
    simp only [Except.ok.injEq] at h
    subst h
    exact ⟨⟨os, h1, h5⟩, ⟨ps, h2, h6⟩, ⟨al, h3, rfl⟩, h4, hc⟩
  · cases h

theorem readPositional_dict {v : Val} {x : Pos} (h : readPositional v = .ok x) : ∃ o, v = .dict o := by
  cases v with
  | dict o => exact ⟨o, rfl⟩
  | _ => simp [readPositional, asDict, bind, Except.bind] at h

theorem readOption_check {v : Val} {x : Opt} (h : readOption v = .ok x) : x.check = true := by
  unfold readOption at h
  simp only [except_bind_ok] at h
  obtain ⟨_, _, _, _, _, _, _, _, _, _, _, _, _, _, _, _, _, _, _, _, _, _, _, _, _, _, _, _, _, _, hi⟩ := h
  obtain ⟨rfl, hck⟩ := optInit_ok hi
  exact hck

theorem definition_again (env : ValEnv) (d0 d' : List (Key × Val)) (n s : Str) (d : CmdData)
    (hs : getKey d0 (S "prog") = some (.str s)) (h : checkDefinition env d0 = .ok ())
    (hf : fixCommandline (.dict d0) = .dict d') (hr : dictToCmd d' n = .ok d) : CmdAccepted env s d := by
  obtain ⟨d'', he, ho, hsame, hfil⟩ := C30_fix_commandline d0
  rw [he] at hf
  cases hf
  have hfil' : d'.filter (fun e => (fun k => decide (k ≠ Key.str (S "options"))) e.1) =
      d0.filter (fun e => (fun k => decide (k ≠ Key.str (S "options"))) e.1) := hfil
  have get : ∀ k, k ≠ S "options" → getKey d' k = getKey d0 k := fun k h1 =>
    getKey_congr (p := fun k => decide (k ≠ Key.str (S "options"))) (by simp [h1]) hfil'
  obtain ⟨⟨os, r1, r2⟩, ⟨ps, r3, r4⟩, ⟨al, r5, r6⟩, r7, _⟩ := dictToCmd_inv hr
  unfold checkDefinition at h
  simp only [except_unit_bind_ok, checkListAttr_ok, checkWord_ok, need_ok] at h
  obtain ⟨_, h1, h2, h3, h4, h5⟩ := h
  rw [checkWraps_ok d0 s hs] at h3
  have hstr : strKey d0 (S "prog") = s := by simp [strKey, hs]
  rw [hstr] at h1
  refine ⟨h1, fun a ha => ?_, fun w hw => ?_, fun o ho' => ?_, fun p hp => ?_⟩
  · rw [r6] at ha
    rcases readStrs_inv r5 with rfl | ⟨ss, rfl, hl⟩
    · simp at ha
    · rw [get _ (by decide)] at hl
      exact h2 _ hl _ (List.mem_map.2 ⟨a, ha, rfl⟩)
  · rw [hw] at r7
    have := readStr_inv r7
    rw [get _ (by decide)] at this
    obtain ⟨g1, g2, g3⟩ := h3 _ this (by simp)
    exact ⟨g1, g2, g3 _ hs⟩
  · obtain ⟨v, hv, hx⟩ := readAll_mem r2 o ho'
    cases hg : getKey d0 (S "options") with
    | none =>
      have : d' = d0 := hsame (fun os h => by rw [hg] at h; simp at h)
      rw [this, readItems, hg] at r1
      simp only [Except.ok.injEq] at r1
      subst r1
      simp at hv
    | some w =>
      cases w with
      | list l =>
        rw [readItems, ho l hg] at r1
        simp only [Except.ok.injEq] at r1
        subst r1
        obtain ⟨w, hw, rfl⟩ := List.mem_map.1 hv
        exact option_again env _ w o (h4 l hg w hw) hx
      | _ =>
        have : d' = d0 := hsame (fun os h => by rw [hg] at h; simp at h)
        rw [this, readItems, hg] at r1
        cases r1
  · obtain ⟨v, hv, hx⟩ := readAll_mem r4 p hp
    rcases readItems_inv r3 with ⟨rfl, _⟩ | hg
    · simp at hv
    · rw [get _ (by decide)] at hg
      exact positional_again env d0 ps d.positionals hg r4 (h5 ps hg) v hv p hx

theorem repeat_again (paths : List (List Str)) (path : List Str) (d0 d' : List (Key × Val)) (n : Str) (d : CmdData)
    (h : RepeatOk paths path d0) (hf : fixCommandline (.dict d0) = .dict d') (hr : dictToCmd d' n = .ok d) :
    (∀ p ∈ d.positionals, ∀ q ∈ d.positionals, p.repeatable = true → q.number ≤ p.number) ∧
    ((∃ sub, path ++ [sub] ∈ paths) → ∀ p ∈ d.positionals, p.repeatable = false) := by
  obtain ⟨d'', he, _, _, hfil⟩ := C30_fix_commandline d0
  rw [he] at hf
  cases hf
  have hfil' : d'.filter (fun e => (fun k => decide (k ≠ Key.str (S "options"))) e.1) =
      d0.filter (fun e => (fun k => decide (k ≠ Key.str (S "options"))) e.1) := hfil
  have get : ∀ k, k ≠ S "options" → getKey d' k = getKey d0 k := fun k h1 =>
    getKey_congr (p := fun k => decide (k ≠ Key.str (S "options"))) (by simp [h1]) hfil'
  obtain ⟨_, ⟨ps, r3, r4⟩, _⟩ := dictToCmd_inv hr
  have key : ∀ p ∈ d.positionals, ∃ v ∈ ps, ∃ i : Int, Doc.NumberOf v i ∧ p.number = i.toNat ∧
      (p.repeatable = true → Doc.Repeats v) := by
    intro p hp
    obtain ⟨v, hv, hx⟩ := readAll_mem r4 p hp
    obtain ⟨o, rfl⟩ := readPositional_dict hx
    obtain ⟨⟨w, i, hw, hi, hn⟩, _, g1, _⟩ := readPositional_inv hx
    exact ⟨_, hv, i, ⟨o, w, rfl, hw, (integer_numOf _ _).2 hi⟩, hn, fun h => ⟨o, rfl, g1 h⟩⟩
  rcases readItems_inv r3 with ⟨rfl, _⟩ | hg
  · have : d.positionals = [] := by
      simp only [readAll, Except.ok.injEq] at r4
      exact r4.symm
    simp [this]
  · rw [get _ (by decide)] at hg
    obtain ⟨h1, h2⟩ := h ps hg
    refine ⟨fun p hp q hq hr => ?_, fun hs p hp => ?_⟩
    · obtain ⟨v, hv, i, hi, e1, hrep⟩ := key p hp
      obtain ⟨w, hw, j, hj, e2, _⟩ := key q hq
      have := h1 v hv w hw i j (hrep hr) hi hj
      omega
    · obtain ⟨v, hv, i, hi, e1, hrep⟩ := key p hp
      cases hr : p.repeatable with
      | false => rfl
      | true => exact absurd (hrep hr) (h2 hs v hv)

/-! ## The tree -/

/-- The definitions and what is read from them. -/
theorem defs_items {vs : List Val} {qs : List (List Str × List (Key × Val))} (hd : HaveDefs vs qs)
    {items : List (List Str × CmdData)} (hp : ParsedAll (vs.map fixCommandline) items)
    (hb : ∀ d, .dict d ∈ vs → BlanksOnly d) :
    items.map Prod.fst = qs.map Prod.fst ∧ ∀ p d, (p, d) ∈ items → ∃ s d0 d', (p, d0) ∈ qs ∧
      getKey d0 (S "prog") = some (.str s) ∧ validProg s = true ∧ p = splitOn ' ' s ∧
      fixCommandline (.dict d0) = .dict d' ∧ dictToCmd d' (p.getLastD []) = .ok d := by
  induction hd generalizing items with
  | nil =>
    cases hp
    simp
  | cons d0 s vs ps hk hv _ ih =>
    rw [List.map_cons] at hp
    cases hp with
    | cons hc hx hp' =>
      rename_i e p d items'
      obtain ⟨d', he, ho, hsame, hfil⟩ := C30_fix_commandline d0
      have hfil' : d'.filter (fun e => (fun k => decide (k ≠ Key.str (S "options"))) e.1) =
          d0.filter (fun e => (fun k => decide (k ≠ Key.str (S "options"))) e.1) := hfil
      have get : getKey d' (S "prog") = getKey d0 (S "prog") :=
        getKey_congr (p := fun k => decide (k ≠ Key.str (S "options"))) (by decide) hfil'
      rw [he] at hc
      simp only [checkProg, get, hk, hv, if_true, Except.ok.injEq, Prod.mk.injEq] at hc
      obtain ⟨rfl, rfl⟩ := hc
      obtain ⟨i1, i2⟩ := ih hp' (fun d hd => hb d (by simp [hd]))
      have hw := prog_words s hv (hb d0 (by simp) s hk)
      refine ⟨by simp [i1, hw], fun p d hm => ?_⟩
      rcases List.mem_cons.1 hm with hm | hm
      · cases hm
        exact ⟨s, d0, d', by simp [hw], hk, hv, hw, he, hx⟩
      · obtain ⟨s', e0, e', g1, g2⟩ := i2 p d hm
        exact ⟨s', e0, e', by simp [g1], g2⟩

theorem ok_of_at (c : Cmd) (h : ∀ a x, c.at a = some x → NodeOk x) : c.Ok := by
  induction c using Cmd.ind with
  | h d s ch ih =>
    rw [ok_iff]
    refine ⟨h [] _ rfl, fun x hx => ih x hx (fun a y hy => ?_)⟩
    obtain ⟨i, hi, he⟩ := List.getElem_of_mem hx
    refine h (i :: a) y ?_
    simp only [Cmd.children] at hi he
    simp only [Cmd.at]
    rw [List.getElem?_eq_getElem hi, he]
    exact hy

theorem parsed_dictToCmd {vs : List Val} {items : List (List Str × CmdData)} (h : ParsedAll vs items) :
    ∀ it ∈ items, ∃ e n, dictToCmd e n = .ok it.2 := by
  induction h with
  | nil => simp
  | cons hc hx _ ih =>
    intro it hit
    rcases List.mem_cons.1 hit with rfl | hit
    · exact ⟨_, _, hx⟩
    · exact ih it hit

/-- What is imported satisfies the checks of the constructors. -/
theorem import_ok (docs : List Val) (c : Cmd) (h : dictsToCmd docs = .ok c) : c.Ok ∧ c.copy = .ok c := by
  obtain ⟨items, r, h1, _⟩ := import_rep h
  obtain ⟨t1, t2, t3⟩ := C27_tree docs c h items h1
  have hok : c.Ok := by
    refine ok_of_at c (fun a x hx => ?_)
    obtain ⟨p, hp, _⟩ := namesAt_isSome c a x hx
    have hm := (t1 p x.data).2 ⟨a, x, hx, hp, rfl⟩
    obtain ⟨e, n, he⟩ := parsed_dictToCmd h1 _ hm
    obtain ⟨⟨os, _, r2⟩, ⟨ps, _, r4⟩, _, _, hck⟩ := dictToCmd_inv he
    refine ⟨hck, fun o ho => ?_, fun q hq => ?_, t3 a x hx, fun hs => ?_⟩
    · obtain ⟨v, _, hv⟩ := readAll_mem r2 o ho
      exact readOption_check hv
    · obtain ⟨v, _, hv⟩ := readAll_mem r4 q hq
      obtain ⟨o, rfl⟩ := readPositional_dict hv
      exact (readPositional_inv hv).2.2.2.2.2.2
    · obtain ⟨g1, g2, _⟩ := t2 a x p hx hp
      have := g2.1 hs
      rw [this] at g1
      simpa using g1
  refine ⟨hok, ?_⟩
  rw [copy_ok c hok, renumber_id c (fun a x hx => ?_)]
  obtain ⟨p, hp, _⟩ := namesAt_isSome c a x hx
  exact (t2 a x p hx hp).2.2

theorem at_of_namesAt (c : Cmd) (a : List Nat) (p : List Str) (h : c.namesAt a = some p) : ∃ x, c.at a = some x := by
  induction a generalizing c p with
  | nil => exact ⟨c, by simp [Cmd.at]⟩
  | cons i is ih =>
    cases c with
    | node d s ch =>
      simp only [Cmd.namesAt] at h
      simp only [Cmd.at]
      cases hi : ch[i]? with
      | none => rw [hi] at h; cases h
      | some ci =>
        rw [hi] at h
        simp only [Option.map_eq_some_iff] at h
        obtain ⟨q, hq, _⟩ := h
        exact ih ci q hq

/-- What was accepted and imported is accepted again. -/
theorem tree_again (env : ValEnv) (docs : List Val) (c : Cmd)
    (h : validate env (replaceDefinesInDocuments docs) = .ok ()) (hc : dictsToCmd docs = .ok c)
    (hb : ∀ d, .dict d ∈ replaceDefinesInDocuments docs → BlanksOnly d) :
    UniqueNames c ∧ PathsValid c ∧ ∀ a x p, c.at a = some x → c.namesAt a = some p → a.length ≤ 1 →
      CmdAccepted env (joinWith [' '] p) x.data ∧ RepeatAccepted x := by
  obtain ⟨qs, hd, _, _, hall⟩ := (validate_iff env _).1 h
  obtain ⟨items, r, h1, _⟩ := import_rep hc
  obtain ⟨t1, t2, t3⟩ := C27_tree docs c hc items h1
  obtain ⟨i1, i2⟩ := defs_items hd h1 hb
  refine ⟨t3, fun a p hp => ?_, fun a x p hx hp hl => ?_⟩
  · obtain ⟨x, hx⟩ := at_of_namesAt c a p hp
    obtain ⟨s, d0, d', _, _, g3, rfl, _⟩ := i2 p x.data ((t1 p x.data).2 ⟨a, x, hx, hp, rfl⟩)
    rw [join_splitOn]
    exact ⟨g3, fun n hn => splitOn_no_sep ' ' s n hn⟩
  · obtain ⟨s, d0, d', g1, g2, g3, hps, g4, g5⟩ := i2 p x.data ((t1 p x.data).2 ⟨a, x, hx, hp, rfl⟩)
    obtain ⟨ns, e1, e2⟩ := namesAt_isSome c a x hx
    rw [hp] at e1
    cases e1
    obtain ⟨k1, k2⟩ := hall p d0 g1 (by omega)
    have hj : joinWith [' '] p = s := by rw [hps, join_splitOn]
    rw [hj]
    obtain ⟨m1, m2⟩ := repeat_again _ _ _ _ _ _ k2 g4 g5
    refine ⟨definition_again env d0 d' _ s x.data g2 k1 g4 g5, m1, fun hne => m2 ?_⟩
    cases hch : x.children with
    | nil => exact absurd hch hne
    | cons y ys =>
      have := (t2 a x p hx hp).1
      rw [hch, List.map_cons] at this
      refine ⟨y.data.prog, ?_⟩
      have hin : y.data.prog ∈ kidsOf items p := by rw [← this]; simp
      rw [mem_kids items (parsed_ne h1)] at hin
      have i1' : items.map Prod.fst = qs.map (·.1) := i1
      rw [← i1']
      exact hin

end CC
