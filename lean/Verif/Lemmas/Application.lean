import Verif.Spec.ApplicationSpec
import Verif.Props.Extensions
/-!
# Lemmas about the application
-/

namespace CC

namespace App

theorem after_append (E : AppEnv) (w : Disk) (a b : List Act) : w.after E (a ++ b) = (w.after E a).after E b := List.foldl_append

theorem after_nil (E : AppEnv) (w : Disk) : w.after E [] = w := rfl

/-- A file with another content. -/
def setFile (w : Disk) (p : Str) (v : Option Str) : Disk := { w with files := fun q => if q = p then v else w.files q }

theorem setFile_set (w : Disk) (p : Str) (a b : Option Str) : setFile (setFile w p a) p b = setFile w p b := by
  unfold setFile
  simp only [Disk.mk.injEq, and_true]
  funext q
  by_cases h : q = p <;> simp [h]

theorem appends (E : AppEnv) (p : Str) : ∀ (s a : Str) (w : Disk), (setFile w p (some a)).after E (s.map (.append p)) = setFile w p (some (a ++ s))
  | [], a, w => by simp [Disk.after]
  | c :: s, a, w => by
    have h : (setFile w p (some a)).act E (.append p c) = setFile w p (some (a ++ [c])) := by
      show setFile (setFile w p (some a)) p (some (((setFile w p (some a)).files p).getD [] ++ [c])) = _
      rw [setFile_set]
      simp [setFile]
    have hm : (setFile w p (some a)).after E ((c :: s).map (.append p)) = ((setFile w p (some a)).act E (.append p c)).after E (s.map (.append p)) := rfl
    rw [hm, h, appends E p s (a ++ [c]) w]
    simp

theorem write_after (E : AppEnv) (p : Str) (s : Str) (w : Disk) : w.after E (.truncate p :: s.map (.append p)) = setFile w p (some s) :=
  appends E p s [] w

theorem next_ok {E : AppEnv} {α β : Type} {m : AppM α} {k : α → AppM β} {w : Disk} {a : α} (h : (m w).result = .ok a) :
    (AppM.next E m k w) = ⟨(m w).acts ++ (k a (w.after E (m w).acts)).acts, (k a (w.after E (m w).acts)).result⟩ := by
  unfold AppM.next; rw [h]

theorem next_error {E : AppEnv} {α β : Type} {m : AppM α} {k : α → AppM β} {w : Disk} {x : AppErr} (h : (m w).result = .error x) :
    (AppM.next E m k w) = ⟨(m w).acts, .error x⟩ := by
  unfold AppM.next; rw [h]

theorem give_next {E : AppEnv} {α β : Type} {r : Except AppErr α} {k : α → AppM β} {w : Disk} :
    AppM.next E (AppM.give r) k w = match r with | .ok a => k a w | .error x => ⟨[], .error x⟩ := by
  cases r <;> rfl

theorem read_next {E : AppEnv} {β : Type} {p : Str} {k : Str → AppM β} {w : Disk} :
    AppM.next E (readFile p) k w = match w.files p with | some s => k s w | none => ⟨[], .error .notFound⟩ := by
  unfold AppM.next readFile
  cases w.files p <;> rfl

/-! ## Extensions -/

theorem lower_dot {s : Str} : '.' ∈ lower s ↔ '.' ∈ s := by
  unfold lower
  rw [List.mem_map]
  constructor
  · rintro ⟨c, hc, h⟩
    have : c = '.' := by
      have ht := congrArg Char.toNat h
      rw [lower_toNat] at ht
      have h46 : ('.' : Char).toNat = 46 := rfl
      rw [h46] at ht
      split at ht
      · omega
      · exact Char.toNat_inj.mp ht
    rw [← this]; exact hc
  · intro h; exact ⟨'.', h, by decide⟩

theorem mem_takeWhile_bool {p : Char → Bool} {c : Char} : ∀ {l : List Char}, c ∈ l.takeWhile p → p c = true
  | [], h => by cases h
  | x :: l, h => by
    by_cases hx : p x = true
    · rw [List.takeWhile_cons_of_pos hx, List.mem_cons] at h
      rcases h with rfl | h
      · exact hx
      · exact mem_takeWhile_bool h
    · rw [List.takeWhile_cons_of_neg (by simpa using hx)] at h
      cases h

theorem takeWhile_split {p : Char → Bool} (l : List Char) : ∃ r, l = l.takeWhile p ++ r ∧ (r = [] ∨ ∃ c t, r = c :: t ∧ p c = false) := by
  induction l with
  | nil => exact ⟨[], rfl, .inl rfl⟩
  | cons c l ih =>
    by_cases h : p c = true
    · obtain ⟨r, h1, h2⟩ := ih
      refine ⟨r, ?_, h2⟩
      rw [List.takeWhile_cons_of_pos h, List.cons_append, ← h1]
    · exact ⟨c :: l, by rw [List.takeWhile_cons_of_neg (by simpa using h)]; rfl, .inr ⟨c, l, rfl, by simpa using h⟩⟩

theorem baseName_split (p : Str) : ∃ d, p = d ++ baseName p ∧ '/' ∉ baseName p ∧ (d = [] ∨ d.getLast? = some '/') := by
  obtain ⟨r, h1, h2⟩ := takeWhile_split (p := (· != '/')) p.reverse
  refine ⟨r.reverse, ?_, ?_, ?_⟩
  · unfold baseName
    rw [← List.reverse_append, ← h1, List.reverse_reverse]
  · unfold baseName
    rw [List.mem_reverse]
    intro h
    have := mem_takeWhile_bool h
    simp at this
  · rcases h2 with rfl | ⟨c, t, rfl, hc⟩
    · exact .inl rfl
    · right
      simp at hc
      simp [hc]

theorem takeWhile_append_stop {p : Char → Bool} {a : List Char} {c : Char} {t : List Char} (ha : ∀ x ∈ a, p x = true) (hc : p c = false) :
    (a ++ c :: t).takeWhile p = a := by
  induction a with
  | nil => exact List.takeWhile_cons_of_neg (by simp [hc])
  | cons x a ih => rw [List.cons_append, List.takeWhile_cons_of_pos (ha x (by simp)), ih (fun y hy => ha y (by simp [hy]))]

theorem takeWhile_all {p : Char → Bool} {a : List Char} (ha : ∀ x ∈ a, p x = true) : a.takeWhile p = a := by
  induction a with
  | nil => rfl
  | cons x a ih => rw [List.takeWhile_cons_of_pos (ha x (by simp)), ih (fun y hy => ha y (by simp [hy]))]

theorem baseName_eq {d n : Str} (hn : '/' ∉ n) (hd : d = [] ∨ d.getLast? = some '/') : baseName (d ++ n) = n := by
  unfold baseName
  rw [List.reverse_append]
  have ha : ∀ x ∈ n.reverse, (x != '/') = true := by
    intro x hx
    rw [List.mem_reverse] at hx
    simp only [bne_iff_ne, ne_eq]
    rintro rfl
    exact hn hx
  rcases hd with rfl | hd
  · rw [List.reverse_nil, List.append_nil, takeWhile_all ha, List.reverse_reverse]
  · have : ∃ t, d.reverse = '/' :: t := by
      rw [List.getLast?_eq_head?_reverse] at hd
      cases hr : d.reverse with
      | nil => rw [hr] at hd; cases hd
      | cons c t => rw [hr] at hd; simp at hd; exact ⟨t, by rw [hd]⟩
    obtain ⟨t, ht⟩ := this
    rw [ht, takeWhile_append_stop ha (by decide), List.reverse_reverse]

theorem splitExt_some {stem x : Str} (hx : '.' ∉ x) (hs : ∃ c ∈ stem, c ≠ '.') : splitExt (stem ++ '.' :: x) = '.' :: x := by
  have ht : ((stem ++ '.' :: x).reverse.takeWhile (· != '.')).reverse = x := by
    have : (stem ++ '.' :: x).reverse = x.reverse ++ '.' :: stem.reverse := by simp
    rw [this, takeWhile_append_stop _ (by decide), List.reverse_reverse]
    intro y hy
    rw [List.mem_reverse] at hy
    simp only [bne_iff_ne, ne_eq]
    rintro rfl
    exact hx hy
  unfold splitExt
  simp only
  rw [ht, if_pos]
  have hl : (stem ++ '.' :: x).length - x.length - 1 = stem.length := by simp; omega
  rw [hl]
  simp only [List.take_left, Bool.and_eq_true]
  constructor
  · simp
  · obtain ⟨c, hc, hne⟩ := hs
    rw [List.any_eq_true]
    exact ⟨c, hc, by simpa using hne⟩

theorem splitExt_shape (n : Str) : splitExt n = [] ∨ ∃ stem x, n = stem ++ '.' :: x ∧ '.' ∉ x ∧ (∃ c ∈ stem, c ≠ '.') := by
  by_cases hdot : '.' ∈ n
  · obtain ⟨r, h1, h2⟩ := takeWhile_split (p := (· != '.')) n.reverse
    have hx : '.' ∉ (n.reverse.takeWhile (· != '.')).reverse := by
      rw [List.mem_reverse]
      intro h
      have := mem_takeWhile_bool h
      simp at this
    rcases h2 with rfl | ⟨c, t, rfl, hc⟩
    · rw [List.append_nil] at h1
      have hmem : '.' ∈ n.reverse := List.mem_reverse.mpr hdot
      rw [h1] at hmem
      exact absurd (List.mem_reverse.mpr hmem) hx
    · simp at hc
      subst hc
      have hn : n = t.reverse ++ '.' :: (n.reverse.takeWhile (· != '.')).reverse := by
        have := congrArg List.reverse h1
        rw [List.reverse_reverse] at this
        rw [List.reverse_append] at this
        simpa using this
      by_cases hs : ∃ c ∈ t.reverse, c ≠ '.'
      · exact .inr ⟨_, _, hn, hx, hs⟩
      · left
        unfold splitExt
        simp only
        rw [if_neg]
        intro hb
        rw [Bool.and_eq_true] at hb
        have hlen : n.length - (n.reverse.takeWhile (· != '.')).reverse.length - 1 = t.reverse.length := by
          have := congrArg List.length hn
          simp only [List.length_append, List.length_cons] at this
          omega
        have ht : n.take t.reverse.length = t.reverse := by
          conv => lhs; rw [hn]
          exact List.take_left
        rw [hlen, ht, List.any_eq_true] at hb
        obtain ⟨-, c, hc, hne⟩ := hb
        exact hs ⟨c, hc, by simpa using hne⟩
  · left
    unfold splitExt
    simp only
    rw [if_neg]
    simp [hdot]

theorem lstrip_dots {s : Str} (h : '.' ∉ s) : lstripSet ['.'] s = s := by
  unfold lstripSet
  cases s with
  | nil => rfl
  | cons c s =>
    rw [List.dropWhile_cons_of_neg]
    simp only [List.contains_cons, List.contains_nil, Bool.or_false, beq_iff_eq]
    rintro rfl
    exact h (by simp)

theorem strip_dot {x : Str} (h : '.' ∉ x) : stripSet ['.'] (lower ('.' :: x)) = lower x := by
  have h' : '.' ∉ lower x := fun hh => h (lower_dot.mp hh)
  have h1 : lstripSet ['.'] (lower ('.' :: x)) = lower x := by
    show lstripSet ['.'] (asciiLower '.' :: lower x) = lower x
    have : asciiLower '.' = '.' := by decide
    rw [this]
    have h2 := lstrip_dots h'
    unfold lstripSet at h2 ⊢
    rw [List.dropWhile_cons_of_pos (by decide)]
    exact h2
  unfold stripSet
  rw [h1, lstrip_dots (by rw [List.mem_reverse]; exact h'), List.reverse_reverse]

/-- The extension that the code finds is that of the specification. -/
theorem extension_iff (p : Str) {e : Str} (he : e ≠ []) : fileExtension p = e ↔ HasExtension p e := by
  constructor
  · intro h
    obtain ⟨d, hp, hb, hd⟩ := baseName_split p
    rcases splitExt_shape (baseName p) with hs | ⟨stem, x, hn, hx, hs⟩
    · unfold fileExtension at h
      rw [hs] at h
      exact absurd h.symm he
    · refine ⟨d, stem, x, ?_, ?_, ?_, ?_, hx, hs, hd⟩
      · rw [List.append_assoc, ← hn, ← hp]
      · unfold fileExtension at h
        rw [hn, splitExt_some hx hs, strip_dot hx] at h
        exact h
      · intro hh; apply hb; rw [hn]; simp [hh]
      · intro hh; apply hb; rw [hn]; simp [hh]
  · rintro ⟨d, stem, x, rfl, hl, h1, h2, hx, hs, hd⟩
    unfold fileExtension
    rw [List.append_assoc, baseName_eq (by simp [h1, h2]) hd, splitExt_some hx hs, strip_dot hx, hl]

/-! ## Settings -/

theorem disable_base (l : List Str) : ∀ c : Settings,
    ((disableFeatures l c).base.disabledHidden = true ↔ c.base.disabledHidden = true ∨ S "hidden" ∈ l) ∧
    ((disableFeatures l c).base.disabledFinal = true ↔ c.base.disabledFinal = true ∨ S "final" ∈ l) ∧
    ((disableFeatures l c).base.disabledGroups = true ↔ c.base.disabledGroups = true ∨ S "groups" ∈ l) ∧
    ((disableFeatures l c).base.disabledRepeatable = true ↔ c.base.disabledRepeatable = true ∨ S "repeatable" ∈ l) ∧
    ((disableFeatures l c).base.disabledWhen = true ↔ c.base.disabledWhen = true ∨ S "when" ∈ l) := by
  induction l with
  | nil => intro c; simp [disableFeatures]
  | cons f fs ih =>
    intro c
    unfold disableFeatures
    obtain ⟨h1, h2, h3, h4, h5⟩ := ih (if f = S "hidden" then { c with base := { c.base with disabledHidden := true } }
       else if f = S "final" then { c with base := { c.base with disabledFinal := true } }
       else if f = S "groups" then { c with base := { c.base with disabledGroups := true } }
       else if f = S "repeatable" then { c with base := { c.base with disabledRepeatable := true } }
       else if f = S "when" then { c with base := { c.base with disabledWhen := true } }
       else c)
    rw [h1, h2, h3, h4, h5]
    clear h1 h2 h3 h4 h5 ih
    have d1 : S "hidden" ≠ S "final" := by decide
    have d2 : S "hidden" ≠ S "groups" := by decide
    have d3 : S "hidden" ≠ S "repeatable" := by decide
    have d4 : S "hidden" ≠ S "when" := by decide
    have d5 : S "final" ≠ S "groups" := by decide
    have d6 : S "final" ≠ S "repeatable" := by decide
    have d7 : S "final" ≠ S "when" := by decide
    have d8 : S "groups" ≠ S "repeatable" := by decide
    have d9 : S "groups" ≠ S "when" := by decide
    have d10 : S "repeatable" ≠ S "when" := by decide
    by_cases e1 : f = S "hidden"
    · subst e1; simp [d1.symm, d2.symm, d3.symm, d4.symm]
    · by_cases e2 : f = S "final"
      · subst e2; simp [d1, d1.symm, d5.symm, d6.symm, d7.symm]
      · by_cases e3 : f = S "groups"
        · subst e3; simp [d2, d2.symm, d5, d5.symm, d8.symm, d9.symm]
        · by_cases e4 : f = S "repeatable"
          · subst e4; simp [d3, d3.symm, d6, d6.symm, d8, d8.symm, d10.symm]
          · by_cases e5 : f = S "when"
            · subst e5; simp [d4, d4.symm, d7, d7.symm, d9, d9.symm, d10, d10.symm]
            · rw [if_neg e1, if_neg e2, if_neg e3, if_neg e4, if_neg e5]
              simp [Ne.symm e1, Ne.symm e2, Ne.symm e3, Ne.symm e4, Ne.symm e5]

/-- What disabling features does not change. -/
def others (c : Settings) : Settings :=
  { c with base := { c.base with disabledHidden := false, disabledFinal := false, disabledGroups := false, disabledRepeatable := false, disabledWhen := false } }

theorem disable_others (l : List Str) : ∀ c : Settings, others (disableFeatures l c) = others c := by
  induction l with
  | nil => intro c; rfl
  | cons f fs ih =>
    intro c
    unfold disableFeatures
    rw [ih]
    split
    · rfl
    · split
      · rfl
      · split
        · rfl
        · split
          · rfl
          · split <;> rfl

theorem wanted_unique {o : AppOpts} {a b : Settings} (ha : WantedSettings o a) (hb : WantedSettings o b) : a = b := by
  obtain ⟨⟨a1, a2, a3, a4, a5, a6, a7, a8, a9, a10⟩, a11, a12, a13, a14, a15, a16, a17, a18, a19, a20, a21⟩ := a
  obtain ⟨⟨b1, b2, b3, b4, b5, b6, b7, b8, b9, b10⟩, b11, b12, b13, b14, b15, b16, b17, b18, b19, b20, b21⟩ := b
  have hl : a18 = b18 := by
    by_cases h : 0 < o.maxLineLength
    · obtain ⟨n, h1, h2⟩ := ha.bounded h
      obtain ⟨m, h3, h4⟩ := hb.bounded h
      simp only at h1 h3
      rw [h1, h3]
      congr 1
      omega
    · have h1 := ha.unbounded (by omega)
      have h2 := hb.unbounded (by omega)
      simp only at h1 h2
      rw [h1, h2]
  have hs : a5 = b5 := by
    have h1 := ha.longSep
    have h2 := hb.longSep
    simp only [List.mem_cons, Prod.mk.injEq, List.not_mem_nil, or_false] at h1 h2
    rcases h1 with ⟨e1, rfl⟩ | ⟨e1, rfl⟩ | ⟨e1, rfl⟩ <;> rcases h2 with ⟨e2, rfl⟩ | ⟨e2, rfl⟩ | ⟨e2, rfl⟩ <;>
      first
      | rfl
      | (exfalso; rw [e1] at e2; revert e2; decide)
  have hbool : ∀ (x y : Bool) (P : Prop), (x = true ↔ P) → (y = true ↔ P) → x = y := by
    intro x y P hx hy
    cases x <;> cases y <;> simp_all
  have k1 := hbool _ _ _ ha.hidden hb.hidden
  have k2 := hbool _ _ _ ha.final hb.final
  have k3 := hbool _ _ _ ha.groups hb.groups
  have k4 := hbool _ _ _ ha.repeatable hb.repeatable
  have k5 := hbool _ _ _ ha.when_ hb.when_
  have j1 := ha.debug.trans hb.debug.symm
  have j2 := ha.functionPrefix.trans hb.functionPrefix.symm
  have j3 := ha.abbreviateCommands.trans hb.abbreviateCommands.symm
  have j4 := ha.abbreviateOptions.trans hb.abbreviateOptions.symm
  have j5 := ha.repeatableOptions.trans hb.repeatableOptions.symm
  have j6 := ha.inheritOptions.trans hb.inheritOptions.symm
  have j7 := ha.optionStacking.trans hb.optionStacking.symm
  have j8 := ha.vimModeline.trans hb.vimModeline.symm
  have j9 := ha.bashVersion.trans hb.bashVersion.symm
  have j10 := ha.zshCompdef.trans hb.zshCompdef.symm
  have j11 := ha.fishInline.trans hb.fishInline.symm
  have j12 := ha.includeFiles.trans hb.includeFiles.symm
  have j13 := ha.comments.trans hb.comments.symm
  have j14 := ha.keepComments.trans hb.keepComments.symm
  simp only at k1 k2 k3 k4 k5 j1 j2 j3 j4 j5 j6 j7 j8 j9 j10 j11 j12 j13 j14
  subst k1 k2 k3 k4 k5 j1 j2 j3 j4 j5 j6 j7 j8 j9 j10 j11 j12 j13 j14 hl hs
  rfl

theorem config_wanted {o : AppOpts} {c : Settings} (h : configFromOptions o = some c) : WantedSettings o c := by
  unfold configFromOptions at h
  cases hs : setLongSep o.longSep (firstSettings o) with
  | none => rw [hs] at h; cases h
  | some c0 =>
    rw [hs, Option.map_some, Option.some.injEq] at h
    obtain ⟨sep, hsep, hc0⟩ : ∃ sep, (o.longSep, sep) ∈ [(S "space", LongSep.space), (S "equals", .equals), (S "both", .both)] ∧
        c0 = { firstSettings o with base := { (firstSettings o).base with longSep := sep } } := by
      unfold setLongSep at hs
      split at hs
      · rename_i e; rw [e]; cases hs; exact ⟨.space, by simp, rfl⟩
      · split at hs
        · rename_i e; rw [e]; cases hs; exact ⟨.equals, by simp, rfl⟩
        · split at hs
          · rename_i e; rw [e]; cases hs; exact ⟨.both, by simp, rfl⟩
          · cases hs
    have ho := disable_others o.disable (otherSettings o c0)
    obtain ⟨k1, k2, k3, k4, k5⟩ := disable_base o.disable (otherSettings o c0)
    rw [h] at ho k1 k2 k3 k4 k5
    clear h hs
    subst hc0
    obtain ⟨⟨a1, a2, a3, a4, a5, a6, a7, a8, a9, a10⟩, a11, a12, a13, a14, a15, a16, a17, a18, a19, a20, a21⟩ := c
    simp only [others, otherSettings, firstSettings, setLineLength, Settings.mk.injEq, Config.mk.injEq, List.nil_append, and_true] at ho
    simp only [otherSettings, firstSettings, setLineLength, Bool.false_eq_true, false_or] at k1 k2 k3 k4 k5
    obtain ⟨⟨rfl, rfl, rfl, rfl, rfl⟩, rfl, rfl, rfl, rfl, rfl, rfl, rfl, rfl, rfl, rfl, rfl⟩ := ho
    exact {
      debug := rfl, functionPrefix := rfl, abbreviateCommands := rfl, abbreviateOptions := rfl, repeatableOptions := rfl, inheritOptions := rfl,
      optionStacking := rfl, longSep := hsep, vimModeline := rfl, bashVersion := rfl, zshCompdef := rfl, fishInline := rfl, includeFiles := rfl,
      comments := rfl, keepComments := rfl,
      bounded := fun hp => ⟨o.maxLineLength.toNat, if_pos hp, by omega⟩
      unbounded := fun hp => if_neg (by omega)
      hidden := k1, final := k2, groups := k3, repeatable := k4, when_ := k5 }

theorem config_iff {o : AppOpts} {c : Settings} : configFromOptions o = some c ↔ WantedSettings o c := by
  constructor
  · exact config_wanted
  · intro hw
    have hs := hw.longSep
    have hex : ∃ c', configFromOptions o = some c' := by
      unfold configFromOptions
      simp only [List.mem_cons, Prod.mk.injEq, List.not_mem_nil, or_false] at hs
      rcases hs with ⟨e, -⟩ | ⟨e, -⟩ | ⟨e, -⟩
      · unfold setLongSep; rw [e, if_pos rfl]; exact ⟨_, rfl⟩
      · unfold setLongSep; rw [e, if_neg (by decide), if_pos rfl]; exact ⟨_, rfl⟩
      · unfold setLongSep; rw [e, if_neg (by decide), if_neg (by decide), if_pos rfl]; exact ⟨_, rfl⟩
    obtain ⟨c', hc'⟩ := hex
    rw [hc', wanted_unique (config_wanted hc') hw]

end App

end CC
