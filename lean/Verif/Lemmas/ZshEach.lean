import Verif.Lemmas.ZshLines
/-!
# The completers of Zsh, one by one (lemmas for C85)
-/

namespace CC
open BashCode ZshCompleter

/-! ## Calls -/

/-- The prefix of the helper functions can be written without quotes. -/
def PrefixOk (pre : Str) : Prop := (∀ c ∈ pre, isSafeChar c = true) ∧ pre.head? ≠ some '='

theorem realName_keeps {pre : Str} (hp : PrefixOk pre) (name : Str) : ZshCode.keeps (realName pre name) = true := by
  refine keeps_head ?_
  cases pre with
  | nil => simp [realName, S]
  | cons c r => simpa [realName] using hp.2

theorem good_helper {s : Setting} {c : Comp} {pre : Str} (hp : PrefixOk pre) (name : Str)
    (hn : ∀ c ∈ name, isSafeChar c = true) (args : List Str) (hk : ∀ w ∈ args, ZshCode.keeps w = true)
    (h1 : (∀ x ∈ texts s c, '\n' ∉ x) → ∀ w ∈ args, '\n' ∉ w)
    (h2 : (∀ x ∈ texts s c, '\\' ∉ x) → ∀ w ∈ args, bsOk w = true)
    (hd : Does s c (.run [.call (realName pre name :: args)])) :
    Good s c (.func (realName pre name :: args) true) := by
  have hq := realName_quote hp.1 name hn
  refine .call hq (realName_not_local _ _) (by simp) ?_ ?_ ?_ hd
  · intro w hw
    rcases List.mem_cons.mp hw with rfl | hw
    · exact realName_keeps hp name
    · exact hk w hw
  · intro hx w hw
    rcases List.mem_cons.mp hw with rfl | hw
    · exact quote_no hq _ (Or.inl rfl)
    · exact h1 hx w hw
  · intro hx w hw
    rcases List.mem_cons.mp hw with rfl | hw
    · exact bsOk_none (quote_no hq _ (Or.inr rfl))
    · exact h2 hx w hw

/-- The name of a function of Zsh. -/
def libraryName (f : Str) : Bool :=
  quote f == f && f != "local".toList && noDouble f && (f.head? == some '_')

theorem good_library {s : Setting} {c : Comp} {f : Str} (hf : libraryName f = true) (args : List Str)
    (hk : ∀ w ∈ args, ZshCode.keeps w = true)
    (h1 : (∀ x ∈ texts s c, '\n' ∉ x) → ∀ w ∈ args, '\n' ∉ w)
    (h2 : (∀ x ∈ texts s c, '\\' ∉ x) → ∀ w ∈ args, bsOk w = true)
    (hd : Does s c (.run [.call (f :: args)])) : Good s c (.func (f :: args) false) := by
  simp only [libraryName, Bool.and_eq_true, beq_iff_eq, bne_iff_ne] at hf
  obtain ⟨⟨⟨hq, hl⟩, hdbl⟩, hh⟩ := hf
  refine .call hq hl (fun _ => ⟨takes_library hdbl, ?_⟩) ?_ ?_ ?_ hd
  · intro c hc; rw [hh] at hc; cases hc; exact Or.inr rfl
  · intro w hw
    rcases List.mem_cons.mp hw with rfl | hw
    · exact keeps_head (by rw [hh]; decide)
    · exact hk w hw
  · intro hx w hw
    rcases List.mem_cons.mp hw with rfl | hw
    · exact quote_no hq _ (Or.inl rfl)
    · exact h1 hx w hw
  · intro hx w hw
    rcases List.mem_cons.mp hw with rfl | hw
    · exact bsOk_none (quote_no hq _ (Or.inr rfl))
    · exact h2 hx w hw

/-- Arguments that are texts of the completer. -/
theorem own_args {s : Setting} {c : Comp} {args : List Str} (h : ∀ w ∈ args, w ∈ texts s c ∨ ('\n' ∉ w ∧ '\\' ∉ w)) :
    ((∀ x ∈ texts s c, '\n' ∉ x) → ∀ w ∈ args, '\n' ∉ w) ∧
    ((∀ x ∈ texts s c, '\\' ∉ x) → ∀ w ∈ args, bsOk w = true) := by
  refine ⟨fun hx w hw => ?_, fun hx w hw => ?_⟩
  · rcases h w hw with h | h
    · exact hx w h
    · exact h.1
  · rcases h w hw with h | h
    · exact bsOk_none (hx w h)
    · exact bsOk_none h.2

/-! ## Completers without arguments -/

theorem zshVoid_library (ctxt : ZshCtxt) : ∀ e ∈ library, zshVoid ctxt e.1.toList = .ok (.func (e.2.map String.toList) false) := by
  intro e he
  simp only [library, List.mem_cons, List.not_mem_nil, or_false] at he
  rcases he with rfl | rfl | rfl | rfl | rfl | rfl | rfl | rfl | rfl | rfl | rfl | rfl | rfl | rfl <;> rfl

theorem zshVoid_helpers (ctxt : ZshCtxt) : ∀ e ∈ ZshCompleter.helpers,
    zshVoid ctxt e.1.toList = .ok (.func (realName ctxt.pre e.2.1.toList :: e.2.2.map String.toList) true) := by
  intro e he
  simp only [ZshCompleter.helpers, List.mem_cons, List.not_mem_nil, or_false] at he
  rcases he with rfl | rfl | rfl | rfl | rfl | rfl | rfl <;> rfl

theorem library_good : ∀ e ∈ library, ∃ f ws, e.2.map String.toList = f :: ws ∧ libraryName f = true ∧
    ∀ w ∈ ws, ZshCode.keeps w = true ∧ '\n' ∉ w ∧ '\\' ∉ w := by
  intro e he
  simp only [library, List.mem_cons, List.not_mem_nil, or_false] at he
  rcases he with rfl | rfl | rfl | rfl | rfl | rfl | rfl | rfl | rfl | rfl | rfl | rfl | rfl | rfl <;>
    exact ⟨_, _, rfl, by decide +kernel, by decide +kernel⟩

theorem helpers_good : ∀ e ∈ ZshCompleter.helpers, (∀ c ∈ e.2.1.toList, isSafeChar c = true) ∧
    ∀ w ∈ e.2.2.map String.toList, ZshCode.keeps w = true ∧ '\n' ∉ w ∧ '\\' ∉ w := by
  decide +kernel

theorem zshVoid_known : ∀ n ∈ voidNames, n ∈ library.map (·.1.toList) ∨ n ∈ ZshCompleter.helpers.map (·.1.toList) ∨
    n = "service".toList := by
  decide +kernel

theorem helper_realName (s : Setting) (name : String) : helper s name = realName s.pre name.toList := by
  simp [helper, realName, S]

theorem good_void {s : Setting} {ctxt : ZshCtxt} (hs : s.pre = ctxt.pre) (hp : PrefixOk ctxt.pre) {n : Str}
    (hn : n ∈ voidNames) (hne : n ≠ "service".toList) {o : ZshObj} (h : zshVoid ctxt n = .ok o) : Good s (.void n) o := by
  rcases zshVoid_known n hn with hm | hm | hm
  · obtain ⟨e, he, rfl⟩ := List.mem_map.mp hm
    rw [zshVoid_library ctxt e he] at h
    obtain ⟨f, ws, e1, e2, e3⟩ := library_good e he
    cases h
    rw [e1]
    have := own_args (s := s) (c := .void e.1.toList) (fun w hw => Or.inr (e3 w hw).2)
    refine good_library e2 ws (fun w hw => (e3 w hw).1) this.1 this.2 ?_
    exact ⟨_, Or.inl ⟨e, he, rfl, e1.symm⟩, rfl⟩
  · obtain ⟨e, he, rfl⟩ := List.mem_map.mp hm
    rw [zshVoid_helpers ctxt e he] at h
    obtain ⟨e2, e3⟩ := helpers_good e he
    cases h
    have := own_args (s := s) (c := .void e.1.toList) (fun w hw => Or.inr (e3 w hw).2)
    refine good_helper hp _ e2 _ (fun w hw => (e3 w hw).1) this.1 this.2 ?_
    exact ⟨_, Or.inr ⟨e, he, rfl, rfl⟩, by rw [helper_realName, hs]⟩
  · exact absurd hm hne

/-! ## Files and directories -/

theorem parts_join (sep : Char) : ∀ {l : List Str}, l ≠ [] → (∀ w ∈ l, sep ∉ w) → parts sep (joinWith [sep] l) = l
  | [], h, _ => absurd rfl h
  | [w], _, h => by
    simp only [joinWith]
    have hw := h w (by simp)
    clear h
    induction w with
    | nil => rfl
    | cons c cs ih =>
      have hc : c ≠ sep := by rintro rfl; simp at hw
      simp only [parts, if_neg hc]
      rw [ih (by simp) (fun hm => hw (by simp [hm]))]
  | w :: x :: r, _, h => by
    have ih := parts_join sep (l := x :: r) (by simp) (fun y hy => h y (by simp [hy]))
    have hw := h w (by simp)
    simp only [joinWith]
    generalize joinWith [sep] (x :: r) = rest at ih
    clear h
    induction w with
    | nil => simp [parts, ih]
    | cons c cs ih2 =>
      have hc : c ≠ sep := by rintro rfl; simp at hw
      have := ih2 (by simp) (fun hm => hw (by simp [hm]))
      simp only [List.cons_append, parts, if_neg hc]
      rw [this]

theorem upTo_at (c : Char) (a b : Str) (h : c ∉ a) : upTo c (a ++ c :: b) = (a, b) := by
  induction a with
  | nil => simp [upTo]
  | cons x xs ih =>
    have hx : x ≠ c := by rintro rfl; simp at h
    have := ih (fun hm => h (by simp [hm]))
    simp only [upTo, Prod.mk.injEq] at this ⊢
    rw [List.cons_append, List.takeWhile_cons, List.dropWhile_cons, if_pos (by simpa using hx), if_pos (by simpa using hx)]
    exact ⟨by rw [this.1], this.2⟩

theorem pattern_read {exts : List Str} (hne : exts ≠ []) (h : ∀ e ∈ exts, Plain e) (fuzzy : Bool) :
    patternExtensions (zshExtensionPattern exts fuzzy) = some (exts, fuzzy) := by
  have hno : ∀ e ∈ exts, ∀ c, c = '(' ∨ c = ')' ∨ c = '|' ∨ c = '*' → c ∉ e := by
    intro e he c hc hm
    have := (h e he).2 c hm
    rcases hc with rfl | rfl | rfl | rfl <;> revert this <;> decide
  match exts, hne with
  | [e], _ =>
    have he := h e (by simp)
    have e1 : zshExtensionPattern [e] fuzzy = "*.(#i)".toList ++ (e ++ (if fuzzy then S "*" else [])) := by
      simp [zshExtensionPattern, S]
    obtain ⟨a, b, hab⟩ : ∃ a b, e = a :: b := by
      cases e with
      | nil => exact absurd rfl he.1
      | cons a b => exact ⟨a, b, rfl⟩
    have ha : a ≠ '(' := by
      rintro rfl; exact hno e (by simp) '(' (by simp) (by simp [hab])
    have e2 : ∀ r : Str, patternExtensions ("*.(#i)".toList ++ (e ++ r)) =
        (if (e ++ r).getLast? = some '*' then some ([(e ++ r).dropLast], true) else some ([e ++ r], false)) := by
      intro r
      unfold patternExtensions
      rw [behind_self]
      subst hab
      simp only [List.cons_append]
      split
      · rename_i e; cases e; exact absurd rfl ha
      · rename_i e; cases e; rfl
      · rename_i e; cases e
    rw [e1, e2]
    cases fuzzy with
    | true => simp [S]
    | false =>
      simp only [Bool.false_eq_true, if_false, List.append_nil]
      rw [if_neg]
      intro hl
      exact hno e (by simp) '*' (by simp) (List.mem_of_getLast? hl)
  | e :: e' :: r, _ =>
    have e1 : zshExtensionPattern (e :: e' :: r) fuzzy = "*.(#i)".toList ++ ('(' :: (joinWith ['|'] (e :: e' :: r) ++
        ')' :: (if fuzzy then S "*" else []))) := by
      simp [zshExtensionPattern, S]
    have hj : ')' ∉ joinWith ['|'] (e :: e' :: r) := joinWith_not_mem (by decide) (fun w hw => hno w hw _ (by simp))
    unfold patternExtensions
    rw [e1, behind_self]
    simp only
    rw [upTo_at _ _ _ hj]
    simp only
    rw [parts_join '|' (by simp) (fun w hw => hno w hw _ (by simp))]
    cases fuzzy <;> rfl

theorem mapE_all {α β : Type} (f : α → Except Err β) : ∀ (l : List α) (r : List β), mapE f l = .ok r → l.map f = r.map .ok
  | [], r, h => by simp [mapE] at h; cases h; rfl
  | x :: xs, r, h => by
    simp only [mapE] at h
    obtain ⟨y, hy, h⟩ := ok_bind h
    obtain ⟨ys, hys, h⟩ := ok_bind h
    cases h
    simp [hy, mapE_all f xs ys hys]

theorem globs_texts {o : FileOpts} {globs : List Str} (h : o.ignoreGlobs.map bashGlobToZsh = globs.map .ok) : zshGlobs o = globs := by
  unfold zshGlobs
  generalize o.ignoreGlobs = l at h
  induction l generalizing globs with
  | nil => cases globs <;> simp_all
  | cons x xs ih =>
    cases globs with
    | nil => simp at h
    | cons g gs =>
      simp only [List.map_cons, List.cons.injEq] at h
      have := ih h.2
      rw [List.filterMap_cons, h.1, this]
      rfl

theorem file_args {o : FileOpts} (hx : ∀ e ∈ o.extensions, Plain e) {args : List Str} (h : zshFileArgs o = .ok args) :
    FileArgs o args ∧ (∀ w ∈ args, ZshCode.keeps w = true) ∧
    ∀ ch, (ch = '\n' ∨ ch = '\\') → (∀ x ∈ zshGlobs o, ch ∉ x) → ∀ w ∈ args, ch ∉ w := by
  unfold zshFileArgs at h
  obtain ⟨globs, hg, h⟩ := ok_bind h
  have hg := mapE_all _ _ _ hg
  cases h
  refine ⟨⟨_, _, rfl, ?_, ?_⟩, ?_, ?_⟩
  · cases he : o.extensions with
    | nil => simp
    | cons e es =>
      simp only [List.isEmpty_cons, Bool.false_eq_true, if_false, List.cons_ne_nil]
      rw [he] at hx
      exact ⟨_, rfl, pattern_read (by simp) hx _⟩
  · cases he : o.ignoreGlobs with
    | nil => simp
    | cons e es =>
      simp only [List.isEmpty_cons, Bool.false_eq_true, if_false, List.cons_ne_nil]
      rw [he] at hg
      exact ⟨globs, hg, rfl⟩
  · intro w hw
    rcases List.mem_append.mp hw with hw | hw
    · split at hw
      · simp at hw
      · simp at hw
        rcases hw with rfl | rfl
        · decide
        · unfold zshExtensionPattern
          split <;> exact keeps_cons (by decide)
    · split at hw
      · simp at hw
      · simp at hw
        rcases hw with rfl | rfl
        · decide
        · exact keeps_cons (by decide)
  · intro ch hch hno w hw
    rw [globs_texts hg] at hno
    rcases List.mem_append.mp hw with hw | hw
    · split at hw
      · simp at hw
      · simp at hw
        rcases hw with rfl | rfl
        · rcases hch with rfl | rfl <;> decide
        · have hp : ∀ e ∈ o.extensions, ch ∉ e := fun e he => plain_no (hx e he) ch hch
          unfold zshExtensionPattern
          have h1 : ch ∉ S "*.(#i)" := by rcases hch with rfl | rfl <;> decide
          have h2 : ch ∉ S "*.(#i)(" := by rcases hch with rfl | rfl <;> decide
          have h3 : ch ∉ S ")" := by rcases hch with rfl | rfl <;> decide
          have h4 : ch ∉ (if o.fuzzy = true then S "*" else []) := by
            split <;> rcases hch with rfl | rfl <;> decide
          have h5 : ch ∉ joinWith ['|'] o.extensions := joinWith_not_mem (by rcases hch with rfl | rfl <;> decide) hp
          split
          · rename_i e he
            rw [he] at hp
            simp [h1, h4, hp e (by simp)]
          · simp [h2, h3, h4, h5]
    · split at hw
      · simp at hw
      · simp at hw
        rcases hw with rfl | rfl
        · rcases hch with rfl | rfl <;> decide
        · have h1 : ch ∉ S "(" := by rcases hch with rfl | rfl <;> decide
          have h3 : ch ∉ S ")" := by rcases hch with rfl | rfl <;> decide
          have h5 : ch ∉ joinWith [' '] globs := joinWith_not_mem (by rcases hch with rfl | rfl <;> decide) hno
          simp [h1, h3, h5]

theorem starts_slash (d : Str) : startsWith d ['/'] = true ↔ d.head? = some '/' := by
  cases d with
  | nil => simp [startsWith]
  | cons c r => simp [startsWith]

theorem good_directory {s : Setting} {ctxt : ZshCtxt} (hs : s.pre = ctxt.pre) (hp : PrefixOk ctxt.pre) {d : Option Str}
    (hd : BashCompleter.NotEmpty d) (hk : ∀ w ∈ d.toList, ZshCode.keeps w = true) {o : ZshObj}
    (h : zshDirectory ctxt d = .ok o) : Good s (.directory d) o := by
  unfold zshDirectory at h
  rcases not_empty_cases hd with ⟨rfl, h2⟩ | ⟨d, rfl, h2⟩
  · rw [h2] at h
    cases h
    exact good_library (by decide) [] (by simp) (by simp) (by simp) rfl
  · rw [h2] at h
    simp only at h
    have hkd := hk d (by simp)
    split at h
    · rename_i hslash
      rw [starts_slash] at hslash
      cases h
      have := own_args (s := s) (c := .directory (some d)) (args := [S "-W", d]) (by
        intro w hw
        simp at hw
        rcases hw with rfl | rfl
        · right; decide
        · left; simp [texts, ownWords])
      refine good_library (by decide) [S "-W", d] (by simp [hkd]; decide) this.1 this.2 ?_
      simp only [Does, dirWords, below, if_pos hslash]; rfl
    · rename_i hslash
      rw [starts_slash] at hslash
      unfold zshHelper at h
      rw [show useHelper zshRepo ctxt.pre (S "path_files_relative") = .ok (realName ctxt.pre (S "path_files_relative")) from rfl] at h
      cases h
      have := own_args (s := s) (c := .directory (some d)) (args := [d, S "-/"]) (by
        intro w hw
        simp at hw
        rcases hw with rfl | rfl
        · left; simp [texts, ownWords]
        · right; decide)
      refine good_helper hp _ (by decide) [d, S "-/"] (by simp [hkd]; decide) this.1 this.2 ?_
      simp only [Does, dirWords, below, if_neg hslash, helper_realName, hs]; rfl

theorem good_file {s : Setting} {ctxt : ZshCtxt} (hs : s.pre = ctxt.pre) (hp : PrefixOk ctxt.pre) {o : FileOpts}
    (hd : BashCompleter.NotEmpty o.directory) (hx : ∀ e ∈ o.extensions, Plain e)
    (hk : ∀ w ∈ o.directory.toList, ZshCode.keeps w = true) {obj : ZshObj} (h : zshFile ctxt o = .ok obj) :
    Good s (.file o) obj := by
  unfold zshFile at h
  obtain ⟨args, ha, h⟩ := ok_bind h
  obtain ⟨a1, a2, a3⟩ := file_args hx ha
  have hg : ∀ ch, (∀ x ∈ texts s (.file o), ch ∉ x) → ∀ x ∈ zshGlobs o, ch ∉ x :=
    fun ch h x hx => h x (by simp [texts, hx])
  have n1 : (∀ x ∈ texts s (.file o), '\n' ∉ x) → ∀ w ∈ args, '\n' ∉ w := fun h => a3 _ (Or.inl rfl) (hg _ h)
  have n2 : (∀ x ∈ texts s (.file o), '\\' ∉ x) → ∀ w ∈ args, bsOk w = true :=
    fun h w hw => bsOk_none (a3 _ (Or.inr rfl) (hg _ h) w hw)
  rcases not_empty_cases hd with ⟨h1, h2⟩ | ⟨d, h1, h2⟩
  · rw [h2] at h
    cases h
    refine good_library (by decide) args a2 n1 n2 ?_
    exact ⟨_, ⟨args, a1, rfl⟩, by rw [h1]; rfl⟩
  · rw [h2] at h
    simp only at h
    have hkd := hk d (by simp [h1])
    have hdt : d ∈ texts s (.file o) := by simp [texts, h1]
    split at h
    · rename_i hslash
      rw [starts_slash] at hslash
      cases h
      refine good_library (by decide) (S "-W" :: d :: args) ?_ ?_ ?_ ?_
      · intro w hw
        simp at hw
        rcases hw with rfl | rfl | hw
        · decide
        · exact hkd
        · exact a2 w hw
      · intro hx w hw
        simp at hw
        rcases hw with rfl | rfl | hw
        · decide
        · exact hx _ hdt
        · exact n1 hx w hw
      · intro hx w hw
        simp at hw
        rcases hw with rfl | rfl | hw
        · decide
        · exact bsOk_none (hx _ hdt)
        · exact n2 hx w hw
      · exact ⟨_, ⟨args, a1, rfl⟩, by simp only [h1, below, if_pos hslash]; rfl⟩
    · rename_i hslash
      rw [starts_slash] at hslash
      unfold zshHelper at h
      rw [show useHelper zshRepo ctxt.pre (S "path_files_relative") = .ok (realName ctxt.pre (S "path_files_relative")) from rfl] at h
      cases h
      refine good_helper hp _ (by decide) (d :: args) ?_ ?_ ?_ ?_
      · intro w hw
        simp at hw
        rcases hw with rfl | hw
        · exact hkd
        · exact a2 w hw
      · intro hx w hw
        simp at hw
        rcases hw with rfl | hw
        · exact hx _ hdt
        · exact n1 hx w hw
      · intro hx w hw
        simp at hw
        rcases hw with rfl | hw
        · exact bsOk_none (hx _ hdt)
        · exact n2 hx w hw
      · exact ⟨_, ⟨args, a1, rfl⟩, by simp only [h1, below, if_neg hslash, helper_realName, hs]; rfl⟩

/-! ## Numbers, addresses, lists -/

theorem zshNumber_eq {s : Setting} {ctxt : ZshCtxt} (hs : s.help = ctxt.help) (flag : List Str) (o : NumOpts) :
    zshNumber ctxt flag o = .func (numberWords s flag o) false := by
  unfold zshNumber numberWords suffixArgs
  rw [hs]
  cases o.min <;> cases o.max <;> rfl

theorem good_number {s : Setting} {ctxt : ZshCtxt} (hs : s.help = ctxt.help) {c : Comp} (flag : List Str) (o : NumOpts)
    (hflag : ∀ w ∈ flag, ZshCode.keeps w = true ∧ '\n' ∉ w ∧ '\\' ∉ w) (ht : texts s c = numberWords s [] o)
    (hk : ∀ w ∈ numberWords s [] o, ZshCode.keeps w = true)
    (hd : Does s c (.run [.call (numberWords s flag o)])) : Good s c (zshNumber ctxt flag o) := by
  rw [zshNumber_eq hs]
  have e : numberWords s flag o = "_numbers".toList :: (flag ++ (numberWords s [] o).tail) := by
    simp [numberWords]
  rw [e] at hd ⊢
  have htail : ∀ w ∈ (numberWords s [] o).tail, w ∈ numberWords s [] o := fun w hw => List.mem_of_mem_tail hw
  have := own_args (s := s) (c := c) (args := flag ++ (numberWords s [] o).tail) (by
    intro w hw
    rcases List.mem_append.mp hw with hw | hw
    · exact Or.inr (hflag w hw).2
    · exact Or.inl (ht ▸ htail w hw))
  refine good_library (by decide) _ ?_ this.1 this.2 hd
  intro w hw
  rcases List.mem_append.mp hw with hw | hw
  · exact (hflag w hw).1
  · exact hk w (htail w hw)

theorem good_ip (s : Setting) (t : Str) : Good s (.ipAddress t) (zshIpAddress t) := by
  have key : ∀ args, ipWords t = "_bind_addresses".toList :: args →
      (∀ w ∈ args, ZshCode.keeps w = true ∧ '\n' ∉ w ∧ '\\' ∉ w) →
      Good s (.ipAddress t) (.func ("_bind_addresses".toList :: args) false) := by
    intro args he ha
    have := own_args (s := s) (c := .ipAddress t) (fun w hw => Or.inr (ha w hw).2)
    refine good_library (by decide) args (fun w hw => (ha w hw).1) this.1 this.2 ?_
    simp only [Does, he]
  unfold zshIpAddress
  by_cases h1 : t = S "ipv4"
  · rw [if_pos h1]; subst h1; exact key ["-4".toList] rfl (by decide)
  · rw [if_neg h1]
    by_cases h2 : t = S "ipv6"
    · rw [if_pos h2]; subst h2; exact key ["-6".toList] rfl (by decide)
    · rw [if_neg h2]
      by_cases h3 : t = S "ipv4+"
      · rw [if_pos h3]; subst h3; exact key ["-40".toList] rfl (by decide)
      · rw [if_neg h3]
        by_cases h4 : t = S "ipv6+"
        · rw [if_pos h4]; subst h4; exact key ["-60".toList] rfl (by decide)
        · rw [if_neg h4]
          by_cases h5 : t = S "all+"
          · rw [if_pos h5]; subst h5; exact key ["-0".toList] rfl (by decide)
          · rw [if_neg h5]
            refine key [] ?_ (by simp)
            unfold ipWords
            rw [if_neg (show ¬ t = "ipv4".toList from h1), if_neg (show ¬ t = "ipv6".toList from h2),
              if_neg (show ¬ t = "ipv4+".toList from h3), if_neg (show ¬ t = "ipv6+".toList from h4),
              if_neg (show ¬ t = "all+".toList from h5)]
            rfl

theorem sequence_eq (o : SepOpts) (g : Str) : sequenceArgs o g = sequenceWords o g := rfl

theorem good_sequence {s : Setting} {c : Comp} (o : SepOpts) (g : Str) (hk : ZshCode.keeps o.separator = true)
    (hg : ZshCode.keeps g = true) (hn : ∀ ch, ch = '\n' ∨ ch = '\\' → ch ∉ g) (ht : o.separator ∈ texts s c)
    (hd : Does s c (.run [.call (sequenceWords o g)])) : Good s c (.func (sequenceArgs o g) false) := by
  rw [sequence_eq]
  have hmem : ∀ w ∈ (sequenceWords o g).tail, w = o.separator ∨ w = g ∨ w = "-s".toList ∨ w = "-d".toList := by
    intro w hw
    simp only [sequenceWords, List.cons_append, List.nil_append, List.tail_cons, List.mem_append] at hw
    rcases hw with (hw | hw) | hw
    · split at hw
      · simp at hw
      · simp at hw; rcases hw with rfl | rfl <;> simp
    · split at hw
      · simp at hw; simp [hw]
      · simp at hw
    · simp at hw; simp [hw]
  have e : sequenceWords o g = "_sequence".toList :: (sequenceWords o g).tail := by simp [sequenceWords]
  rw [e] at hd ⊢
  have := own_args (s := s) (c := c) (args := (sequenceWords o g).tail) (by
    intro w hw
    rcases hmem w hw with rfl | rfl | rfl | rfl
    · exact Or.inl ht
    · exact Or.inr ⟨hn _ (Or.inl rfl), hn _ (Or.inr rfl)⟩
    · right; decide
    · right; decide)
  refine good_library (by decide) _ ?_ this.1 this.2 hd
  intro w hw
  rcases hmem w hw with rfl | rfl | rfl | rfl
  · exact hk
  · exact hg
  · decide
  · decide

theorem calls_of_via {s : Setting} {c : Comp} {g : Str} {P : List Str → Prop} (h : Via s c g)
    (hc : ∀ t, Does s c t → ∃ ws, P ws ∧ t = .run [.call ws]) : ∃ ws, P ws ∧ Calls s g [.call ws] := by
  rcases h with h | ⟨code, task, h1, h2, h3⟩
  · obtain ⟨ws, hp, e⟩ := hc _ h
    simp at e
    exact ⟨ws, hp, Or.inl (by rw [e])⟩
  · obtain ⟨ws, hp, rfl⟩ := hc _ h3
    cases h2 with
    | code hr => exact ⟨ws, hp, Or.inr ⟨code, h1, hr⟩⟩

/-! ## Values -/

theorem values_specs (v : ValueWords) (h : ValuesFit v) : Values v (zshValueSpecs v) := by
  unfold Values
  cases v with
  | list l =>
    simp only [zshValueSpecs, valueItems, List.map_map]
    apply List.map_congr_left
    intro w hw
    obtain ⟨h0, hb, hc, h1, h2, _, _⟩ := h (w, none) (List.mem_map.mpr ⟨w, hw, rfl⟩)
    have := readDef_item (n := w) (d := none) h0 hb hc h1 h2 (by simp)
    simpa using this
  | table t =>
    simp only [zshValueSpecs, valueItems, List.map_map]
    apply List.map_congr_left
    intro e he
    obtain ⟨h0, hb, hc, h1, h2, _, hd⟩ := h (e.1, some e.2) (List.mem_map.mpr ⟨e, he, rfl⟩)
    have := readDef_item (n := e.1) (d := some e.2) h0 hb hc h1 h2 hd
    simpa using this

theorem specs_item (v : ValueWords) : ∀ w ∈ zshValueSpecs v, ∃ i ∈ valueItems v,
    w = escapeSquareBrackets i.1 ++ (match i.2 with
      | some d => S "[" ++ escapeSquareBrackets d ++ S "]"
      | none => []) := by
  intro w hw
  cases v with
  | list l =>
    obtain ⟨x, hx, rfl⟩ := List.mem_map.mp hw
    exact ⟨(x, none), List.mem_map.mpr ⟨x, hx, rfl⟩, by simp⟩
  | table t =>
    obtain ⟨e, he, rfl⟩ := List.mem_map.mp hw
    exact ⟨(e.1, some e.2), List.mem_map.mpr ⟨e, he, rfl⟩, by simp⟩

theorem specs_keep (v : ValueWords) (h : ValuesFit v) : ∀ w ∈ zshValueSpecs v, ZshCode.keeps w = true := by
  intro w hw
  obtain ⟨i, hi, rfl⟩ := specs_item v w hw
  obtain ⟨h0, _, _, h1, h2, h3, _⟩ := h i hi
  refine keeps_head ?_
  match hn : i.1 with
  | [] => exact absurd hn h0
  | c :: cs =>
    rw [hn] at h3
    rw [escapeSquareBrackets_cons]
    simp at h3
    split
    · simp
    · split <;> simp [h3]

theorem specs_nl (v : ValueWords) (h : ∀ i ∈ valueItems v, '\n' ∉ i.1 ∧ ∀ d, i.2 = some d → '\n' ∉ d) :
    ∀ w ∈ zshValueSpecs v, '\n' ∉ w := by
  intro w hw
  obtain ⟨i, hi, rfl⟩ := specs_item v w hw
  have h1 := nl_brackets (h i hi).1
  cases hd : i.2 with
  | none => simp [h1]
  | some d =>
    have h2 := nl_brackets ((h i hi).2 d hd)
    simp [h1, h2, S]

theorem specs_bsOk (v : ValueWords) (h : ∀ i ∈ valueItems v, '\\' ∉ i.1 ∧ ∀ d, i.2 = some d → '\\' ∉ d) :
    ∀ w ∈ zshValueSpecs v, bsOk w = true := by
  intro w hw
  obtain ⟨i, hi, rfl⟩ := specs_item v w hw
  have h1 := bsOk_brackets (h i hi).1
  rw [bsOk_append _ _ h1]
  cases hd : i.2 with
  | none => rfl
  | some d =>
    have h2 := bsOk_brackets ((h i hi).2 d hd)
    show bsOk (S "[" ++ escapeSquareBrackets d ++ S "]") = true
    rw [List.append_assoc, bsOk_append _ _ (by decide), bsOk_append _ _ h2]; decide

theorem good_valueList {s : Setting} {ctxt : ZshCtxt} (hm : s.metavar = ctxt.metavar) (hb : NameOk ctxt.base) {dyn : Dyn}
    (hd : ∀ e ∈ dyn, NameOk e.2) {v : ValueWords} {o : SepOpts} (hf : ValuesFit v)
    (hk : ZshCode.keeps o.separator = true ∧ ZshCode.keeps s.metavar = true) {r : ZshObj × Dyn}
    (h : zshValueList ctxt v o dyn = .ok r) (hF : ∀ e ∈ r.2, e ∈ s.functions) : Good s (.valueList v o) r.1 := by
  unfold zshValueList at h
  have hread : ZshCode.read (joinQuoted (["_values".toList, s.metavar] ++ zshValueSpecs v)) =
      some [.call (["_values".toList, s.metavar] ++ zshValueSpecs v)] := by
    refine zread_call (f := "_values".toList) (ws := s.metavar :: zshValueSpecs v) (by decide) ?_
    intro w hw
    simp at hw
    rcases hw with rfl | rfl | hw
    · decide
    · exact hk.2
    · exact specs_keep v hf w hw
  cases hdup : o.duplicates with
  | true =>
    rw [if_pos hdup] at h
    obtain ⟨g, hg, h⟩ := ok_bind h
    cases h
    simp only [List.cons_append, List.nil_append, ZshObj.getFunction] at hg
    have hN := addDynFunc_named hb hd hg
    refine good_sequence o g.1 hk.1 hN.1.keeps (fun _ hc => hN.1.no hc) (by simp [texts, hdup]) ?_
    simp only [Does, hdup, if_true]
    refine ⟨g.1, zshValueSpecs v, values_specs v hf, Or.inr ⟨_, hF _ (addDynFunc_spec hg).2, ?_⟩, rfl⟩
    rw [← hm]
    exact hread
  | false =>
    rw [if_neg (by simp [hdup])] at h
    cases h
    have hmem : ∀ w ∈ "-s".toList :: o.separator :: ctxt.metavar :: zshValueSpecs v,
        w = "-s".toList ∨ w = o.separator ∨ w = s.metavar ∨ w ∈ zshValueSpecs v := by
      intro w hw; rw [hm]; simpa using hw
    have ht : texts s (.valueList v o) = [o.separator, s.metavar] ++ (valueItems v).flatMap (fun i => i.1 :: i.2.toList) := by
      simp [texts, hdup]
    refine good_library (f := "_values".toList) (by decide) ("-s".toList :: o.separator :: ctxt.metavar :: zshValueSpecs v) ?_ ?_ ?_ ?_
    · intro w hw
      rcases hmem w hw with rfl | rfl | rfl | hw
      · decide
      · exact hk.1
      · exact hk.2
      · exact specs_keep v hf w hw
    · intro hx w hw
      rw [ht] at hx
      rcases hmem w hw with rfl | rfl | rfl | hw
      · decide
      · exact hx _ (by simp)
      · exact hx _ (by simp)
      · refine specs_nl v (fun i hi => ⟨hx _ ?_, fun d hd => hx _ ?_⟩) w hw
        · exact List.mem_append_right _ (List.mem_flatMap.mpr ⟨i, hi, by simp⟩)
        · exact List.mem_append_right _ (List.mem_flatMap.mpr ⟨i, hi, by simp [hd]⟩)
    · intro hx w hw
      rw [ht] at hx
      rcases hmem w hw with rfl | rfl | rfl | hw
      · decide
      · exact bsOk_none (hx _ (by simp))
      · exact bsOk_none (hx _ (by simp))
      · refine specs_bsOk v (fun i hi => ⟨hx _ ?_, fun d hd => hx _ ?_⟩) w hw
        · exact List.mem_append_right _ (List.mem_flatMap.mpr ⟨i, hi, by simp⟩)
        · exact List.mem_append_right _ (List.mem_flatMap.mpr ⟨i, hi, by simp [hd]⟩)
    · simp only [Does, hdup, Bool.false_eq_true, if_false]
      exact ⟨zshValueSpecs v, values_specs v hf, by rw [hm]; rfl⟩

end CC
