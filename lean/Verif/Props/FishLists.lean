import Verif.Props.BashKeyValue
import Verif.Spec.FishLists
/-!
# C90: lists and prefixes in Fish
-/

namespace CC
open ItemList

/-- The candidates fit the text: those that begin with it are wanted; those wanted, other than the text itself, are
there. -/
def Right (out : List (Str × Str)) (t : FishTree) (w : Str) : Prop :=
  (∀ c ∈ out, w <+: c.1 → Wanted t w c) ∧ (∀ c, Wanted t w c → c.1 ≠ w → c ∈ out)

theorem foundIn_prefix {p w : Str} (h : p <+: w) : foundIn p w = true := by
  cases w with
  | nil =>
    have : p = [] := List.prefix_nil.mp h
    subst this; rfl
  | cons c cs =>
    have : p.isPrefixOf (c :: cs) = true := by simpa using h
    simp only [foundIn, this, Bool.true_or]

theorem foundIn_length {p w : Str} (h : foundIn p w = true) : p.length ≤ w.length := by
  induction w with
  | nil => simp [foundIn] at h; simp [h]
  | cons c cs ih =>
    simp only [foundIn, Bool.or_eq_true] at h
    rcases h with h | h
    · have : p <+: c :: cs := by simpa using h
      exact this.length_le
    · have := ih h
      simp only [List.length_cons]
      omega

/-- Everything wanted begins with the text. -/
theorem wanted_prefix (t : FishTree) (w : Str) (c : Str × Str) (h : Wanted t w c) : w <+: c.1 := by
  induction t generalizing w c with
  | values vs => exact h.2
  | text g => exact h.2
  | list dup sep t ih =>
    obtain ⟨v, d, h1, -, rfl⟩ := h
    have := ih _ _ h1
    have hb := before_current sep w
    simp only
    rw [hb]
    have he : before sep (before sep w ++ current sep w) = before sep w := by rw [← hb]
    rw [he]
    exact (List.prefix_append_right_inj _).mpr this
  | prefixed p t ih =>
    rcases h with ⟨u, v, d, rfl, h1, rfl⟩ | ⟨h1, -, rfl⟩
    · exact (List.prefix_append_right_inj _).mpr (ih _ _ h1)
    · exact h1

theorem splitOn_items (sep : Char) (u : Str) : splitOn sep u = items sep u := by
  induction u with
  | nil => rfl
  | cons c cs ih =>
    rw [splitOn, items, ih]
    split
    · rfl
    · cases items sep cs <;> rfl

theorem dropWhile_current (sep : Char) (u : Str) (h : sep ∈ u) :
    (u.reverse.dropWhile (· != sep)).tail.reverse ++ [sep] = before sep u := by
  have h1 := behindLast_current sep u
  have h2 : u.reverse = u.reverse.takeWhile (· != sep) ++ u.reverse.dropWhile (· != sep) :=
    (List.takeWhile_append_dropWhile).symm
  have h3 : (u.reverse.takeWhile (· != sep)).reverse = current sep u := by
    rw [← h1]
    unfold behindLast
    congr 2
    funext c
    by_cases hc : c = sep <;> simp [hc]
  have h4 : u = (u.reverse.dropWhile (· != sep)).reverse ++ current sep u := by
    rw [← h3, ← List.reverse_append, ← h2, List.reverse_reverse]
  have h5 : (u.reverse.dropWhile (· != sep)).reverse = before sep u := by
    have := before_current sep u
    rw [this] at h4
    have he : current sep (before sep u ++ current sep u) = current sep u := by rw [← this]
    rw [he] at h4
    have := List.append_cancel_right h4
    rw [← before_current sep u] at this
    exact this.symm
  rw [← h5]
  cases hd : u.reverse.dropWhile (· != sep) with
  | nil =>
    rw [hd, List.append_nil] at h2
    have := List.all_takeWhile (p := (· != sep)) (l := u.reverse)
    rw [← h2, List.all_eq_true] at this
    have := this sep (by simpa using h)
    simp at this
  | cons c cs =>
    have hc := List.head?_dropWhile_not (p := (· != sep)) (l := u.reverse)
    rw [hd] at hc
    have : c = sep := by simpa using hc
    subst this
    simp

theorem listHead_before (sep : Char) (h1 : sep ≠ '*') (h2 : sep ≠ '?') (w : Str) (hw : w ≠ []) :
    listHead sep w = before sep w := by
  unfold listHead
  split
  · rename_i h
    simp [caseEnds, h1, h2] at h
    have hc := (current_empty sep w hw).mpr h
    have := before_current sep w
    rw [hc, List.append_nil] at this
    exact this
  · split
    · rename_i h
      exact dropWhile_current sep w (by simpa using h)
    · rename_i h
      have h : sep ∉ w := by simpa using h
      have h3 := behindLast_current sep w
      rw [behindLast_none [sep] w (by intro c hc; simp; intro e; exact h (e ▸ hc))] at h3
      have := congrArg List.length (before_current sep w)
      rw [← h3, List.length_append] at this
      exact (List.length_eq_zero_iff.mp (by omega)).symm

/-- A list, if the completer inside gives the right candidates. -/
theorem right_list (dup : Bool) (sep : Char) (t : FishTree) (h1 : sep ≠ '*') (h2 : sep ≠ '?') (func : FishAction)
    (arg : Str) (st : Option Strip) (w : Str) (hc : completingArg st arg = w)
    (h0 : w = [] → Right (func arg st).1 t [])
    (hr : w ≠ [] → Right (func arg (some (.upTo sep))).1 t (current sep w)) :
    Right (fishList dup sep func arg st).1 (.list dup sep t) w := by
  unfold fishList
  rw [hc]
  by_cases hw : w = []
  · subst hw
    have h0 := h0 rfl
    have e1 : current sep [] = [] := rfl
    have e2 : before sep [] = [] := rfl
    have e3 : finished sep [] = [] := rfl
    simp only [List.isEmpty_nil, if_true]
    constructor
    · rintro ⟨v, d⟩ hm hp
      exact ⟨v, d, h0.1 _ hm hp, Or.inr (by simp [e3]), rfl⟩
    · rintro c ⟨v, d, hv, -, rfl⟩ hne
      exact h0.2 (v, d) hv (by simpa [e2] using hne)
  · have hr := hr hw
    have he : w.isEmpty = false := by simpa using hw
    have hb := before_current sep w
    simp only [he, Bool.false_eq_true, if_false, listHead_before sep h1 h2 w hw, splitOn_items]
    constructor
    · intro c hm hp
      obtain ⟨⟨v, d⟩, hv, rfl⟩ := List.mem_map.mp hm
      simp only at hp ⊢
      have hp : current sep w <+: v := by
        rw [hb] at hp
        have e : before sep (before sep w ++ current sep w) = before sep w := by rw [← hb]
        rw [e] at hp
        exact (List.prefix_append_right_inj _).mp hp
      cases dup with
      | true => exact ⟨v, d, hr.1 _ hv hp, Or.inl rfl, rfl⟩
      | false =>
        have hv := List.mem_filter.mp hv
        refine ⟨v, d, hr.1 _ hv.1 hp, Or.inr ?_, rfl⟩
        have h4 := hv.2
        rw [items_split] at h4
        simp at h4
        exact h4.1
    · rintro c ⟨v, d, hv, hd, rfl⟩ hne
      have hvc : v ≠ current sep w := by
        intro e
        apply hne
        simp only [e]
        exact hb.symm
      have hm := hr.2 (v, d) hv hvc
      refine List.mem_map.mpr ⟨(v, d), ?_, rfl⟩
      cases dup with
      | true => exact hm
      | false =>
        refine List.mem_filter.mpr ⟨hm, ?_⟩
        rw [items_split]
        rcases hd with hd | hd
        · simp at hd
        · simp [hd, hvc]

/-- A prefix, if the completer inside gives the right candidates. -/
theorem right_prefix (p : Str) (t : FishTree) (hp : p ≠ []) (func : FishAction) (arg : Str) (st : Option Strip) (w : Str)
    (hc : completingArg st arg = w) (hr : ∀ u, w = p ++ u → Right (func arg (some (.lead p))).1 t u) :
    Right (fishPrefix p func arg st).1 (.prefixed p t) w := by
  unfold fishPrefix
  rw [hc]
  by_cases hf : foundIn p w = true
  · simp only [hf, if_true]
    have hlen := foundIn_length hf
    by_cases hpw : p <+: w
    · obtain ⟨u, rfl⟩ := hpw
      have hr := hr u rfl
      constructor
      · intro c hm hpre
        left
        split at hm
        · simp only [List.mem_singleton] at hm
          subst hm
          have := hpre.length_le
          simp at this
          exact absurd this.1 hp
        · obtain ⟨⟨v, d⟩, hv, rfl⟩ := List.mem_map.mp hm
          exact ⟨u, v, d, rfl, hr.1 _ hv ((List.prefix_append_right_inj _).mp hpre), rfl⟩
      · rintro c (⟨u', v, d, hu, hv, rfl⟩ | ⟨h1, h2, -⟩) hne
        · have : u = u' := List.append_cancel_left hu
          subst this
          have hm := hr.2 (v, d) hv (by intro e; exact hne (by simp only at e ⊢; rw [e]))
          split
          · rename_i h
            simp at h
            rw [h] at hm
            simp at hm
          · exact List.mem_map.mpr ⟨_, hm, rfl⟩
        · exact absurd (List.IsPrefix.eq_of_length_le h1 hlen) h2
    · constructor
      · intro c hm hpre
        exfalso
        have hw : w ≠ [] := by
          intro e
          subst e
          have : p.length = 0 := by simpa using hlen
          exact hp (List.length_eq_zero_iff.mp this)
        split at hm
        · simp only [List.mem_singleton] at hm
          subst hm
          exact hw (List.prefix_nil.mp hpre)
        · obtain ⟨v, -, rfl⟩ := List.mem_map.mp hm
          simp only at hpre
          exact hpw (List.prefix_of_prefix_length_le (List.prefix_append p v.1) hpre hlen)
      · rintro c (⟨u, v, d, hu, -⟩ | ⟨h1, h2, -⟩) -
        · exact absurd ⟨u, hu.symm⟩ hpw
        · exact absurd (List.IsPrefix.eq_of_length_le h1 hlen) h2
  · simp only [hf, Bool.false_eq_true, if_false]
    have hpw : ¬ p <+: w := fun h => hf (foundIn_prefix h)
    constructor
    · intro c hm hpre
      simp only [List.mem_singleton] at hm
      subst hm
      exact Or.inr ⟨hpre, fun e => hpw (by rw [e]; exact List.prefix_rfl), rfl⟩
    · rintro c (⟨u, v, d, hu, -⟩ | ⟨-, -, rfl⟩) -
      · exact absurd ⟨u, hu.symm⟩ hpw
      · simp

/-- Values do not depend on what is typed. -/
theorem right_blind (t : FishTree) (h : t.Blind) (arg : Str) (st : Option Strip) (w : Str) : Right (t.run arg st).1 t w := by
  cases t with
  | values vs => exact ⟨fun c hm hp => ⟨hm, hp⟩, fun c hm _ => hm.1⟩
  | text g => exact absurd h id
  | list dup sep t => exact absurd h id
  | prefixed p t => exact absurd h id

theorem right_simple (t : FishTree) (hs : t.Simple) (ho : t.Ok) (arg : Str) (st : Option Strip) (w : Str)
    (hc : completingArg st arg = w) : Right (t.run arg st).1 t w := by
  cases t with
  | values vs => exact right_blind (.values vs) trivial _ _ _
  | text g =>
    simp only [FishTree.run, fishLeaf, hc]
    exact ⟨fun c hm hp => ⟨hm, hp⟩, fun c hm _ => hm.1⟩
  | list dup sep t =>
    exact right_list dup sep t ho.1 ho.2.1 _ _ _ _ hc (fun _ => right_blind t hs _ _ _) (fun _ => right_blind t hs _ _ _)
  | prefixed p t => exact right_prefix p t ho.1 _ _ _ _ hc (fun _ _ => right_blind t hs _ _ _)

theorem right_shallow (t : FishTree) (hs : t.Shallow) (ho : t.Ok) (arg : Str) : Right (t.run arg none).1 t arg := by
  cases t with
  | values vs => exact right_blind (.values vs) trivial _ _ _
  | text g => exact right_simple (.text g) trivial trivial _ _ _ rfl
  | list dup sep t =>
    refine right_list dup sep t ho.1 ho.2.1 _ _ _ _ rfl ?_ ?_
    · intro e
      exact right_simple t hs ho.2.2 _ _ _ e
    · intro _
      exact right_simple t hs ho.2.2 _ _ _ (behindLast_current sep arg)
  | prefixed p t =>
    refine right_prefix p t ho.1 _ _ _ _ rfl ?_
    intro u hu
    refine right_simple t hs ho.2 _ _ _ ?_
    have hu : arg = p ++ u := hu
    subst hu
    have : p.isPrefixOf (p ++ u) = true := by simp
    simp only [completingArg, this, if_true, List.drop_left]

/-- What Fish shows of the candidates that a command prints: those that begin with the text. -/
def Shown (t : FishTree) (arg : Str) (c : Str × Str) : Prop := c ∈ (t.run arg none).1 ∧ arg <+: c.1

/-- **C90 (nothing else)** Whatever is typed, what is shown is wanted. -/
theorem C90_sound (t : FishTree) (hs : t.Shallow) (ho : t.Ok) (arg : Str) (c : Str × Str) (h : Shown t arg c) :
    Wanted t arg c := (right_shallow t hs ho arg).1 c h.1 h.2

/-- **C90 (everything, partial)** What is wanted is shown, unless it is what is typed already. Missing: a value that is
typed completely (`C90_typed`), deeper completers (`C90_deep`), the separators `*` and `?` (`C90_star`). -/
theorem C90_complete_partial (t : FishTree) (hs : t.Shallow) (ho : t.Ok) (arg : Str) (c : Str × Str)
    (h : Wanted t arg c) (hne : c.1 ≠ arg) : Shown t arg c :=
  ⟨(right_shallow t hs ho arg).2 c h hne, wanted_prefix t arg c h⟩

/-- The variable is left alone or removed: a completer that runs afterwards sees the whole text. -/
theorem C90_variable (t : FishTree) (arg : Str) : (t.run arg none).2 = none := by
  induction t with
  | values vs => rfl
  | text g => rfl
  | list dup sep t ih =>
    simp only [FishTree.run, fishList]
    split
    · exact ih
    · rfl
  | prefixed p t ih =>
    simp only [FishTree.run, fishPrefix]
    split <;> rfl

/-! ## A case, and cases where the property fails -/

/-- Names of users, some with `@` before them. -/
def userTree : FishTree := .list false ',' (.prefixed (S "@") (.values [(S "ann", S "Ann A."), (S "bob", S "Bob B.")]))

theorem C90_example : userTree.Shallow ∧ userTree.Ok ∧
    Shown userTree (S "@ann,@b") (S "@ann,@bob", S "Bob B.") ∧
    ¬ Shown userTree (S "@ann,@") (S "@ann,@ann", S "Ann A.") ∧
    Shown userTree (S "@ann,") (S "@ann,@", []) := by
  refine ⟨trivial, ⟨by decide, by decide, by decide, trivial⟩, ⟨by decide +kernel, by decide +kernel⟩, ?_,
    ⟨by decide +kernel, by decide +kernel⟩⟩
  intro h
  have : (S "@ann,@ann", S "Ann A.") ∉ (userTree.run (S "@ann,@") none).1 := by decide +kernel
  exact this h.1

/-- A value that is typed completely counts as given: `foo` is wanted, but only `foobar` is shown. -/
theorem C90_typed : Wanted (.list false ',' (.values [(S "foo", []), (S "foobar", [])])) (S "x,foo") (S "x,foo", []) ∧
    ((FishTree.list false ',' (.values [(S "foo", []), (S "foobar", [])])).run (S "x,foo") none).1 =
      [(S "x,foobar", [])] := by
  refine ⟨⟨S "foo", [], ⟨by simp, by decide +kernel⟩, Or.inr (by decide +kernel), rfl⟩, by decide +kernel⟩

/-- Files in a list behind a prefix: the completer for files is given `@fo` instead of `fo`. -/
def deepTree : FishTree := .prefixed (S "@") (.list false ',' (.text (fun w => if w = S "fo" then [(S "foo.txt", [])] else [])))

theorem C90_deep : Wanted deepTree (S "@fo") (S "@foo.txt", []) ∧ (deepTree.run (S "@fo") none).1 = [([], [])] := by
  refine ⟨?_, by decide +kernel⟩
  refine Or.inl ⟨S "fo", S "foo.txt", [], rfl, ⟨S "foo.txt", [], ⟨?_, ?_⟩, Or.inr ?_, rfl⟩, rfl⟩
  · decide +kernel
  · decide +kernel
  · decide +kernel

/-- Two prefixes: the inner one is looked for at the beginning of the whole text. -/
theorem C90_deep_prefix :
    let t := FishTree.prefixed (S "a:") (.prefixed (S "b:") (.text (fun w => if w = S "x" then [(S "xyz", [])] else [])))
    Wanted t (S "a:b:x") (S "a:b:xyz", []) ∧ (t.run (S "a:b:x") none).1 = [(S "a:", [])] := by
  refine ⟨?_, by decide +kernel⟩
  exact Or.inl ⟨S "b:x", S "b:xyz", [], rfl, Or.inl ⟨S "x", S "xyz", [], rfl, ⟨by decide +kernel, by decide +kernel⟩, rfl⟩, rfl⟩

/-- The separator `*` is a wildcard for `case`: the current item is not replaced. -/
theorem C90_star : Wanted (.list false '*' (.values [(S "foo", [])])) (S "x*f") (S "x*foo", []) ∧
    ((FishTree.list false '*' (.values [(S "foo", [])])).run (S "x*f") none).1 = [(S "x*ffoo", [])] := by
  refine ⟨⟨S "foo", [], ⟨by simp, by decide +kernel⟩, Or.inr (by decide +kernel), rfl⟩, by decide +kernel⟩

end CC
