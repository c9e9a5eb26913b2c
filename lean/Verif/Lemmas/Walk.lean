import Verif.Spec.Reached
import Verif.Model.Walk
import Verif.Props.Misc
import Verif.Props.CliOptions
/-! # Lemmas about walking through command trees -/

namespace CC

/-- `Reached` with the functions of the model in place of the specification's. -/
inductive ReachedM (root : Cmd) : List Str → List Cmd → Cmd → Prop
  | start : ReachedM root [] [] root
  | word {ps parents c} (w : Str) : ReachedM root ps parents c → subSlot parents c ≠ some ps.length →
      ReachedM root (ps ++ [w]) parents c
  | sub {ps parents c d w} : ReachedM root ps parents c → subSlot parents c = some ps.length →
      d ∈ c.children → w ∈ variations c d → ReachedM root (ps ++ [w]) (parents ++ [c]) d

/-- `CleanTree` with the functions of the model in place of the specification's. -/
structure CleanTreeM (root : Cmd) : Prop where
  distinct : ∀ parents c, At root parents c → ∀ d ∈ c.children, ∀ e ∈ c.children, ∀ w,
    w ∈ variations c d → w ∈ variations c e → d = e
  nonempty : ∀ parents c, At root parents c → ∀ d ∈ c.children, [] ∉ variations c d
  names : ∀ parents c, At root parents c → (c.children.map (fun x => x.data.prog)).Nodup
  numbered : ∀ parents c, At root parents c → WellNumbered c
  slot : ∀ parents c, At root parents c → c.children ≠ [] → c.sub.isSome = true

theorem walkList_eq (parents : List Cmd) (ch : List Cmd) :
    Cmd.walkList parents ch = ch.flatMap (fun c => c.walk parents) := by
  induction ch with
  | nil => rfl
  | cons c cs ih => simp [Cmd.walkList, ih]

theorem walk_eq (parents : List Cmd) (c : Cmd) :
    c.walk parents = (parents, c) :: c.children.flatMap (fun d => d.walk (parents ++ [c])) := by
  cases c with
  | node d s ch => rw [Cmd.walk, walkList_eq]; rfl

/-- Everything in the walk of a command lies below it. -/
theorem walk_below (c : Cmd) : ∀ parents, ∀ e ∈ c.walk parents, ∃ rest, e.1 ++ [e.2] = parents ++ c :: rest := by
  induction c using Cmd.ind with
  | _ d s ch ih =>
    intro parents e he
    rw [walk_eq] at he
    simp only [List.mem_cons, List.mem_flatMap] at he
    rcases he with rfl | ⟨x, hx, he⟩
    · exact ⟨[], rfl⟩
    · obtain ⟨rest, hr⟩ := ih x hx _ e he
      exact ⟨x :: rest, by rw [hr]; simp⟩

/-- The walk lists exactly the places of the tree. -/
theorem walk_at (root : Cmd) (c : Cmd) : ∀ parents, At root parents c → ∀ e ∈ c.walk parents, At root e.1 e.2 := by
  induction c using Cmd.ind with
  | _ d s ch ih =>
    intro parents hat e he
    rw [walk_eq] at he
    simp only [List.mem_cons, List.mem_flatMap] at he
    rcases he with rfl | ⟨x, hx, he⟩
    · exact hat
    · exact ih x hx _ (At.child hat hx) e he

theorem mem_walk_trans (c : Cmd) : ∀ parents e x, e ∈ c.walk parents → x ∈ e.2.children →
    (e.1 ++ [e.2], x) ∈ c.walk parents := by
  induction c using Cmd.ind with
  | _ d s ch ih =>
    intro parents e x he hx
    rw [walk_eq] at he ⊢
    simp only [List.mem_cons, List.mem_flatMap] at he ⊢
    rcases he with rfl | ⟨y, hy, he⟩
    · exact Or.inr ⟨x, hx, by rw [walk_eq]; simp⟩
    · exact Or.inr ⟨y, hy, ih y hy _ e x he hx⟩

theorem mem_walk_iff (root : Cmd) (parents : List Cmd) (c : Cmd) : (parents, c) ∈ root.walk [] ↔ At root parents c := by
  constructor
  · exact fun h => walk_at root root [] At.root _ h
  · intro h
    induction h with
    | root => rw [walk_eq]; simp
    | child _ hd ih => exact mem_walk_trans root [] _ _ ih hd

/-- Every command of the chain is a subcommand of the one before. -/
def IsChain : Cmd → List Cmd → Prop
  | _, [] => True
  | c, d :: ds => d ∈ c.children ∧ IsChain d ds

theorem chainEntries_snoc (ps cs : List Cmd) (c : Cmd) :
    chainEntries ps (cs ++ [c]) = chainEntries ps cs ++ [(ps ++ cs, c)] := by
  induction cs generalizing ps with
  | nil => simp [chainEntries]
  | cons x xs ih => simp [chainEntries, ih]

theorem mem_chainEntries {ps cs : List Cmd} {e : List Cmd × Cmd} (h : e ∈ chainEntries ps cs) :
    ∃ pre post, cs = pre ++ e.2 :: post ∧ e.1 = ps ++ pre := by
  induction cs generalizing ps with
  | nil => simp [chainEntries] at h
  | cons c cs ih =>
    simp only [chainEntries, List.mem_cons] at h
    rcases h with rfl | h
    · exact ⟨[], cs, rfl, by simp⟩
    · obtain ⟨pre, post, h1, h2⟩ := ih h
      exact ⟨c :: pre, post, by simp [h1], by simp [h2]⟩

theorem chainEntries_mem (ps pre : List Cmd) (c : Cmd) (post : List Cmd) :
    (ps ++ pre, c) ∈ chainEntries ps (pre ++ c :: post) := by
  induction pre generalizing ps with
  | nil => simp [chainEntries]
  | cons x xs ih =>
    have := ih (ps ++ [x])
    simp only [List.cons_append, chainEntries, List.mem_cons]
    right; simpa using this

theorem nodup_split {α β} (f : α → β) (l : List α) (h : (l.map f).Nodup) (d : α) (hd : d ∈ l) :
    ∃ pre post, l = pre ++ d :: post ∧ d ∉ pre ∧ d ∉ post := by
  obtain ⟨pre, post, rfl⟩ := List.append_of_mem hd
  refine ⟨pre, post, rfl, ?_, ?_⟩
  · intro hm
    simp only [List.map_append, List.map_cons, List.nodup_append] at h
    exact h.2.2 (f d) (List.mem_map.mpr ⟨d, hm, rfl⟩) (f d) (by simp) rfl
  · intro hm
    simp only [List.map_append, List.map_cons, List.nodup_append, List.nodup_cons] at h
    exact h.2.1.1 (List.mem_map.mpr ⟨d, hm, rfl⟩)

/-- If only places on a chain are wanted, the walk gives the wanted places of the chain in order. -/
theorem walk_filter_chain (P : List Cmd × Cmd → Bool) (rest : List Cmd) : ∀ (ps : List Cmd) (c : Cmd),
    IsChain c rest →
    (∀ e ∈ c.walk ps, (e.2.children.map (fun x => x.data.prog)).Nodup) →
    (∀ e ∈ c.walk ps, P e = true → e ∈ chainEntries ps (c :: rest)) →
    (c.walk ps).filter P = (chainEntries ps (c :: rest)).filter P := by
  induction rest with
  | nil =>
    intro ps c _ _ h
    rw [walk_eq] at h ⊢
    simp only [chainEntries, List.filter_cons]
    have : (c.children.flatMap (fun d => d.walk (ps ++ [c]))).filter P = [] := by
      rw [List.filter_eq_nil_iff]
      intro e he hp
      have h1 := h e (List.mem_cons_of_mem _ he) hp
      simp only [chainEntries, List.mem_cons, List.not_mem_nil, or_false] at h1
      obtain ⟨x, hx, he⟩ := List.mem_flatMap.mp he
      obtain ⟨r, hr⟩ := walk_below x _ e he
      rw [h1] at hr
      have := congrArg List.length hr
      simp at this
    rw [this]; simp
  | cons d rest ih =>
    intro ps c hch hn h
    have hnc := hn (ps, c) (by rw [walk_eq]; simp)
    obtain ⟨pre, post, hsplit, hpre, hpost⟩ := nodup_split _ _ hnc d hch.1
    have hother : ∀ x ∈ c.children, x ≠ d → (x.walk (ps ++ [c])).filter P = [] := by
      intro x hx hne
      rw [List.filter_eq_nil_iff]
      intro e he hp
      have hm : e ∈ c.walk ps := by
        rw [walk_eq]; exact List.mem_cons_of_mem _ (List.mem_flatMap.mpr ⟨x, hx, he⟩)
      have h1 := h e hm hp
      obtain ⟨r, hr⟩ := walk_below x _ e he
      obtain ⟨p1, p2, h2, h3⟩ := mem_chainEntries h1
      rw [h3] at hr
      have h4 : p1 ++ [e.2] = c :: x :: r := by
        have : ps ++ (p1 ++ [e.2]) = ps ++ (c :: x :: r) := by simpa using hr
        exact List.append_cancel_left this
      cases p1 with
      | nil => simp at h4
      | cons y p1 =>
        simp only [List.cons_append, List.cons.injEq] at h4 h2
        obtain ⟨rfl, h4⟩ := h4
        cases p1 with
        | nil =>
          simp only [List.nil_append, List.cons.injEq] at h4 h2
          exact hne (h4.1.symm.trans h2.2.1.symm)
        | cons z p1 =>
          simp only [List.cons_append, List.cons.injEq] at h4 h2
          exact hne (h4.1.symm.trans h2.2.1.symm)
    have hd : (d.walk (ps ++ [c])).filter P = (chainEntries (ps ++ [c]) (d :: rest)).filter P := by
      apply ih _ _ hch.2
      · intro e he
        exact hn e (by rw [walk_eq]; exact List.mem_cons_of_mem _ (List.mem_flatMap.mpr ⟨d, hch.1, he⟩))
      · intro e he hp
        have h1 := h e (by rw [walk_eq]; exact List.mem_cons_of_mem _ (List.mem_flatMap.mpr ⟨d, hch.1, he⟩)) hp
        simp only [chainEntries, List.mem_cons] at h1 ⊢
        rcases h1 with rfl | h1
        · obtain ⟨r, hr⟩ := walk_below d _ _ he
          have := congrArg List.length hr
          simp at this
        · exact h1
    have hnil : ∀ l : List Cmd, (∀ x ∈ l, x ∈ c.children ∧ x ≠ d) →
        (l.flatMap (fun d => d.walk (ps ++ [c]))).filter P = [] := by
      intro l hl
      rw [List.filter_eq_nil_iff]
      intro e he
      obtain ⟨x, hx, he⟩ := List.mem_flatMap.mp he
      have := hother x (hl x hx).1 (hl x hx).2
      rw [List.filter_eq_nil_iff] at this
      exact this e he
    rw [walk_eq]
    have e1 : chainEntries ps (c :: d :: rest) = (ps, c) :: chainEntries (ps ++ [c]) (d :: rest) := rfl
    rw [e1, hsplit, List.flatMap_append, List.flatMap_cons]
    simp only [List.filter_cons, List.filter_append]
    rw [hnil pre, hnil post, hd]
    · simp
    · intro x hx; exact ⟨by rw [hsplit]; simp [hx], fun e => hpost (e ▸ hx)⟩
    · intro x hx; exact ⟨by rw [hsplit]; simp [hx], fun e => hpre (e ▸ hx)⟩

/-- A place is a chain from the root. -/
theorem at_isChain {root : Cmd} {parents : List Cmd} {c : Cmd} (h : At root parents c) :
    ∃ rest, parents ++ [c] = root :: rest ∧ IsChain root rest := by
  induction h with
  | root => exact ⟨[], rfl, trivial⟩
  | @child parents c d _ hd ih =>
    obtain ⟨rest, h1, h2⟩ := ih
    refine ⟨rest ++ [d], by rw [h1]; simp, ?_⟩
    have hl : (root :: rest).getLast? = some c := by rw [← h1]; simp
    clear h1
    generalize root = r at h2 hl
    induction rest generalizing r with
    | nil => simp at hl; subst hl; exact ⟨hd, trivial⟩
    | cons x xs ih => exact ⟨h2.1, ih x h2.2 (by simpa using hl)⟩

/-- Every place on the chain to a place is a place. -/
theorem at_prefix {root : Cmd} {parents : List Cmd} {c : Cmd} (h : At root parents c) :
    ∀ e ∈ chainEntries [] (parents ++ [c]), At root e.1 e.2 := by
  induction h with
  | root => intro e he; simp [chainEntries] at he; subst he; exact At.root
  | @child parents c d hat hd ih =>
    intro e he
    rw [chainEntries_snoc] at he
    simp only [List.nil_append, List.mem_append, List.mem_singleton] at he
    rcases he with he | rfl
    · exact ih e he
    · exact At.child hat hd

theorem reached_at {root : Cmd} {ps : List Str} {parents : List Cmd} {c : Cmd} (h : ReachedM root ps parents c) :
    At root parents c := by
  induction h with
  | start => exact At.root
  | word _ _ _ ih => exact ih
  | sub _ _ hd _ ih => exact At.child ih hd

/-- The place of the subcommand in terms of widths. -/
theorem positionalIndex_eq (parents : List Cmd) (n : Nat) :
    positionalIndex parents n = n - 1 + (parents.map width).sum := by
  unfold positionalIndex
  have : ∀ m, parents.foldl (fun n c => n + highestNumber c.data.positionals +
      (if c.sub.isSome = true then 1 else 0)) m = m + (parents.map width).sum := by
    induction parents with
    | nil => intro m; simp
    | cons c cs ih =>
      intro m
      rw [List.foldl_cons, ih, List.map_cons, List.sum_cons, highest_eq]
      unfold width; omega
  rw [this]

theorem subSlot_eq {parents : List Cmd} {c : Cmd} (hw : WellNumbered c) {n : Nat} (h : subSlot parents c = some n) :
    n + 1 = (parents.map width).sum + width c := by
  unfold subSlot at h
  cases hs : c.sub with
  | none => rw [hs] at h; simp at h
  | some k =>
    rw [hs] at h
    simp at h
    have := hw k hs
    rw [positionalIndex_eq] at h
    have h3 : width c = (c.data.positionals.map (·.number)).foldr max 0 + 1 := by unfold width; rw [hs]; simp
    omega

/-- While a command is current, the place of its subcommand has not been reached. -/
theorem reached_slot {root : Cmd} (hc : CleanTreeM root) {ps : List Str} {parents : List Cmd} {c : Cmd}
    (h : ReachedM root ps parents c) : (parents.map width).sum ≤ ps.length ∧
      ∀ n, subSlot parents c = some n → ps.length ≤ n := by
  induction h with
  | start => simp
  | @word ps parents c w hr hne ih =>
    refine ⟨by simp; omega, ?_⟩
    intro n hn
    have := ih.2 n hn
    have : n ≠ ps.length := fun e => hne (by rw [hn, e])
    simp; omega
  | @sub ps parents c d w hr hs hd hw ih =>
    have hat := reached_at hr
    have h1 := subSlot_eq (hc.numbered _ _ hat) hs
    refine ⟨by simp; omega, ?_⟩
    intro n hn
    have h2 := subSlot_eq (hc.numbered _ _ (At.child hat hd)) hn
    simp at h2
    have : 1 ≤ width d := by
      unfold subSlot at hn
      unfold width
      cases hs : d.sub with
      | none => rw [hs] at hn; simp at hn
      | some k => simp
    simp; omega

/-- The words that selected the commands on the way. -/
theorem reached_words {root : Cmd} {ps : List Str} {parents : List Cmd} {c : Cmd} (h : ReachedM root ps parents c) :
    ∀ pre p d post, parents ++ [c] = pre ++ p :: d :: post →
      ∃ n w, subSlot pre p = some n ∧ ps[n]? = some w ∧ w ∈ variations p d := by
  induction h with
  | start =>
    intro pre p d post he
    have := congrArg List.length he
    simp at this
    omega
  | @word ps parents c w hr hne ih =>
    intro pre p d post he
    obtain ⟨n, v, h1, h2, h3⟩ := ih pre p d post he
    refine ⟨n, v, h1, ?_, h3⟩
    obtain ⟨hlt, _⟩ := List.getElem?_eq_some_iff.mp h2
    rw [List.getElem?_append_left hlt]; exact h2
  | @sub ps parents c d' w hr hs hd hw ih =>
    intro pre p d post he
    cases hp : post.reverse with
    | nil =>
      have : post = [] := by simpa using hp
      subst this
      have h1 : parents ++ [c] ++ [d'] = (pre ++ [p]) ++ [d] := by simpa using he
      obtain ⟨h2, h3⟩ := List.append_inj' h1 rfl
      obtain ⟨h4, h5⟩ := List.append_inj' h2 rfl
      simp at h3 h5
      subst h3 h4 h5
      exact ⟨ps.length, w, hs, by simp, hw⟩
    | cons x xs =>
      have : post = xs.reverse ++ [x] := by
        have := congrArg List.reverse hp; simpa using this
      subst this
      have h1 : parents ++ [c] ++ [d'] = (pre ++ p :: d :: xs.reverse) ++ [x] := by simpa using he
      obtain ⟨h2, h3⟩ := List.append_inj' h1 rfl
      obtain ⟨n, v, h1, h2, h3⟩ := ih pre p d _ h2
      refine ⟨n, v, h1, ?_, h3⟩
      obtain ⟨hlt, _⟩ := List.getElem?_eq_some_iff.mp h2
      rw [List.getElem?_append_left hlt]; exact h2

/-- A place whose selecting words agree with the positionals lies on the chain that was reached. -/
theorem reached_unique {root : Cmd} (hc : CleanTreeM root) {ps : List Str} {parents : List Cmd} {c : Cmd}
    (h : ReachedM root ps parents c) {qs : List Cmd} {x : Cmd} (hx : At root qs x)
    (hw : ∀ pre p d post, qs ++ [x] = pre ++ p :: d :: post →
      ∃ n, subSlot pre p = some n ∧ ps.getD n [] ∈ variations p d) :
    ∃ post, parents ++ [c] = qs ++ x :: post := by
  induction hx with
  | root =>
    obtain ⟨rest, hr, -⟩ := at_isChain (reached_at h)
    exact ⟨rest, by simpa using hr⟩
  | @child qs y x hy hxy ih =>
    have ih := ih (by
      intro pre p d post he
      exact hw pre p d (post ++ [x]) (by rw [he]; simp))
    obtain ⟨post, hpost⟩ := ih
    obtain ⟨n, hn, hmem⟩ := hw qs y x [] (by simp)
    cases post with
    | nil =>
      have h1 : parents = qs ∧ [c] = [y] := List.append_inj' (by simpa using hpost) rfl
      obtain ⟨rfl, hcy⟩ := h1
      simp at hcy
      subst hcy
      have h2 := (reached_slot hc h).2 n hn
      have : ps.getD n [] = [] := by simp [List.getD, List.getElem?_eq_none h2]
      rw [this] at hmem
      exact absurd hmem (hc.nonempty _ _ hy _ hxy)
    | cons z post =>
      obtain ⟨m, w, h1, h2, h3⟩ := reached_words h qs y z post hpost
      rw [hn] at h1
      have : n = m := by simpa using h1
      subst this
      rw [List.getD_eq_getElem?_getD, h2] at hmem
      have hz : z ∈ y.children := by
        obtain ⟨rest, hr, hch⟩ := at_isChain (reached_at h)
        rw [hpost] at hr
        clear hpost
        have : ∀ (r : Cmd) (rest qs : List Cmd), qs ++ y :: z :: post = r :: rest → IsChain r rest → z ∈ y.children := by
          intro r rest
          induction rest generalizing r with
          | nil => intro qs he; have := congrArg List.length he; simp at this; omega
          | cons a rest ih =>
            intro qs he hch
            cases qs with
            | nil => simp at he; obtain ⟨rfl, rfl, _⟩ := he; exact hch.1
            | cons b qs => exact ih a qs (by simpa using (List.cons.inj he).2) hch.2
        exact this root rest qs hr hch
      have := hc.distinct _ _ hy z hz x hxy w h3 (by simpa using hmem)
      subst this
      exact ⟨post, by simpa using hpost⟩

/-! ## From the specification to the model -/

theorem mem_variations (c d : Cmd) (hne : d.data.prog ≠ []) (w : Str) : w ∈ variations c d ↔ SelectsSub c d w := by
  unfold variations SelectsSub
  rw [List.mem_append]
  by_cases ha : d.data.abbreviateCommands = .val true
  · rw [if_pos ha, mem_abbreviationsOf]
    have hlen : 1 ≤ w.length ↔ w ≠ [] := by cases w <;> simp
    have hmap : (∀ o ∈ c.children.map (fun x => x.data.prog), o ≠ d.data.prog → ¬ w <+: o) ↔
        ∀ e ∈ c.children, e.data.prog ≠ d.data.prog → ¬ w <+: e.data.prog := by simp
    rw [hlen, hmap]
    constructor
    · rintro (⟨h1, h2, h3 | h3⟩ | h)
      · exact Or.inl h3
      · exact Or.inr (Or.inr ⟨ha, h2, h1, h3⟩)
      · exact Or.inr (Or.inl h)
    · rintro (rfl | h | ⟨-, h1, h2, h3⟩)
      · exact Or.inl ⟨List.prefix_refl _, hne, Or.inl rfl⟩
      · exact Or.inr h
      · exact Or.inl ⟨h2, h1, Or.inr h3⟩
  · rw [if_neg ha]; simp [ha]

theorem subSlot_iff {parents : List Cmd} {c : Cmd} (hw : WellNumbered c) (n : Nat) :
    subSlot parents c = some n ↔ SubPlace parents c n := by
  constructor
  · intro h
    have h1 := subSlot_eq hw h
    unfold subSlot at h
    cases hs : c.sub with
    | none => rw [hs] at h; simp at h
    | some k =>
      refine ⟨by simp [hs], ?_⟩
      simp [width, hs] at h1 ⊢
      omega
  · rintro ⟨h1, h2⟩
    cases hs : c.sub with
    | none => rw [hs] at h1; simp at h1
    | some k =>
      have h3 : subSlot parents c = some (positionalIndex parents k) := by unfold subSlot; rw [hs]; rfl
      have h4 := subSlot_eq hw h3
      rw [h3]
      simp [width, hs] at h4 h2 ⊢
      omega

theorem CleanTree.toM {root : Cmd} (h : CleanTree root) : CleanTreeM root := by
  refine ⟨?_, ?_, h.names, h.numbered, h.slot⟩
  · intro parents c hat d hd e he w h1 h2
    exact h.distinct _ _ hat d hd e he w ((mem_variations c d (h.nonempty _ _ hat d hd).1 w).mp h1)
      ((mem_variations c e (h.nonempty _ _ hat e he).1 w).mp h2)
  · intro parents c hat d hd hm
    have hn := h.nonempty _ _ hat d hd
    rcases (mem_variations c d hn.1 _).mp hm with h1 | h1 | h1
    · exact hn.1 h1.symm
    · exact hn.2 h1
    · exact h1.2.1 rfl

theorem reached_iff {root : Cmd} (hc : CleanTree root) (ps : List Str) (parents : List Cmd) (c : Cmd) :
    Reached root ps parents c ↔ ReachedM root ps parents c := by
  constructor
  · intro h
    induction h with
    | start => exact .start
    | @word ps parents c w hr hne ih =>
      exact .word w ih (fun h => hne ((subSlot_iff (hc.numbered _ _ (reached_at ih)) _).mp h))
    | @sub ps parents c d w hr hs hd hw ih =>
      exact .sub ih ((subSlot_iff (hc.numbered _ _ (reached_at ih)) _).mpr hs) hd
        ((mem_variations c d (hc.nonempty _ _ (reached_at ih) d hd).1 w).mpr hw)
  · intro h
    induction h with
    | start => exact .start
    | @word ps parents c w hr hne ih =>
      exact .word w ih (fun h => hne ((subSlot_iff (hc.numbered _ _ (reached_at hr)) _).mpr h))
    | @sub ps parents c d w hr hs hd hw ih =>
      exact .sub ih ((subSlot_iff (hc.numbered _ _ (reached_at hr)) _).mp hs) hd
        ((mem_variations c d (hc.nonempty _ _ (reached_at hr) d hd).1 w).mp hw)

end CC
