import Verif.Spec.SharingSpec
/-!
# C65: making a completer does not influence other completers
-/

namespace CC

/-- The heap after the dictionaries at some addresses have been used. -/
def emptied (h : OptsHeap) (used : List Nat) : OptsHeap :=
  fun b => if b ∈ used then { h b with separator := none, duplicates := none } else h b

theorem emptied_nil (h : OptsHeap) : emptied h [] = h := by funext b; simp [emptied]

theorem emptied_append (h : OptsHeap) (u v : List Nat) : emptied (emptied h u) v = emptied h (u ++ v) := by
  funext b
  by_cases h1 : b ∈ u <;> by_cases h2 : b ∈ v <;> simp [emptied, h1, h2]

theorem popOpts_heap (h : OptsHeap) (a : Option Nat) : (popOpts h a).2 = emptied h a.toList := by
  cases a with
  | none => simp [popOpts, emptied_nil]
  | some a =>
    funext b
    by_cases hb : b = a
    · subst hb; simp [popOpts, emptied]
    · simp [popOpts, emptied, hb]

theorem popOpts_value (h : OptsHeap) (a : Option Nat) : (popOpts h a).1 = writtenOpts h a := by
  cases a <;> rfl

mutual
theorem make_heap (c : CompDef) (h : OptsHeap) : (c.make h).2 = emptied h c.uses := by
  cases c with
  | fileList a => simp only [CompDef.make, CompDef.uses, popOpts_heap]
  | directoryList a => simp only [CompDef.make, CompDef.uses, popOpts_heap]
  | list c s d => simp only [CompDef.make, CompDef.uses]; exact make_heap c h
  | combine cs => simp only [CompDef.make, CompDef.uses]; exact makeAll_heap cs h
  | keyValues cs => simp only [CompDef.make, CompDef.uses]; exact makeAll_heap cs h
  | «prefix» t c => simp only [CompDef.make, CompDef.uses]; exact make_heap c h
  | other t => simp only [CompDef.make, CompDef.uses, emptied_nil]
theorem makeAll_heap (cs : List CompDef) (h : OptsHeap) : (CompDef.makeAll h cs).2 = emptied h (CompDef.usesAll cs) := by
  cases cs with
  | nil => simp only [CompDef.makeAll, CompDef.usesAll, emptied_nil]
  | cons c cs =>
    simp only [CompDef.makeAll, CompDef.usesAll]
    rw [makeAll_heap cs, make_heap c, emptied_append]
end

/-- Every use of an address that was used before finds nothing but defaults. -/
def GoodUses (h : OptsHeap) : List Nat → List Nat → Prop
  | _, [] => True
  | used, a :: us => (a ∈ used → DefaultOpts (h a)) ∧ GoodUses h (a :: used) us

theorem goodUses_congr (h : OptsHeap) (us : List Nat) : ∀ u v : List Nat, (∀ a, a ∈ u ↔ a ∈ v) →
    (GoodUses h u us ↔ GoodUses h v us) := by
  induction us with
  | nil => intro u v _; exact Iff.rfl
  | cons a us ih =>
    intro u v e
    simp only [GoodUses]
    rw [e a, ih (a :: u) (a :: v) (fun b => by simp [e b])]

theorem goodUses_append (h : OptsHeap) (us vs : List Nat) : ∀ u : List Nat,
    (GoodUses h u (us ++ vs) ↔ GoodUses h u us ∧ GoodUses h (u ++ us) vs) := by
  induction us with
  | nil => intro u; simp [GoodUses]
  | cons a us ih =>
    intro u
    simp only [GoodUses, List.cons_append]
    rw [ih (a :: u), goodUses_congr h vs (a :: u ++ us) (u ++ a :: us) (fun b => by simp only [List.mem_append, List.mem_cons, List.cons_append]; constructor <;> (rintro (h | h | h) <;> simp [h]))]
    exact and_assoc.symm

theorem writtenOpts_emptied (h : OptsHeap) (u : List Nat) (a : Option Nat) :
    writtenOpts (emptied h u) a = writtenOpts h a ↔ GoodUses h u a.toList := by
  cases a with
  | none => simp [writtenOpts, GoodUses]
  | some a =>
    by_cases m : a ∈ u
    · simp only [writtenOpts, emptied, m, if_true, GoodUses, Option.toList, DefaultOpts, Option.getD_none, true_implies, and_true, Prod.mk.injEq]
      exact ⟨fun e => ⟨e.1.symm, e.2.symm⟩, fun e => ⟨e.1.symm, e.2.symm⟩⟩
    · simp [writtenOpts, emptied, m, GoodUses]

mutual
theorem make_value (c : CompDef) (h : OptsHeap) (u : List Nat) :
    (c.make (emptied h u)).1 = c.written h ↔ GoodUses h u c.uses := by
  cases c with
  | fileList a =>
    simp only [CompDef.make, CompDef.written, CompDef.uses, popOpts_value, CompObj.fileList.injEq]
    rw [← writtenOpts_emptied]
    exact ⟨fun e => Prod.ext e.1 (Prod.ext e.2.1 e.2.2), fun e => by simp [e]⟩
  | directoryList a =>
    simp only [CompDef.make, CompDef.written, CompDef.uses, popOpts_value, CompObj.directoryList.injEq]
    rw [← writtenOpts_emptied]
    exact ⟨fun e => Prod.ext e.1 (Prod.ext e.2.1 e.2.2), fun e => by simp [e]⟩
  | list c s d =>
    simp only [CompDef.make, CompDef.written, CompDef.uses, CompObj.list.injEq, and_true]; exact make_value c h u
  | combine cs =>
    simp only [CompDef.make, CompDef.written, CompDef.uses, CompObj.combine.injEq]; exact makeAll_value cs h u
  | keyValues cs =>
    simp only [CompDef.make, CompDef.written, CompDef.uses, CompObj.keyValues.injEq]; exact makeAll_value cs h u
  | «prefix» t c =>
    simp only [CompDef.make, CompDef.written, CompDef.uses, CompObj.prefix.injEq, true_and]; exact make_value c h u
  | other t => simp [CompDef.make, CompDef.written, CompDef.uses, GoodUses]
theorem makeAll_value (cs : List CompDef) (h : OptsHeap) (u : List Nat) :
    (CompDef.makeAll (emptied h u) cs).1 = CompDef.writtenAll h cs ↔ GoodUses h u (CompDef.usesAll cs) := by
  cases cs with
  | nil => simp [CompDef.makeAll, CompDef.writtenAll, CompDef.usesAll, GoodUses]
  | cons c cs =>
    simp only [CompDef.makeAll, CompDef.writtenAll, CompDef.usesAll, List.cons.injEq]
    rw [make_heap c, emptied_append, make_value c h u, makeAll_value cs h (u ++ c.uses), goodUses_append]
end

theorem goodUses_iff (h : OptsHeap) (us : List Nat) : ∀ u : List Nat,
    (GoodUses h u us ↔ ∀ a ∈ us, (a ∈ u ∨ 2 ≤ us.count a) → DefaultOpts (h a)) := by
  induction us with
  | nil => intro u; simp [GoodUses]
  | cons a us ih =>
    intro u
    simp only [GoodUses]
    rw [ih (a :: u)]
    constructor
    · rintro ⟨h1, h2⟩ b hb hc
      by_cases e : b = a
      · subst e
        rcases hc with hc | hc
        · exact h1 hc
        · rw [List.count_cons_self] at hc
          exact h2 b (List.count_pos_iff.mp (by omega)) (Or.inl (List.mem_cons_self ..))
      · have hb : b ∈ us := by simpa [e] using hb
        rw [List.count_cons_of_ne (Ne.symm e)] at hc
        refine h2 b hb ?_
        rcases hc with hc | hc
        · exact Or.inl (List.mem_cons_of_mem _ hc)
        · exact Or.inr hc
    · intro H
      refine ⟨fun m => H a (List.mem_cons_self ..) (Or.inl m), ?_⟩
      intro b hb hc
      refine H b (List.mem_cons_of_mem _ hb) ?_
      by_cases e : b = a
      · subst e
        refine Or.inr ?_
        rw [List.count_cons_self]
        have := List.count_pos_iff.mpr hb
        omega
      · rw [List.count_cons_of_ne (Ne.symm e)]
        rcases hc with hc | hc
        · exact Or.inl (by simpa [e] using hc)
        · exact Or.inr hc

/-- **C65 (partial), generating one script.** The completers made for the options and positionals of a command
line are all as written exactly when every dictionary of a `file_list` or `directory_list` that is used in two
or more places says nothing but the defaults. -/
theorem C65_script_partial (h : OptsHeap) (cs : List CompDef) :
    (CompDef.makeAll h cs).1 = CompDef.writtenAll h cs ↔
      ∀ a, 2 ≤ (CompDef.usesAll cs).count a → DefaultOpts (h a) := by
  have e := makeAll_value cs h []
  rw [emptied_nil, goodUses_iff] at e
  rw [e]
  constructor
  · intro H a c
    exact H a (List.count_pos_iff.mp (by omega)) (Or.inr c)
  · intro H a _ c
    rcases c with c | c
    · cases c
    · exact H a c

/-- **C65 (partial), generating a second script from the same command line.** Whatever was made before, in any
number of runs: the completers made now are as written exactly when every dictionary that was used before or
that is used twice says nothing but the defaults. -/
theorem C65_again_partial (h : OptsHeap) (before : List CompDef) (cs : List CompDef) :
    (CompDef.makeAll (CompDef.makeAll h before).2 cs).1 = CompDef.writtenAll h cs ↔
      ∀ a ∈ CompDef.usesAll cs, (a ∈ CompDef.usesAll before ∨ 2 ≤ (CompDef.usesAll cs).count a) → DefaultOpts (h a) := by
  rw [makeAll_heap, makeAll_value, goodUses_iff]

/-- **C65, what is left of the command line.** Making completers changes nothing but the separators and
the duplicates of the dictionaries that are used; these are taken out. -/
theorem C65_left (h : OptsHeap) (cs : List CompDef) (a : Nat) :
    (CompDef.makeAll h cs).2 a =
      if a ∈ CompDef.usesAll cs then { separator := none, duplicates := none, rest := (h a).rest } else h a := by
  rw [makeAll_heap]; rfl

/-- The dictionary of a define: a colon as separator, duplicates allowed. -/
def pathOpts : OptsHeap := fun a => if a = 0 then { separator := some [':'], duplicates := some true } else {}

/-- **C65 is false of the code.** Two options use one define for a list of directories that are separated by
colons. The second one gets a comma and no duplicates. -/
theorem C65_shared_define :
    (CompDef.makeAll pathOpts [.directoryList (some 0), .combine [.directoryList (some 0), .other ['x']]]).1 =
      [.directoryList [':'] true [], .combine [.directoryList [','] false [], .other ['x']]] := rfl

/-- **C65 is false of the code, for two scripts.** One option with a list of files; the first script gets the
colon, the second one gets a comma. -/
theorem C65_second_script :
    (CompDef.makeAll pathOpts [.fileList (some 0)]).1 = [.fileList [':'] true []] ∧
    (CompDef.makeAll (CompDef.makeAll pathOpts [.fileList (some 0)]).2 [.fileList (some 0)]).1 =
      [.fileList [','] false []] := ⟨rfl, rfl⟩

/-- The hypotheses are met: two dictionaries, each used once, inside other completers. -/
theorem C65_example :
    (CompDef.makeAll (fun a => if a = 0 then { separator := some [':'] } else { duplicates := some true })
      [.list (.fileList (some 0)) [';'] true, .prefix ['p'] (.directoryList (some 1)), .fileList none]).1 =
    [.list (.fileList [':'] false []) [';'] true, .prefix ['p'] (.directoryList [','] true []), .fileList [','] false []] := by
  refine (C65_script_partial _ _).mpr ?_
  intro a c
  have e : CompDef.usesAll [.list (.fileList (some 0)) [';'] true, .prefix ['p'] (.directoryList (some 1)), .fileList none] = [0, 1] := rfl
  rw [e] at c
  by_cases h0 : a = 0
  · subst h0; exact absurd c (by decide)
  · by_cases h1 : a = 1
    · subst h1; exact absurd c (by decide)
    · rw [List.count_eq_zero.mpr (by simp [h0, h1])] at c; omega

end CC
