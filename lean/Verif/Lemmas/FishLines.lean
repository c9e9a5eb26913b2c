import Verif.Lemmas.FishRuns
/-!
# Lemmas: the `complete` commands of the generated script
-/

namespace CC
namespace FishReads
open FishCode
open ShellGrammar (Tok)

/-! ## The words of a `complete` command -/

/-- Every value with the flag in front. -/
def flags (f : Str) (l : List Str) : List Str := l.flatMap (fun x => [f, x])

theorem flags_nil (f : Str) : flags f [] = [] := rfl
theorem flags_cons (f x : Str) (l : List Str) : flags f (x :: l) = f :: x :: flags f l := rfl

/-- The words behind `complete`. -/
def lineWords (command : Str) (conditions shorts longs olds : List Str) (description : Option Str) (letters : List Char)
    (arguments : Option Str) : List Str :=
  flags (S "-c") [command] ++ flags (S "-n") conditions ++ flags (S "-s") shorts ++ flags (S "-l") longs ++
    flags (S "-o") olds ++ flags (S "-d") description.toList ++ (if letters = [] then [] else ['-' :: letters]) ++
    flags (S "-a") arguments.toList

theorem request_conditions (l ws : List Str) : ∀ r, FishRun.request r (flags (S "-n") l ++ ws) =
    FishRun.request { r with conditions := r.conditions ++ l } ws := by
  induction l with
  | nil => intro r; simp [flags]
  | cons x l ih =>
    intro r
    rw [flags_cons, List.cons_append, List.cons_append, FishRun.request]
    have : FishRun.withValue r (S "-n") x = some { r with conditions := r.conditions ++ [x] } := rfl
    rw [this]
    simp only
    rw [ih]
    simp

theorem request_shorts (l ws : List Str) : ∀ r, FishRun.request r (flags (S "-s") l ++ ws) =
    FishRun.request { r with shorts := r.shorts ++ l } ws := by
  induction l with
  | nil => intro r; simp [flags]
  | cons x l ih =>
    intro r
    rw [flags_cons, List.cons_append, List.cons_append, FishRun.request]
    have : FishRun.withValue r (S "-s") x = some { r with shorts := r.shorts ++ [x] } := rfl
    rw [this]
    simp only
    rw [ih]
    simp

theorem request_longs (l ws : List Str) : ∀ r, FishRun.request r (flags (S "-l") l ++ ws) =
    FishRun.request { r with longs := r.longs ++ l } ws := by
  induction l with
  | nil => intro r; simp [flags]
  | cons x l ih =>
    intro r
    rw [flags_cons, List.cons_append, List.cons_append, FishRun.request]
    have : FishRun.withValue r (S "-l") x = some { r with longs := r.longs ++ [x] } := rfl
    rw [this]
    simp only
    rw [ih]
    simp

theorem request_olds (l ws : List Str) : ∀ r, FishRun.request r (flags (S "-o") l ++ ws) =
    FishRun.request { r with olds := r.olds ++ l } ws := by
  induction l with
  | nil => intro r; simp [flags]
  | cons x l ih =>
    intro r
    rw [flags_cons, List.cons_append, List.cons_append, FishRun.request]
    have : FishRun.withValue r (S "-o") x = some { r with olds := r.olds ++ [x] } := rfl
    rw [this]
    simp only
    rw [ih]
    simp

/-- The letters that `complete` takes here. -/
def isLetter (c : Char) : Bool := c == 'r' || c == 'k' || c == 'f' || c == 'F' || c == 'x'

theorem letter_no_value {letters : List Char} (h : ∀ c ∈ letters, isLetter c = true) (r : FishRun.Request) (v : Str) :
    FishRun.withValue r ('-' :: letters) v = none := by
  have key : ∀ c : Char, isLetter c = false → '-' :: letters ≠ ['-', c] := by
    intro c hc e
    simp only [List.cons.injEq, true_and] at e
    subst e
    have := h c (by simp)
    rw [hc] at this; cases this
  unfold FishRun.withValue
  simp only [show "-c".toList = ['-', 'c'] from rfl, show "-n".toList = ['-', 'n'] from rfl, show "-s".toList = ['-', 's'] from rfl,
    show "-l".toList = ['-', 'l'] from rfl, show "-o".toList = ['-', 'o'] from rfl, show "-d".toList = ['-', 'd'] from rfl,
    show "-a".toList = ['-', 'a'] from rfl, show "-w".toList = ['-', 'w'] from rfl, if_neg (key 'c' rfl), if_neg (key 'n' rfl),
    if_neg (key 's' rfl), if_neg (key 'l' rfl), if_neg (key 'o' rfl), if_neg (key 'd' rfl), if_neg (key 'a' rfl), if_neg (key 'w' rfl)]

theorem letter_letters {letters : List Char} (h : ∀ c ∈ letters, isLetter c = true) (hne : letters ≠ []) (r : FishRun.Request) :
    FishRun.withLetters r ('-' :: letters) = some { r with letters := r.letters ++ letters } := by
  cases letters with
  | nil => exact absurd rfl hne
  | cons c cs =>
    simp only [FishRun.withLetters]
    rw [if_pos]
    rw [List.all_eq_true]
    intro x hx
    have := h x hx
    simp only [isLetter, Bool.or_eq_true, beq_iff_eq] at this
    rcases this with (((rfl | rfl) | rfl) | rfl) | rfl <;> decide

theorem request_letters {letters : List Char} (h : ∀ c ∈ letters, isLetter c = true) (ws : List Str) (r : FishRun.Request) :
    FishRun.request r ((if letters = [] then [] else ['-' :: letters]) ++ ws) =
      FishRun.request { r with letters := r.letters ++ letters } ws := by
  by_cases hne : letters = []
  · subst hne; simp
  · rw [if_neg hne]
    cases ws with
    | nil => simp [FishRun.request, letter_letters h hne]
    | cons v ws =>
      simp only [List.cons_append, List.nil_append]
      rw [FishRun.request]
      simp only [letter_no_value h, letter_letters h hne, Option.bind_some]

theorem request_description (o : Option Str) (ws : List Str) (r : FishRun.Request) (hr : r.description = none) :
    FishRun.request r (flags (S "-d") o.toList ++ ws) = FishRun.request { r with description := o } ws := by
  cases o with
  | none => simp only [Option.toList_none, flags_nil, List.nil_append]; rw [← hr]
  | some x =>
    simp only [Option.toList_some, flags_cons, flags_nil, List.cons_append, List.nil_append]
    rw [FishRun.request]
    rfl

theorem request_arguments (o : Option Str) (r : FishRun.Request) (hr : r.arguments = none) :
    FishRun.request r (flags (S "-a") o.toList) = some { r with arguments := o } := by
  cases o with
  | none => simp only [Option.toList_none, flags_nil, FishRun.request]; rw [← hr]
  | some x =>
    simp only [Option.toList_some, flags_cons, flags_nil]
    rw [FishRun.request]
    rfl

theorem request_line (command : Str) (conditions shorts longs olds : List Str) (description : Option Str) (letters : List Char)
    (arguments : Option Str) (h : ∀ c ∈ letters, isLetter c = true) :
    FishRun.request {} (lineWords command conditions shorts longs olds description letters arguments) =
      some { command := some command, conditions, shorts, longs, olds, description, letters, arguments } := by
  unfold lineWords
  simp only [List.append_assoc]
  have h0 : ∀ ws, FishRun.request {} (flags (S "-c") [command] ++ ws) = FishRun.request { command := some command } ws := by
    intro ws
    simp only [flags_cons, flags_nil, List.cons_append, List.nil_append]
    rw [FishRun.request]
    rfl
  rw [h0, request_conditions, request_shorts, request_longs, request_olds, request_description _ _ _ rfl, request_letters h,
    request_arguments _ _ rfl]
  simp

theorem complete_line (a : FishRun.State) (command : Str) (conditions shorts longs olds : List Str) (description : Option Str)
    (letters : List Char) (arguments : Option Str) (h : ∀ c ∈ letters, isLetter c = true) :
    FishRun.complete a (lineWords command conditions shorts longs olds description letters arguments) =
      some { a with entries := a.entries ++ [{
        command, conditions, shorts, longs, olds, description, arguments
        requires := letters.contains 'r' || letters.contains 'x'
        noFiles := letters.contains 'f' || letters.contains 'x'
        forceFiles := letters.contains 'F'
        keepOrder := letters.contains 'k' }] } := by
  unfold FishRun.complete
  rw [request_line _ _ _ _ _ _ _ _ h]
  simp only [bind, Option.bind_some]
  have : letters.contains 'e' = false := by
    rw [Bool.eq_false_iff]
    intro hc
    rw [List.contains_iff_mem] at hc
    have := h _ hc
    revert this; decide
  rw [this]
  rfl

theorem all2_flags {R : Str → Str → Prop} {f : Str} (hf : R f f) {ts xs : List Str} (h : All2 R ts xs) : All2 R (flags f ts) (flags f xs) := by
  induction h with
  | nil => exact .nil
  | cons h _ ih => exact .cons hf (.cons h ih)

theorem all2_append {α β : Type} {R : α → β → Prop} {as cs : List α} {bs ds : List β} (h1 : All2 R as bs) (h2 : All2 R cs ds) :
    All2 R (as ++ cs) (bs ++ ds) := by
  induction h1 with
  | nil => exact h2
  | cons h _ ih => exact .cons h ih

theorem reads_line_words {vars : List (Str × Str)} {c c' : Str} {n n' s s' l l' o o' : List Str} {d d' : Option Str}
    {letters : List Char} (hl : ∀ c ∈ letters, isLetter c = true) {a a' : Option Str} (h1 : Reads vars c c')
    (h2 : All2 (Reads vars) n n') (h3 : All2 (Reads vars) s s') (h4 : All2 (Reads vars) l l') (h5 : All2 (Reads vars) o o')
    (h6 : All2 (Reads vars) d.toList d'.toList) (h7 : All2 (Reads vars) a.toList a'.toList) :
    All2 (Reads vars) (lineWords c n s l o d letters a) (lineWords c' n' s' l' o' d' letters a') := by
  unfold lineWords
  have hlit : ∀ f ∈ [S "-c", S "-n", S "-s", S "-l", S "-o", S "-d", S "-a"], Reads vars f f := by
    have : ∀ f ∈ [S "-c", S "-n", S "-s", S "-l", S "-o", S "-d", S "-a"], f ≠ [] ∧ ∀ c ∈ f, isSafeChar c = true := by decide
    intro f hf
    exact reads_safe vars f (this f hf).1 (this f hf).2
  refine all2_append (all2_append (all2_append (all2_append (all2_append (all2_append (all2_append ?_ ?_) ?_) ?_) ?_) ?_) ?_) ?_
  · exact all2_flags (hlit _ (by simp)) (.cons h1 .nil)
  · exact all2_flags (hlit _ (by simp)) h2
  · exact all2_flags (hlit _ (by simp)) h3
  · exact all2_flags (hlit _ (by simp)) h4
  · exact all2_flags (hlit _ (by simp)) h5
  · exact all2_flags (hlit _ (by simp)) h6
  · split
    · exact .nil
    · refine .cons (reads_safe vars _ (by simp) ?_) .nil
      intro c hc
      rcases List.mem_cons.mp hc with rfl | hc
      · decide
      · have := hl c hc
        simp only [isLetter, Bool.or_eq_true, beq_iff_eq] at this
        rcases this with (((rfl | rfl) | rfl) | rfl) | rfl <;> decide
  · exact all2_flags (hlit _ (by simp)) h7

/-! ## The command of a definition -/

/-- The names of options without their dashes. -/
def nameOf (s : Str) : Str := stripDashes s

/-- The last argument of the items. -/
def itemArguments (items : List FishArgItem) : Option Str :=
  (items.filterMap (fun | .a s => some s | _ => none)).getLast?

/-- The letters that the definition asks for. -/
def askedLetters (d : FishDef) (items : List FishArgItem) : List Char :=
  (if d.target.requires then ['r'] else []) ++ (if d.target.keepOrder then ['k'] else []) ++ items.flatMap FishArgItem.letters

theorem asked_added (cs : List FStr) (placed : List Str) (rest : List FishCall) :
    askedConditions cs (placed.map (FishCall.addCondition · true) ++ rest) =
      askedConditions (cs ++ placed.map (fun s => ⟨s, true⟩)) rest := by
  induction placed generalizing cs with
  | nil => simp
  | cons p r ih =>
    simp only [List.map_cons, List.cons_append, askedConditions]
    rw [ih]
    simp

theorem filterMap_added {β : Type} (f : FishCall → Option β) (hf : ∀ s, f (.addCondition s true) = none) (placed : List Str) :
    (placed.map (FishCall.addCondition · true)).filterMap f = [] := by
  induction placed with
  | nil => rfl
  | cons p r ih => simp [hf, ih]

theorem flatMap_added {β : Type} (f : FishCall → List β) (hf : ∀ s, f (.addCondition s true) = []) (placed : List Str) :
    (placed.map (FishCall.addCondition · true)).flatMap f = [] := by
  induction placed with
  | nil => rfl
  | cons p r ih => simp [hf, ih]

/-- All calls for a definition. -/
def defCalls (stacking : Bool) (d : FishDef) (args placed : List Str) : List FishCall :=
  completeCalls stacking d args ++ placed.map (FishCall.addCondition · true) ++ [.insertCondition 0 (S "$P") true]

theorem asked_item_arguments (items : List FishArgItem) :
    (items.filterMap (fun | .a s => some (some (⟨s, false⟩ : FStr)) | _ => none)).getLast?.join =
      (itemArguments items).map (fun s => ⟨s, false⟩) := by
  unfold itemArguments
  have : items.filterMap (fun | .a s => some (some (⟨s, false⟩ : FStr)) | _ => none) =
      (items.filterMap (fun | .a s => some s | _ => none)).map (fun s => some (⟨s, false⟩ : FStr)) := by
    induction items with
    | nil => rfl
    | cons i r ih => cases i <;> simp_all
  rw [this, List.getLast?_map]
  cases (items.filterMap (fun | FishArgItem.a s => some s | _ => none)).getLast? <;> rfl

theorem line_text (stacking : Bool) (d : FishDef) (args : List Str) (items : List FishArgItem) (hp : ParsesTo args items)
    (placed : List Str) :
    ∃ c letters, ({} : FishCmd).calls (defCalls stacking d args placed) = .ok c ∧
      (∀ a, a ∈ letters ↔ LetterGiven (askedLetters d items) a) ∧
      c.get.1 = joinWith [' '] (S "complete" :: lineWords (S "$prog") (S "$P" :: placed)
        ((if stacking then d.short else []).map (fun s => quote (nameOf s))) (d.long.map (fun s => quote (nameOf s)))
        ((d.old ++ if stacking then [] else d.short).map (fun s => quote (nameOf s)))
        (d.target.description.map (fun s => quote s)) letters ((itemArguments items).map (fun s => quote s))) := by
  obtain ⟨c, letters, h1, -, h2, h3⟩ := C50_command (fun _ => items) (defCalls stacking d args placed) (by
    intro args' h
    have : args' = args := by
      unfold defCalls completeCalls at h
      simp only [List.mem_append, List.mem_cons, List.mem_map, List.not_mem_nil, or_false, reduceCtorEq, and_false, exists_false,
        false_or] at h
      rcases h with (((h | h) | h) | h) | h
      · cases stacking <;> simp at h
      · cases hd : d.target.description <;> rw [hd] at h <;> simp at h
      · split at h <;> simp at h
      · split at h <;> simp at h
      · simpa using h
    subst this; exact hp)
  refine ⟨c, letters, h1, ?_, ?_⟩
  · intro a
    rw [h2]
    have : askedFlags (fun _ => items) (defCalls stacking d args placed) = askedLetters d items := by
      unfold defCalls completeCalls askedFlags askedLetters
      simp only [List.flatMap_append]
      rw [flatMap_added _ ?_]
      · cases stacking <;> cases d.target.description <;> cases d.target.requires <;> cases d.target.keepOrder <;> simp
      · intro s; rfl
    rw [this]
  · rw [h3]
    have e1 : askedCommand (defCalls stacking d args placed) = some ⟨S "$prog", true⟩ := by
      unfold defCalls completeCalls askedCommand
      simp only [List.filterMap_append]
      rw [filterMap_added _ ?_]
      · cases stacking <;> cases d.target.description <;> cases d.target.requires <;> cases d.target.keepOrder <;> simp
      · intro s; rfl
    have e2 : askedConditions [] (defCalls stacking d args placed) = (S "$P" :: placed).map (fun s => ⟨s, true⟩) := by
      unfold defCalls completeCalls
      have : ∀ pre : List FishCall, (∀ x ∈ pre, (∀ s r, x ≠ .addCondition s r) ∧ ∀ n s r, x ≠ .insertCondition n s r) → ∀ cs rest,
          askedConditions cs (pre ++ rest) = askedConditions cs rest := by
        intro pre
        induction pre with
        | nil => intros; rfl
        | cons x xs ih =>
          intro h cs rest
          have hx := h x (by simp)
          rw [List.cons_append]
          cases x with
          | addCondition s r => exact absurd rfl (hx.1 s r)
          | insertCondition n s r => exact absurd rfl (hx.2 n s r)
          | _ => exact ih (fun y hy => h y (by simp [hy])) cs rest
      rw [List.append_assoc, this, asked_added]
      · simp [askedConditions]
      · intro x hx
        simp only [List.mem_append] at hx
        rcases hx with (((hx | hx) | hx) | hx) | hx
        · cases stacking <;> (simp at hx; rcases hx with rfl | rfl | rfl | rfl <;> simp)
        · cases hd : d.target.description <;> rw [hd] at hx <;> simp at hx
          subst hx; simp
        · split at hx <;> simp at hx
          subst hx; simp
        · split at hx <;> simp at hx
          subst hx; simp
        · simp at hx; subst hx; simp
    have e3 : askedShorts (defCalls stacking d args placed) = (if stacking then d.short else []).map (fun s => ⟨nameOf s, false⟩) := by
      unfold defCalls completeCalls askedShorts
      simp only [List.flatMap_append]
      rw [flatMap_added _ ?_]
      · cases stacking <;> cases d.target.description <;> cases d.target.requires <;> cases d.target.keepOrder <;> simp [nameOf]
      · intro s; rfl
    have e4 : askedLongs (defCalls stacking d args placed) = d.long.map (fun s => ⟨nameOf s, false⟩) := by
      unfold defCalls completeCalls askedLongs
      simp only [List.flatMap_append]
      rw [flatMap_added _ ?_]
      · cases stacking <;> cases d.target.description <;> cases d.target.requires <;> cases d.target.keepOrder <;> simp [nameOf]
      · intro s; rfl
    have e5 : askedOlds (defCalls stacking d args placed) = (d.old ++ if stacking then [] else d.short).map (fun s => ⟨nameOf s, false⟩) := by
      unfold defCalls completeCalls askedOlds
      simp only [List.flatMap_append]
      rw [flatMap_added _ ?_]
      · cases stacking <;> cases d.target.description <;> cases d.target.requires <;> cases d.target.keepOrder <;> simp [nameOf]
      · intro s; rfl
    have e6 : askedDescription (defCalls stacking d args placed) = d.target.description.map (fun s => ⟨s, false⟩) := by
      unfold defCalls completeCalls askedDescription
      simp only [List.filterMap_append]
      rw [filterMap_added _ ?_]
      · cases stacking <;> cases d.target.description <;> cases d.target.requires <;> cases d.target.keepOrder <;> simp
      · intro s; rfl
    have e7 : askedArguments (fun _ => items) (defCalls stacking d args placed) = (itemArguments items).map (fun s => ⟨s, false⟩) := by
      rw [← asked_item_arguments]
      unfold defCalls completeCalls askedArguments
      simp only [List.flatMap_append]
      rw [flatMap_added _ ?_]
      · cases stacking <;> cases d.target.description <;> cases d.target.requires <;> cases d.target.keepOrder <;> simp <;> rfl
      · intro s; rfl
    generalize (d.old ++ if stacking then [] else d.short) = olds at e5 ⊢
    unfold commandWords
    simp only [e1, e2, e3, e4, e5, e6, e7]
    unfold lineWords
    have hraw : ∀ (f : Str) (l : List Str), ((l.map (fun s => (⟨s, true⟩ : FStr))).flatMap (fun s => ([.inl f, .inr s] : List (Str ⊕ FStr)))).map wordText = flags f l := by
      intro f l
      induction l with
      | nil => rfl
      | cons x r ih => simp only [List.map_cons, List.flatMap_cons, List.map_append, ih]; rfl
    have hq : ∀ (f : Str) (l : List Str) (g : Str → Str), ((l.map (fun s => (⟨g s, false⟩ : FStr))).flatMap (fun s => ([.inl f, .inr s] : List (Str ⊕ FStr)))).map wordText =
        flags f (l.map (fun s => quote (g s))) := by
      intro f l g
      induction l with
      | nil => rfl
      | cons x r ih => simp only [List.map_cons, List.flatMap_cons, List.map_append, ih]; rfl
    have ho : ∀ (f : Str) (o : Option Str), ((o.map (fun s => (⟨s, false⟩ : FStr))).toList.flatMap (fun s => ([.inl f, .inr s] : List (Str ⊕ FStr)))).map wordText =
        flags f (o.map (fun s => quote s)).toList := by
      intro f o
      cases o <;> rfl
    have hc : ((some (⟨S "$prog", true⟩ : FStr)).toList.flatMap (fun s => ([.inl (S "-c"), .inr s] : List (Str ⊕ FStr)))).map wordText =
        flags (S "-c") [S "$prog"] := rfl
    simp only [List.map_append, hraw, hq, ho, hc]
    have hl : (if letters = [] then ([] : List (Str ⊕ FStr)) else [.inl ('-' :: letters)]).map wordText =
        if letters = [] then [] else ['-' :: letters] := by split <;> rfl
    rw [hl]
    rfl

theorem asked_letters_are (d : FishDef) (items : List FishArgItem) (a : Char) (h : a ∈ askedLetters d items) :
    a = 'r' ∨ a = 'k' ∨ a = 'f' ∨ a = 'F' := by
  unfold askedLetters at h
  simp only [List.mem_append, List.mem_flatMap] at h
  rcases h with (h | h) | ⟨i, -, h⟩
  · split at h <;> simp_all
  · split at h <;> simp_all
  · cases i <;> simp [FishArgItem.letters] at h <;> simp [h]

theorem letters_are {d : FishDef} {items : List FishArgItem} {letters : List Char}
    (h : ∀ a, a ∈ letters ↔ LetterGiven (askedLetters d items) a) : ∀ c ∈ letters, isLetter c = true := by
  intro c hc
  have := (h c).mp hc
  unfold LetterGiven at this
  split at this
  · rename_i e; subst e; rfl
  · split at this
    · rename_i e; rcases e with rfl | rfl <;> rfl
    · rcases asked_letters_are _ _ _ this with rfl | rfl | rfl | rfl <;> rfl

/-- What the command registers. -/
def defEntry (stacking : Bool) (prog : Str) (d : FishDef) (items : List FishArgItem) (conditions : List Str) : FishRun.Entry :=
  { command := prog
    conditions := conditions
    shorts := (if stacking then d.short else []).map nameOf
    longs := d.long.map nameOf
    olds := (d.old ++ if stacking then [] else d.short).map nameOf
    description := d.target.description
    requires := d.target.requires
    noFiles := items.any (fun | .f => true | _ => false)
    forceFiles := items.any (fun | .F => true | _ => false)
    keepOrder := d.target.keepOrder
    arguments := itemArguments items }

theorem contains_iff_eq {l : List Char} {c : Char} {b : Bool} (h : c ∈ l ↔ b = true) : l.contains c = b := by
  rw [Bool.eq_iff_iff, List.contains_iff_mem, h]

theorem mem_asked_f (d : FishDef) (items : List FishArgItem) :
    'f' ∈ askedLetters d items ↔ items.any (fun | .f => true | _ => false) = true := by
  unfold askedLetters
  simp only [List.mem_append, List.mem_flatMap, List.any_eq_true]
  constructor
  · rintro ((h | h) | ⟨i, hi, h⟩)
    · split at h <;> simp at h
    · split at h <;> simp at h
    · cases i <;> simp [FishArgItem.letters] at h
      exact ⟨_, hi, rfl⟩
  · rintro ⟨i, hi, h⟩
    cases i <;> simp at h
    exact Or.inr ⟨_, hi, by simp [FishArgItem.letters]⟩

theorem mem_asked_F (d : FishDef) (items : List FishArgItem) :
    'F' ∈ askedLetters d items ↔ items.any (fun | .F => true | _ => false) = true := by
  unfold askedLetters
  simp only [List.mem_append, List.mem_flatMap, List.any_eq_true]
  constructor
  · rintro ((h | h) | ⟨i, hi, h⟩)
    · split at h <;> simp at h
    · split at h <;> simp at h
    · cases i <;> simp [FishArgItem.letters] at h
      exact ⟨_, hi, rfl⟩
  · rintro ⟨i, hi, h⟩
    cases i <;> simp at h
    exact Or.inr ⟨_, hi, by simp [FishArgItem.letters]⟩

theorem mem_asked_r (d : FishDef) (items : List FishArgItem) : 'r' ∈ askedLetters d items ↔ d.target.requires = true := by
  unfold askedLetters
  simp only [List.mem_append, List.mem_flatMap]
  constructor
  · rintro ((h | h) | ⟨i, hi, h⟩)
    · split at h <;> simp_all
    · split at h <;> simp at h
    · cases i <;> simp [FishArgItem.letters] at h
  · intro h; simp [h]

theorem mem_asked_k (d : FishDef) (items : List FishArgItem) : 'k' ∈ askedLetters d items ↔ d.target.keepOrder = true := by
  unfold askedLetters
  simp only [List.mem_append, List.mem_flatMap]
  constructor
  · rintro ((h | h) | ⟨i, hi, h⟩)
    · split at h <;> simp at h
    · split at h <;> simp_all
    · cases i <;> simp [FishArgItem.letters] at h
  · intro h; simp [h]

theorem or_contains {l : List Char} {c x : Char} {b : Bool} (h : (c ∈ l ∨ x ∈ l) ↔ b = true) : (l.contains c || l.contains x) = b := by
  rw [Bool.eq_iff_iff, Bool.or_eq_true, List.contains_iff_mem, List.contains_iff_mem, h]

/-- The texts that can be written. -/
structure DefReads (d : FishDef) (items : List FishArgItem) : Prop where
  names : ∀ s, s ∈ d.short ∨ s ∈ d.long ∨ s ∈ d.old → fishReadable (nameOf s) = true
  description : ∀ t, d.target.description = some t → fishReadable t = true
  arguments : ∀ s, FishArgItem.a s ∈ items → fishReadable s = true

theorem itemArguments_mem {items : List FishArgItem} {s : Str} (h : itemArguments items = some s) : FishArgItem.a s ∈ items := by
  unfold itemArguments at h
  have := List.mem_of_getLast? h
  obtain ⟨i, hi, h⟩ := List.mem_filterMap.mp this
  cases i <;> simp at h
  subst h; exact hi

theorem line_effect {stacking : Bool} {d : FishDef} {items : List FishArgItem} (hd : DefReads d items)
    {letters : List Char} (hl : ∀ a, a ∈ letters ↔ LetterGiven (askedLetters d items) a) {a : FishRun.State} {prog pname : Str}
    (hprog : FishRun.value a.vars (S "prog") = some prog) (hP : FishRun.value a.vars (S "P") = some pname)
    {placed xs : List Str} (hx : All2 (Reads a.vars) placed xs) :
    Effect (joinWith [' '] (S "complete" :: lineWords (S "$prog") (S "$P" :: placed)
        ((if stacking then d.short else []).map (fun s => quote (nameOf s))) (d.long.map (fun s => quote (nameOf s)))
        ((d.old ++ if stacking then [] else d.short).map (fun s => quote (nameOf s)))
        (d.target.description.map (fun s => quote s)) letters ((itemArguments items).map (fun s => quote s)))) a
      { a with entries := a.entries ++ [defEntry stacking prog d items (pname :: xs)] } := by
  have hlet := letters_are hl
  have hnames : ∀ l : List Str, (∀ s ∈ l, s ∈ d.short ∨ s ∈ d.long ∨ s ∈ d.old) →
      All2 (Reads a.vars) (l.map (fun s => quote (nameOf s))) (l.map nameOf) := by
    intro l
    induction l with
    | nil => intro _; exact .nil
    | cons s r ih =>
      intro h
      exact .cons (reads_quote _ _ (hd.names s (h s (by simp)))) (ih (fun x hx => h x (by simp [hx])))
  refine effect_complete (xs := lineWords prog (pname :: xs) ((if stacking then d.short else []).map nameOf) (d.long.map nameOf)
    ((d.old ++ if stacking then [] else d.short).map nameOf) d.target.description letters (itemArguments items)) ?_ ?_
  · refine reads_line_words hlet ?_ (.cons ?_ hx) (hnames _ ?_) (hnames _ ?_) (hnames _ ?_) ?_ ?_
    · exact reads_name (by decide) (by decide) hprog
    · exact reads_name (by decide) (by decide) hP
    · intro s hs; cases stacking <;> simp at hs; exact Or.inl hs
    · intro s hs; exact Or.inr (Or.inl hs)
    · intro s hs
      cases stacking <;> simp at hs
      · rcases hs with h | h <;> simp [h]
      · simp [hs]
    · cases hdesc : d.target.description with
      | none => exact .nil
      | some t => exact .cons (reads_quote _ _ (hd.description t hdesc)) .nil
    · cases harg : itemArguments items with
      | none => exact .nil
      | some t => exact .cons (reads_quote _ _ (hd.arguments t (itemArguments_mem harg))) .nil
  · rw [complete_line _ _ _ _ _ _ _ _ _ hlet]
    unfold defEntry
    have hx' : ¬ ('x' ∈ askedLetters d items) := by
      intro h
      rcases asked_letters_are _ _ _ h with h | h | h | h <;> revert h <;> decide
    have er : (letters.contains 'r' || letters.contains 'x') = d.target.requires := by
      apply or_contains
      rw [hl, hl, ← mem_asked_r d items]
      simp only [LetterGiven, hx', false_or, if_true]
      simp
      constructor
      · rintro (h | h) <;> exact h.1
      · intro h
        by_cases hf : 'f' ∈ askedLetters d items
        · exact Or.inr ⟨h, hf⟩
        · exact Or.inl ⟨h, fun _ => hf⟩
    have ef : (letters.contains 'f' || letters.contains 'x') = items.any (fun | .f => true | _ => false) := by
      apply or_contains
      rw [hl, hl, ← mem_asked_f d items]
      simp only [LetterGiven, hx', false_or, if_true]
      simp
      constructor
      · rintro (h | h)
        · exact h.1
        · exact h.2
      · intro h
        by_cases hr : 'r' ∈ askedLetters d items
        · exact Or.inr ⟨hr, h⟩
        · exact Or.inl ⟨h, fun h' => absurd h' hr⟩
    have eF : letters.contains 'F' = items.any (fun | .F => true | _ => false) := by
      apply contains_iff_eq
      rw [hl, ← mem_asked_F d items]
      simp [LetterGiven]
    have ek : letters.contains 'k' = d.target.keepOrder := by
      apply contains_iff_eq
      rw [hl, ← mem_asked_k d items]
      simp [LetterGiven]
    rw [er, ef, eF, ek]

end FishReads
end CC
