import Verif.Props.DictImport
/-!
# C28: defines
-/

namespace CC

/-! ## Specification -/

/-- The value at a place inside a document: element number i of a list, value number i of a
dictionary. -/
def Val.at : Val → List Nat → Option Val
  | v, [] => some v
  | .list l, i :: is => match l[i]? with
    | .none => Option.none
    | .some v => v.at is
  | .dict d, i :: is => match d[i]? with
    | .none => Option.none
    | .some e => e.2.at is
  | _, _ :: _ => Option.none

/-- What becomes of a single value: a defined name is replaced by its definition, another string and
any atom stay, a list keeps its length, a dictionary keeps its keys and their order. -/
def Replaced (defs : List (Key × Val)) : Val → Val → Prop
  | .str s, y => (∃ v, getKey defs s = some v ∧ y = v) ∨ (getKey defs s = none ∧ y = .str s)
  | .list l, y => ∃ l', y = .list l' ∧ l'.length = l.length
  | .dict d, y => ∃ d', y = .dict d' ∧ d'.map Prod.fst = d.map Prod.fst
  | x, y => y = x

/-- The string is a value somewhere in the document (not a key). -/
def Mentions (v : Val) (s : Str) : Prop := ∃ a, v.at a = some (.str s)

/-- The name is defined. -/
def Defined (defs : List (Key × Val)) (s : Str) : Prop := (getKey defs s).isSome = true

/-- A document that is not the defines document. -/
def Ordinary (v : Val) : Prop := ∀ d, v = .dict d → getKey d (S "prog") ≠ some (.str (S "%defines%"))

/-! ## Lemmas -/

theorem replaceList_eq (defs : List (Key × Val)) (l : List Val) :
    replaceDefinesList defs l = l.map (replaceDefines defs) := by
  induction l with
  | nil => rfl
  | cons v vs ih => simp [replaceDefinesList, ih]

theorem replaceDict_eq (defs : List (Key × Val)) (d : List (Key × Val)) :
    replaceDefinesDict defs d = d.map (fun e => (e.1, replaceDefines defs e.2)) := by
  induction d with
  | nil => rfl
  | cons e d ih => obtain ⟨k, v⟩ := e; simp [replaceDefinesDict, ih]

theorem replaced_self (defs : List (Key × Val)) (v : Val) : Replaced defs v (replaceDefines defs v) := by
  cases v with
  | str s =>
    simp only [Replaced, replaceDefines]
    cases h : getKey defs s with
    | none => exact Or.inr ⟨rfl, rfl⟩
    | some v => exact Or.inl ⟨v, rfl, rfl⟩
  | list l => exact ⟨_, rfl, by rw [replaceList_eq]; simp⟩
  | dict d => exact ⟨_, rfl, by rw [replaceDict_eq, List.map_map]; rfl⟩
  | _ => rfl

theorem replace_at (defs : List (Key × Val)) (v x : Val) (a : List Nat) (h : v.at a = some x) :
    (replaceDefines defs v).at a = some (replaceDefines defs x) := by
  induction a generalizing v with
  | nil =>
    have : v = x := by cases v <;> simpa [Val.at] using h
    subst this
    cases hr : replaceDefines defs v <;> simp [Val.at]
  | cons i is ih =>
    cases v with
    | list l =>
      simp only [Val.at] at h
      cases hi : l[i]? with
      | none => rw [hi] at h; cases h
      | some w =>
        rw [hi] at h
        simp only [replaceDefines, Val.at, replaceList_eq, List.getElem?_map, hi, Option.map_some]
        exact ih w h
    | dict d =>
      simp only [Val.at] at h
      cases hi : d[i]? with
      | none => rw [hi] at h; cases h
      | some w =>
        rw [hi] at h
        simp only [replaceDefines, Val.at, replaceDict_eq, List.getElem?_map, hi, Option.map_some]
        exact ih w.2 h
    | _ => simp [Val.at] at h

/-! ## C28 -/

/-- **C28**: at every place of the document the substitution does what it should do with the value
there. -/
theorem C28_everywhere (defs : List (Key × Val)) (v x : Val) (a : List Nat) (h : v.at a = some x) :
    ∃ y, (replaceDefines defs v).at a = some y ∧ Replaced defs x y :=
  ⟨_, replace_at defs v x a h, replaced_self defs x⟩

/-- Where does a place of the result come from? Either from the same place of the document, or from
inside a definition. -/
theorem replace_at_inv (defs : List (Key × Val)) (v y : Val) (a : List Nat)
    (h : (replaceDefines defs v).at a = some y) :
    (∃ x, v.at a = some x ∧ Replaced defs x y) ∨
    (∃ a1 a2 s w, a = a1 ++ a2 ∧ v.at a1 = some (.str s) ∧ getKey defs s = some w ∧ w.at a2 = some y) := by
  induction a generalizing v with
  | nil =>
    left
    have hy : replaceDefines defs v = y := by
      cases hr : replaceDefines defs v <;> rw [hr] at h <;> simpa [Val.at] using h
    refine ⟨v, by cases v <;> rfl, ?_⟩
    rw [← hy]
    exact replaced_self defs v
  | cons i is ih =>
    cases v with
    | str s =>
      simp only [replaceDefines] at h
      cases hg : getKey defs s with
      | none => rw [hg] at h; simp [Val.at] at h
      | some w =>
        rw [hg] at h
        exact Or.inr ⟨[], i :: is, s, w, rfl, rfl, hg, h⟩
    | list l =>
      simp only [replaceDefines, Val.at, replaceList_eq, List.getElem?_map] at h
      cases hi : l[i]? with
      | none => rw [hi] at h; cases h
      | some c =>
        rw [hi] at h
        rcases ih c h with ⟨x, h1, h2⟩ | ⟨a1, a2, s, w, e, h1, h2, h3⟩
        · exact Or.inl ⟨x, by simp [Val.at, hi, h1], h2⟩
        · exact Or.inr ⟨i :: a1, a2, s, w, by rw [e]; rfl, by simp [Val.at, hi, h1], h2, h3⟩
    | dict d =>
      simp only [replaceDefines, Val.at, replaceDict_eq, List.getElem?_map] at h
      cases hi : d[i]? with
      | none => rw [hi] at h; cases h
      | some c =>
        rw [hi] at h
        rcases ih c.2 h with ⟨x, h1, h2⟩ | ⟨a1, a2, s, w, e, h1, h2, h3⟩
        · exact Or.inl ⟨x, by simp [Val.at, hi, h1], h2⟩
        · exact Or.inr ⟨i :: a1, a2, s, w, by rw [e]; rfl, by simp [Val.at, hi, h1], h2, h3⟩
    | _ => simp [replaceDefines, Val.at] at h

/-- **C28**: if the definitions do not mention defined names, no defined name is left. -/
theorem C28_none_left (defs : List (Key × Val))
    (hd : ∀ s w, getKey defs s = some w → ∀ t, Mentions w t → ¬ Defined defs t) (v : Val) (t : Str)
    (h : Mentions (replaceDefines defs v) t) : ¬ Defined defs t := by
  obtain ⟨a, ha⟩ := h
  rcases replace_at_inv defs v _ a ha with ⟨x, _, h2⟩ | ⟨_, a2, s, w, _, _, h2, h3⟩
  · cases x with
    | str s =>
      rcases h2 with ⟨w, hw, e⟩ | ⟨hn, e⟩
      · exact hd s w hw t ⟨[], by rw [← e]; rfl⟩
      · cases e
        unfold Defined; rw [hn]; simp
    | list l => obtain ⟨_, e, _⟩ := h2; cases e
    | dict d => obtain ⟨_, e, _⟩ := h2; cases e
    | _ => cases h2
  · exact hd s w h2 t ⟨a2, h3⟩

/-- Substitution is not repeated inside definitions: a definition that mentions a defined name leaves
that name in the document. -/
theorem C28_one_pass : ∃ defs v t, Mentions (replaceDefines defs v) t ∧ Defined defs t :=
  ⟨[(.str (S "x"), .str (S "y")), (.str (S "y"), .int 1)], .str (S "x"), S "y", ⟨[], rfl⟩, rfl⟩

theorem Val.ind {P : Val → Prop} (hs : ∀ s, P (.str s)) (hl : ∀ l, (∀ v ∈ l, P v) → P (.list l))
    (hd : ∀ d : List (Key × Val), (∀ e ∈ d, P e.2) → P (.dict d))
    (ha : ∀ v, (∀ s, v ≠ .str s) → (∀ l, v ≠ .list l) → (∀ d, v ≠ .dict d) → P v) (v : Val) : P v := by
  have key : ∀ n (v : Val), sizeOf v < n → P v := by
    intro n
    induction n with
    | zero => intro v h; omega
    | succ n ih =>
      intro v hv
      cases v with
      | str s => exact hs s
      | list l =>
        apply hl
        intro x hx
        apply ih
        have := List.sizeOf_lt_of_mem hx
        simp only [Val.list.sizeOf_spec] at hv
        omega
      | dict d =>
        apply hd
        intro x hx
        apply ih
        have := List.sizeOf_lt_of_mem hx
        obtain ⟨k, w⟩ := x
        simp only [Prod.mk.sizeOf_spec] at this
        simp only [Val.dict.sizeOf_spec] at hv
        simp only
        omega
      | _ => exact ha _ (by intros; simp) (by intros; simp) (by intros; simp)
  exact key (sizeOf v + 1) v (by omega)

/-- **C28**: a document that mentions no defined name is unchanged. -/
theorem C28_unchanged (defs : List (Key × Val)) (v : Val) (h : ∀ s, Mentions v s → ¬ Defined defs s) :
    replaceDefines defs v = v := by
  induction v using Val.ind with
  | hs s =>
    have := h s ⟨[], rfl⟩
    unfold Defined at this
    simp only [replaceDefines]
    cases hg : getKey defs s with
    | none => rfl
    | some w => rw [hg] at this; exact absurd rfl this
  | hl l ih =>
    simp only [replaceDefines, replaceList_eq]
    have : ∀ v ∈ l, replaceDefines defs v = id v := by
      intro v hv
      apply ih v hv
      rintro s ⟨a, ha⟩
      obtain ⟨i, hi⟩ := List.getElem?_of_mem hv
      exact h s ⟨i :: a, by simp [Val.at, hi, ha]⟩
    rw [List.map_congr_left this, List.map_id]
  | hd d ih =>
    simp only [replaceDefines, replaceDict_eq]
    have : ∀ e ∈ d, (e.1, replaceDefines defs e.2) = id e := by
      intro e he
      rw [ih e he]
      · rfl
      · rintro s ⟨a, ha⟩
        obtain ⟨i, hi⟩ := List.getElem?_of_mem he
        exact h s ⟨i :: a, by simp [Val.at, hi, ha]⟩
    rw [List.map_congr_left this, List.map_id]
  | ha v h1 h2 h3 =>
    cases v with
    | str s => exact absurd rfl (h1 s)
    | list l => exact absurd rfl (h2 l)
    | dict d => exact absurd rfl (h3 d)
    | _ => rfl

theorem isDefines_none_iff (v : Val) : isDefines v = none ↔ Ordinary v := by
  unfold Ordinary
  cases v with
  | dict d =>
    simp only [isDefines, Val.dict.injEq]
    constructor
    · intro h d' e hk
      subst e
      rw [if_pos hk] at h; cases h
    · intro h
      rw [if_neg (h d rfl)]
  | _ => simp [isDefines]

/-- **C28**: without a defines document nothing changes. -/
theorem C28_no_defines (docs : List Val) (h : ∀ v ∈ docs, Ordinary v) :
    replaceDefinesInDocuments docs = docs := by
  unfold replaceDefinesInDocuments
  rw [takeDefines_none docs (fun v hv => (isDefines_none_iff v).2 (h v hv))]

/-- **C28**: the first defines document is removed, and its definitions are substituted in all other
documents, whether they come before it or after it. -/
theorem C28_documents (pre post : List Val) (d : List (Key × Val)) (hpre : ∀ v ∈ pre, Ordinary v)
    (hd : getKey d (S "prog") = some (.str (S "%defines%"))) :
    ∃ defs, replaceDefinesInDocuments (pre ++ .dict d :: post) = (pre ++ post).map (replaceDefines defs) ∧
      ∀ s, getKey defs s = if s = S "prog" then none else getKey d s := by
  refine ⟨delKey d (S "prog"), ?_, ?_⟩
  · have : takeDefines (pre ++ .dict d :: post) = some (d, pre ++ post) := by
      induction pre with
      | nil => simp [takeDefines, isDefines, hd]
      | cons v vs ih =>
        simp only [List.cons_append, takeDefines, (isDefines_none_iff v).2 (hpre v (by simp)),
          ih (fun x hx => hpre x (by simp [hx])), Option.map_some]
    unfold replaceDefinesInDocuments
    rw [this]
  · intro s
    by_cases hs : s = S "prog"
    · subst hs; rw [if_pos rfl]; exact getKey_delKey_self d (S "prog")
    · rw [if_neg hs]; exact getKey_delKey_ne d (S "prog") s hs

/-- A definition and its use. -/
theorem C28_example :
    replaceDefinesInDocuments [
      .dict [(.str (S "prog"), .str (S "a")), (.str (S "x"), .list [.str (S "f"), .str (S "g")])],
      .dict [(.str (S "prog"), .str (S "%defines%")), (.str (S "f"), .int 1)]] =
    [.dict [(.str (S "prog"), .str (S "a")), (.str (S "x"), .list [.int 1, .str (S "g")])]] := rfl

/-- The substitution is not limited to completers: a program whose name is a defined name loses its
name, and the import fails. -/
theorem C28_replaces_names :
    (∃ c, dictsToCmd [nameDoc (S "f")] = .ok c) ∧
    dictsToCmd [.dict [(.str (S "prog"), .str (S "%defines%")), (.str (S "f"), .list [.str (S "file")])],
      nameDoc (S "f")] = .error .crazyError :=
  ⟨⟨_, rfl⟩, rfl⟩

end CC
