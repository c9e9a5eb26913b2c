import Verif.Lemmas.BashFunction
import Verif.Lemmas.BashTree
/-!
# Lemmas about calling the functions of the subcommands
-/

namespace CC

/-- The functions' own parts, tried in order until one returns 0. -/
def tryAll (E : BEnv) (ln : BLine) : List (List Cmd × Cmd) → Except Err (List BEvent × Bool)
  | [] => .ok ([], false)
  | e :: es => do
    let r ← runOwn E ln e.1 e.2
    if r.2 then .ok r
    else do
      let q ← tryAll E ln es
      .ok (r.1 ++ q.1, q.2)

theorem tryAll_append (E : BEnv) (ln : BLine) (l l' : List (List Cmd × Cmd)) :
    tryAll E ln (l ++ l') = (do
      let r ← tryAll E ln l
      if r.2 then .ok r
      else do
        let q ← tryAll E ln l'
        .ok (r.1 ++ q.1, q.2)) := by
  induction l with
  | nil =>
    simp only [List.nil_append, tryAll]
    cases tryAll E ln l' <;> simp [bind, Except.bind]
  | cons e es ih =>
    simp only [List.cons_append, tryAll]
    rw [ih]
    cases runOwn E ln e.1 e.2 with
    | error x => rfl
    | ok r =>
      by_cases hr : r.2 = true
      · simp [bind, Except.bind, hr]
      · simp only [bind, Except.bind, hr]
        cases tryAll E ln es with
        | error x => rfl
        | ok q =>
          by_cases hq : q.2 = true
          · simp [hq]
          · simp only [hq]
            cases tryAll E ln l' with
            | error x => rfl
            | ok q' => simp

/-- The commands of a chain, the last first; of the others those that pass their options on. -/
def upList : List Cmd → Cmd → List Cmd → List (List Cmd × Cmd)
  | pre, x, [] => [(pre, x)]
  | pre, x, d :: rest => upList (pre ++ [x]) d rest ++ (if Inherits x then [(pre, x)] else [])

theorem upList_eq (rest : List Cmd) : ∀ (pre : List Cmd) (x : Cmd) (ps : List Cmd) (c : Cmd), x :: rest = ps ++ [c] →
    upList pre x rest = (pre ++ ps, c) :: ((chainEntries pre ps).filter (fun e => decide (Inherits e.2))).reverse := by
  induction rest with
  | nil =>
    intro pre x ps c h
    cases ps with
    | nil => simp at h; subst h; simp [upList, chainEntries]
    | cons p ps => simp at h
  | cons d rest ih =>
    intro pre x ps c h
    cases ps with
    | nil => simp at h
    | cons p ps =>
      simp only [List.cons_append, List.cons.injEq] at h
      obtain ⟨rfl, h⟩ := h
      rw [upList, ih (pre ++ [x]) d ps c h]
      by_cases hi : Inherits x
      · simp [chainEntries, hi]
      · simp [chainEntries, hi]

theorem upList_inherited {root : Cmd} {rest parents : List Cmd} {c : Cmd} (h : parents ++ [c] = root :: rest) :
    upList [] root rest = inheritedFrom parents c := by
  rw [upList_eq rest [] root parents c h.symm]; rfl

theorem runCall_eq (E : BEnv) (ln : BLine) (parents : List Cmd) (c : Cmd) (w : Str) (ch : List Cmd) {d : Cmd} (hd : d ∈ ch)
    (hw : w ∈ variations c d) (hu : ∀ e ∈ ch, w ∈ variations c e → e = d) :
    Cmd.runCall E ln parents c w ch = (if d.worth then do
        let r ← d.runFunction E ln (parents ++ [c])
        .ok (if r.2 then .ended r.1 true
          else if c.data.inheritOptions = .val true then .goOn r.1 else .ended r.1 false)
      else .ok (if c.data.inheritOptions = .val true then .goOn [] else .ended [] true)) := by
  induction ch with
  | nil => cases hd
  | cons e ch ih =>
    rw [Cmd.runCall]
    by_cases he : w ∈ variations c e
    · have := hu e (List.mem_cons_self ..) he
      subst this
      rw [if_pos (by simpa using he)]
    · rw [if_neg (by simpa using he)]
      refine ih ?_ (fun e h => hu e (List.mem_cons_of_mem _ h))
      rcases List.mem_cons.mp hd with rfl | hd
      · exact absurd hw he
      · exact hd

theorem runCall_none (E : BEnv) (ln : BLine) (parents : List Cmd) (c : Cmd) (w : Str) (ch : List Cmd)
    (hu : ∀ e ∈ ch, w ∉ variations c e) : Cmd.runCall E ln parents c w ch = .ok (.goOn []) := by
  induction ch with
  | nil => rw [Cmd.runCall]
  | cons e ch ih =>
    rw [Cmd.runCall, if_neg (by simpa using hu e (List.mem_cons_self ..))]
    exact ih (fun e h => hu e (List.mem_cons_of_mem _ h))

theorem runFunction_eq (E : BEnv) (ln : BLine) (parents : List Cmd) (c : Cmd) :
    c.runFunction E ln parents = (do
      let call ← (match (subSlot parents c).bind (fun n => ln.positionals[n]?) with
        | some w => Cmd.runCall E ln parents c w c.children
        | none => .ok (.goOn []))
      match call with
      | .ended es status => .ok (es, status)
      | .goOn es => do
        let r ← runOwn E ln parents c
        .ok (es ++ r.1, r.2)) := by
  cases c with
  | node d s ch =>
    rw [Cmd.runFunction]
    have : s.bind (fun n => ln.positionals[positionalNum parents n - 1]?) =
        (subSlot parents (.node d s ch)).bind (fun n => ln.positionals[n]?) := by
      cases s <;> simp [subSlot, Cmd.sub, positionalNum]
    rw [this]
    rfl

/-- If no subcommand is called, only the own parts run. -/
theorem runFunction_last (E : BEnv) (ln : BLine) (parents : List Cmd) (c : Cmd)
    (h : ∀ n w, subSlot parents c = some n → ln.positionals[n]? = some w → ∀ d ∈ c.children, w ∉ variations c d) :
    c.runFunction E ln parents = runOwn E ln parents c := by
  rw [runFunction_eq]
  have : (match (subSlot parents c).bind (fun n => ln.positionals[n]?) with
        | some w => Cmd.runCall E ln parents c w c.children
        | none => .ok (.goOn [])) = .ok (.goOn []) := by
    cases hs : subSlot parents c with
    | none => rfl
    | some n =>
      cases hp : ln.positionals[n]? with
      | none => simp [hp]
      | some w => simp only [Option.bind_some, hp]; exact runCall_none _ _ _ _ _ _ (h n w hs hp)
  rw [this]
  cases runOwn E ln parents c <;> simp [bind, Except.bind]

/-- The functions along a chain. -/
theorem runFunction_chain {root : Cmd} (hc : CleanTreeM root) (E : BEnv) (ln : BLine) (rest : List Cmd) :
    ∀ (pre : List Cmd) (x : Cmd), At root pre x → IsChain x rest →
    (∀ a p d post, x :: rest = a ++ p :: d :: post → ∃ n w, subSlot (pre ++ a) p = some n ∧ ln.positionals[n]? = some w ∧ w ∈ variations p d) →
    (∀ a c, x :: rest = a ++ [c] → c.worth = true ∧
      ∀ n w, subSlot (pre ++ a) c = some n → ln.positionals[n]? = some w → ∀ d ∈ c.children, w ∉ variations c d) →
    x.worth = true ∧ x.runFunction E ln pre = tryAll E ln (upList pre x rest) := by
  induction rest with
  | nil =>
    intro pre x hat _ _ h2
    obtain ⟨hw, h2⟩ := h2 [] x rfl
    refine ⟨hw, ?_⟩
    rw [runFunction_last E ln pre x (by simpa using h2)]
    simp only [upList, tryAll]
    cases h : runOwn E ln pre x with
    | error e => rfl
    | ok r =>
      obtain ⟨r1, r2⟩ := r
      cases r2 <;> simp [bind, Except.bind]
  | cons d rest ih =>
    intro pre x hat hch h1 h2
    obtain ⟨n, w, hs, hp, hv⟩ := h1 [] x d rest rfl
    rw [List.append_nil] at hs
    have hd := hch.1
    obtain ⟨hdw, hrun⟩ := ih (pre ++ [x]) d (At.child hat hd) hch.2
      (fun a p d' post e => by
        have := h1 (x :: a) p d' post (by rw [e]; rfl)
        simpa using this)
      (fun a c e => by
        have := h2 (x :: a) c (by rw [e]; rfl)
        simpa using this)
    refine ⟨?_, ?_⟩
    · have : x.sub.isSome = true := by
        unfold subSlot at hs
        cases h : x.sub with
        | none => rw [h] at hs; simp at hs
        | some k => rfl
      unfold Cmd.worth
      rw [this]; rfl
    · rw [runFunction_eq, hs]
      simp only [Option.bind_some, hp]
      rw [runCall_eq E ln pre x w x.children hd hv
        (fun e he hwe => hc.distinct _ _ hat e he d hd w hwe hv), hdw, hrun]
      simp only [if_true]
      rw [upList, tryAll_append]
      cases tryAll E ln (upList (pre ++ [x]) d rest) with
      | error e => rfl
      | ok r =>
        obtain ⟨r1, r2⟩ := r
        cases r2 with
        | true => simp [bind, Except.bind]
        | false =>
          by_cases hi : Inherits x
          · have hi' : x.data.inheritOptions = .val true := hi
            simp only [bind, Except.bind, hi', hi, if_true, tryAll]
            cases runOwn E ln pre x with
            | error e => rfl
            | ok q =>
              obtain ⟨q1, q2⟩ := q
              cases q2 <;> simp
          · have hi' : ¬ x.data.inheritOptions = .val true := hi
            simp [bind, Except.bind, hi', hi, tryAll]

/-- **The functions for a command that was reached.** The own parts of the command run, and then those of the
ancestors that pass their options on, nearest first, until one returns 0. -/
theorem runFunction_reached {root : Cmd} (hc : CleanTreeM root) (E : BEnv) (ln : BLine) {ps : List Str} {parents : List Cmd} {c : Cmd}
    (hr : ReachedM root ps parents c) (hps : ps <+: ln.positionals) (hw : c.worth = true)
    (hlast : ∀ n w, subSlot parents c = some n → ln.positionals[n]? = some w → ∀ d ∈ c.children, w ∉ variations c d) :
    root.worth = true ∧ root.runFunction E ln [] = tryAll E ln (inheritedFrom parents c) := by
  obtain ⟨rest, he, hch⟩ := at_isChain (reached_at hr)
  rw [← upList_inherited he]
  refine runFunction_chain hc E ln rest [] root At.root hch ?_ ?_
  · intro a p d post e
    obtain ⟨n, w, h1, h2, h3⟩ := reached_words hr a p d post (by rw [he, e])
    refine ⟨n, w, by simpa using h1, ?_, h3⟩
    obtain ⟨t, ht⟩ := hps
    obtain ⟨hlt, _⟩ := List.getElem?_eq_some_iff.mp h2
    rw [← ht, List.getElem?_append_left hlt]; exact h2
  · intro a x e
    rw [← he] at e
    obtain ⟨h1, h2⟩ := List.append_inj' e rfl
    simp at h2
    subst h1 h2
    exact ⟨hw, by simpa using hlast⟩

end CC
