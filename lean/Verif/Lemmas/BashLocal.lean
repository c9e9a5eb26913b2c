import Verif.Lemmas.BashPlainText
/-!
# Lemmas: local variables have their old values when a function has ended
-/

namespace BashText
open CC

theorem atom_saved {e e' : Env} {a : Atom} {n : Nat} (h : a.eval e = some (n, e')) : e'.saved = e.saved := by
  cases a <;> simp only [Atom.eval, Option.map_eq_some_iff, Option.some.injEq, Prod.mk.injEq] at h
  · rw [← h.2]
  · obtain ⟨_, _, _, rfl⟩ := h; rfl
  · obtain ⟨_, _, _, rfl⟩ := h; rfl
  · obtain ⟨_, _, _, rfl⟩ := h; rfl

theorem arith_saved {e e' : Env} {a : Arith} {n : Nat} (h : a.eval e = some (n, e')) : e'.saved = e.saved := by
  cases a <;> simp only [Arith.eval, Option.bind_eq_some_iff, Option.map_eq_some_iff, Option.some.injEq, Prod.mk.injEq] at h
  · rw [← h.2]
  · exact atom_saved h
  · rw [← h.2]; rfl
  · obtain ⟨⟨x, e1⟩, h1, ⟨y, e2⟩, h2, _, rfl⟩ := h; exact (atom_saved h2).trans (atom_saved h1)
  · obtain ⟨⟨x, e1⟩, h1, ⟨y, e2⟩, h2, _, rfl⟩ := h; exact (atom_saved h2).trans (atom_saved h1)
  · obtain ⟨⟨x, e1⟩, h1, ⟨y, e2⟩, h2, _, rfl⟩ := h; exact (atom_saved h2).trans (atom_saved h1)

theorem part_saved {e e' : Env} {p : Part} {t : Str} (h : p.expand e = some (t, e')) : e'.saved = e.saved := by
  cases p <;> simp only [Part.expand, Option.bind_eq_some_iff, Option.map_eq_some_iff, Option.some.injEq, Prod.mk.injEq] at h
  · rw [← h.2]
  · obtain ⟨_, _, _, rfl⟩ := h; rfl
  · rw [← h.2]
  · obtain ⟨⟨x, e1⟩, h1, _, _, _, rfl⟩ := h; exact arith_saved h1
  · cases h
  · obtain ⟨_, _, _, rfl⟩ := h; rfl
  · obtain ⟨⟨x, e1⟩, h1, _, _, _, rfl⟩ := h; exact arith_saved h1
  · obtain ⟨_, _, _, _, _, rfl⟩ := h; rfl
  · obtain ⟨_, _, _, rfl⟩ := h; rfl
  · obtain ⟨_, _, _, rfl⟩ := h; rfl

theorem expand_saved : ∀ {w : Word} {e e' : Env} {t : Str}, expand e w = some (t, e') → e'.saved = e.saved
  | [], e, e', t, h => by simp only [expand, Option.some.injEq, Prod.mk.injEq] at h; rw [← h.2]
  | p :: r, e, e', t, h => by
    simp only [expand, Option.bind_eq_some_iff, Option.map_eq_some_iff, Prod.mk.injEq] at h
    obtain ⟨⟨x, e1⟩, h1, ⟨y, e2⟩, h2, _, rfl⟩ := h
    exact (expand_saved h2).trans (part_saved h1)

theorem expandAll_saved : ∀ {ws : List Word} {e e' : Env} {t : List Str}, expandAll e ws = some (t, e') → e'.saved = e.saved
  | [], e, e', t, h => by simp only [expandAll, Option.some.injEq, Prod.mk.injEq] at h; rw [← h.2]
  | w :: r, e, e', t, h => by
    by_cases hw : ∃ x i, w = [.slice x i]
    · obtain ⟨x, i, rfl⟩ := hw
      simp only [expandAll, Option.bind_eq_some_iff, Option.map_eq_some_iff, Prod.mk.injEq] at h
      obtain ⟨⟨x, e1⟩, h1, _, _, ⟨y, e2⟩, h2, _, rfl⟩ := h
      exact (expandAll_saved h2).trans (arith_saved h1)
    · rw [expandAll] at h
      · simp only [Option.bind_eq_some_iff, Option.map_eq_some_iff, Prod.mk.injEq] at h
        obtain ⟨⟨x, e1⟩, h1, ⟨y, e2⟩, h2, _, rfl⟩ := h
        exact (expandAll_saved h2).trans (expand_saved h1)
      · intro x i hh; exact hw ⟨x, i, hh⟩

/-- The list of saved values only grows. -/
def Grows (f : Env → Option (Env × Flow)) : Prop := ∀ e e' x, f e = some (e', x) → ∃ l, e'.saved = l ++ e.saved

/-- The functions keep the list of saved values. -/
def Keeps (fs : Funs) : Prop := ∀ g ∈ fs, ∀ a e e', g.2 a e = some e' → e'.saved = e.saved

theorem act_grows {fs : Funs} (hf : Keeps fs) (a : Act) : Grows (fun e => a.run fs e) := by
  intro e e' x h
  cases a <;> simp only [Act.run, Option.bind_eq_some_iff, Option.map_eq_some_iff, Option.some.injEq, Prod.mk.injEq] at h
  · obtain ⟨⟨_, e1⟩, h1, _, _, rfl, _⟩ := h; exact ⟨[], (by have := expand_saved h1; exact this)⟩
  · obtain ⟨⟨_, e1⟩, h1, _, _, rfl, _⟩ := h; exact ⟨[], (by have := expand_saved h1; exact this)⟩
  · obtain ⟨⟨_, e1⟩, h1, _, _, rfl, _⟩ := h; exact ⟨[], (by have := expandAll_saved h1; exact this)⟩
  · obtain ⟨⟨_, e1⟩, h1, _, _, rfl, _⟩ := h; exact ⟨[], (by have := expandAll_saved h1; exact this)⟩
  · obtain ⟨⟨_, e1⟩, h1, rfl, _⟩ := h; exact ⟨[_], congrArg (_ :: ·) (expand_saved h1)⟩
  · obtain ⟨rfl, _⟩ := h; exact ⟨[_], rfl⟩
  · obtain ⟨⟨_, e1⟩, h1, h2⟩ := h
    split at h2
    · cases h2
    · cases h2; exact ⟨[_], congrArg (_ :: ·) (expand_saved h1)⟩
  · obtain ⟨⟨ws, e1⟩, h1, h2⟩ := h
    split at h2
    · cases h2
    · simp only [Option.bind_eq_some_iff, Option.map_eq_some_iff, Prod.mk.injEq] at h2
      obtain ⟨e2, ⟨g, hg, h3⟩, rfl, _⟩ := h2
      exact ⟨[], (hf g (List.mem_of_find?_eq_some hg) _ _ _ h3).trans (expandAll_saved h1)⟩
  · obtain ⟨⟨_, e1⟩, h1, rfl, _⟩ := h; exact ⟨[], (by have := expand_saved h1; exact this)⟩
  · obtain ⟨⟨_, e1⟩, h1, _, _, rfl, _⟩ := h; exact ⟨[], (by have := expand_saved h1; exact this)⟩
  · obtain ⟨rfl, _⟩ := h; exact ⟨[], rfl⟩
  · obtain ⟨rfl, _⟩ := h; exact ⟨[], rfl⟩
  · rename_i n
    cases n <;> simp only [Option.some.injEq, Prod.mk.injEq] at h
    · obtain ⟨rfl, _⟩ := h; exact ⟨[], rfl⟩
    · obtain ⟨rfl, _⟩ := h; exact ⟨[], rfl⟩

theorem Grows.andThen {r : Option (Env × Flow)} {k : Env → Option (Env × Flow)} {e : Env} (hr : ∀ e' x, r = some (e', x) → ∃ l, e'.saved = l ++ e.saved)
    (hk : Grows k) : ∀ e' x, andThen r k = some (e', x) → ∃ l, e'.saved = l ++ e.saved := by
  intro e' x h
  cases hr1 : r with
  | none => rw [hr1] at h; cases h
  | some y =>
    obtain ⟨e1, f⟩ := y
    obtain ⟨l, hl⟩ := hr e1 f hr1
    rw [hr1] at h
    cases f with
    | next =>
      obtain ⟨l2, h2⟩ := hk _ _ _ h
      exact ⟨l2 ++ l, by rw [h2, hl, List.append_assoc]⟩
    | _ => cases h; exact ⟨l, hl⟩

theorem iterate_grows {c s : Arith} {body : Env → Option (Env × Flow)} (hb : Grows body) : ∀ n, Grows (iterate c s body n)
  | 0, _, _, _, h => by cases h
  | n + 1, e, e', x, h => by
    rw [iterate, Option.bind_eq_some_iff] at h
    obtain ⟨⟨v, e1⟩, h1, h2⟩ := h
    have s1 := arith_saved h1
    split at h2
    · cases h2; exact ⟨[], s1⟩
    · rw [Option.bind_eq_some_iff] at h2
      obtain ⟨⟨e2, f⟩, h3, h4⟩ := h2
      obtain ⟨l, hl⟩ := hb _ _ _ h3
      rw [show ({ fst := v, snd := e1 } : Nat × Env).2 = e1 from rfl, s1] at hl
      have again : (s.eval e2).bind (fun s' => iterate c s body n s'.2) = some (e', x) → ∃ l, e'.saved = l ++ e.saved := by
        intro h5
        rw [Option.bind_eq_some_iff] at h5
        obtain ⟨⟨_, e3⟩, h6, h7⟩ := h5
        obtain ⟨l2, h8⟩ := iterate_grows hb n _ _ _ h7
        exact ⟨l2 ++ l, by rw [h8]; show l2 ++ e3.saved = _; rw [arith_saved h6, hl, List.append_assoc]⟩
      cases f with
      | next => exact again h4
      | return_ => cases h4; exact ⟨l, hl⟩
      | continue_ m =>
        simp only at h4
        split at h4
        · exact again h4
        · cases h4; exact ⟨l, hl⟩
      | break_ m =>
        simp only at h4
        split at h4
        · cases h4; exact ⟨l, hl⟩
        · cases h4; exact ⟨l, hl⟩

theorem closure_keeps (body : Env → Option (Env × Flow)) {a : List Str} {e e' : Env} (h : closure body a e = some e') : e'.saved = e.saved := by
  unfold closure at h
  rw [Option.bind_eq_some_iff] at h
  obtain ⟨⟨e1, f⟩, _, h2⟩ := h
  cases f <;> cases h2 <;> rfl

theorem exec_grows (fuel : Nat) (c : Code) : ∀ fs, Keeps fs → Grows (exec fuel fs c) ∧ ∀ v, Grows (choose fuel fs v c) := by
  induction c with
  | done =>
    intro fs _
    exact ⟨fun e e' x h => by rw [exec] at h; cases h; exact ⟨[], rfl⟩, fun v e e' x h => by rw [choose] at h; cases h; exact ⟨[], rfl⟩⟩
  | act a k ih =>
    intro fs hf
    refine ⟨fun e e' x h => ?_, fun v e e' x h => by simp [choose] at h⟩
    rw [exec] at h
    exact Grows.andThen (fun e1 x1 h1 => act_grows hf a _ _ _ h1) (ih fs hf).1 _ _ h
  | loop i c s b k ihb ihk =>
    intro fs hf
    refine ⟨fun e e' x h => ?_, fun v e e' x h => by simp [choose] at h⟩
    rw [exec] at h
    refine Grows.andThen (fun e1 x1 h1 => ?_) (ihk fs hf).1 _ _ h
    rw [Option.bind_eq_some_iff] at h1
    obtain ⟨⟨_, e2⟩, h2, h3⟩ := h1
    obtain ⟨l, hl⟩ := iterate_grows (ihb fs hf).1 _ _ _ _ h3
    exact ⟨l, by rw [hl]; show l ++ e2.saved = _; rw [arith_saved h2]⟩
  | case_ w cl k ihc ihk =>
    intro fs hf
    refine ⟨fun e e' x h => ?_, fun v e e' x h => by simp [choose] at h⟩
    rw [exec] at h
    refine Grows.andThen (fun e1 x1 h1 => ?_) (ihk fs hf).1 _ _ h
    rw [Option.bind_eq_some_iff] at h1
    obtain ⟨⟨_, e2⟩, h2, h3⟩ := h1
    obtain ⟨l, hl⟩ := (ihc fs hf).2 _ _ _ _ h3
    exact ⟨l, by rw [hl]; show l ++ e2.saved = _; rw [expand_saved h2]⟩
  | clause p b k ihb ihk =>
    intro fs hf
    refine ⟨fun e e' x h => (by simp [exec] at h), fun v e e' x h => ?_⟩
    rw [choose, Option.bind_eq_some_iff] at h
    obtain ⟨alts, _, h2⟩ := h
    split at h2
    · have := (ihb fs hf).1 _ _ _ h2
      exact this
    · exact (ihk fs hf).2 _ _ _ _ h2
  | if_ c t el k ihc iht ihe ihk =>
    intro fs hf
    refine ⟨fun e e' x h => ?_, fun v e e' x h => by simp [choose] at h⟩
    rw [exec] at h
    refine Grows.andThen (fun e1 x1 h1 => ?_) (ihk fs hf).1 _ _ h
    refine Grows.andThen (fun e1 x1 h1 => (ihc fs hf).1 _ _ _ h1) ?_ _ _ h1
    intro a b y hy
    simp only at hy
    split at hy
    · exact (iht fs hf).1 _ _ _ hy
    · have := (ihe fs hf).1 _ _ _ hy
      exact this
  | function f b k ihb ihk =>
    intro fs hf
    refine ⟨fun e e' x h => ?_, fun v e e' x h => by simp [choose] at h⟩
    rw [exec] at h
    refine (ihk _ ?_).1 _ _ _ h
    intro g hg a e e' he
    rcases List.mem_cons.mp hg with rfl | hg
    · exact closure_keeps _ he
    · exact hf g hg a e e' he

theorem restore_append : ∀ (l m : List (Str × Val)) (e : Env), restore e (l ++ m) = restore (restore e l) m
  | [], _, _ => rfl
  | _ :: l, m, e => by rw [List.cons_append, restore, restore, restore_append l m]

/-- The local variables of the parser have their old values in the end, whatever it does. -/
theorem v1_locals {blocks : List Block} {cases : List SwitchCase} {fuel : Nat} {e e' : Env} (hr : ∀ x y, e.vars x ≠ .ref y)
    (h : closure (exec fuel [] (v1Code blocks cases)) [] e = some e') {v : Str} (hv : v ∈ localNames) : e'.vars v = e.vars v := by
  unfold closure at h
  rw [Option.bind_eq_some_iff] at h
  obtain ⟨⟨e1, f⟩, h1, h2⟩ := h
  unfold v1Code at h1
  rw [head_exec _ (show ∀ x y, ({ e with args := [], saved := [] } : Env).vars x ≠ .ref y from hr)] at h1
  obtain ⟨l, hl⟩ := (exec_grows fuel _ [] (fun g hg => by cases hg)).1 _ _ _ h1
  have hs : e1.saved = l ++ [vTrailing, vChar, vI, vArg, vArgi, vCmd].map (fun x => (x, e.vars x)) := hl
  have hres : (restore e1 e1.saved).vars v = e.vars v := by
    rw [hs, restore_append, restore_saved, if_pos]
    simp only [localNames, List.mem_cons, List.not_mem_nil, or_false] at hv ⊢
    rcases hv with rfl | rfl | rfl | rfl | rfl | rfl <;> simp
  cases f <;> cases h2 <;> exact hres

end BashText
