import Verif.Lemmas.Grammar
import Verif.Spec.WhenSpec

namespace CC

open ShellGrammar WhenSpec

variable {α β : Type}

theorem genTokens_append {g : α → Except Err (List (Tok β))} {ts us : List (Tok α)}
    {r : List (Tok β)} (h : genTokens g (ts ++ us) = .ok r) :
    ∃ r1 r2, genTokens g ts = .ok r1 ∧ genTokens g us = .ok r2 ∧ r = r1 ++ r2 := by
  induction ts generalizing r with
  | nil => exact ⟨[], r, rfl, h, rfl⟩
  | cons t ts ih =>
    cases t with
    | cmd c =>
      simp only [List.cons_append, genTokens] at h ⊢
      cases hg : g c with
      | error e => simp [hg, bind, Except.bind] at h
      | ok a =>
        cases hr : genTokens g (ts ++ us) with
        | error e => simp [hg, hr, bind, Except.bind] at h
        | ok r' =>
          obtain ⟨r1, r2, h1, h2, rfl⟩ := ih hr
          simp [hg, hr, bind, Except.bind] at h
          exact ⟨a ++ r1, r2, by simp [h1, bind, Except.bind], h2, by simp [← h]⟩
    | bang | lpar | rpar | and | or =>
      simp only [List.cons_append, genTokens] at h ⊢
      cases hr : genTokens g (ts ++ us) with
      | error e => simp [hr, bind, Except.bind] at h
      | ok r' =>
        obtain ⟨r1, r2, h1, h2, rfl⟩ := ih hr
        simp [hr, bind, Except.bind] at h
        refine ⟨_ :: r1, r2, ?_, h2, h.symm⟩
        simp only [h1, bind, Except.bind]

theorem genTokens_cons_op {g : α → Except Err (List (Tok β))} {ts : List (Tok α)}
    {r : List (Tok β)} :
    (genTokens g (.bang :: ts) = .ok r → ∃ r', genTokens g ts = .ok r' ∧ r = .bang :: r') ∧
    (genTokens g (.lpar :: ts) = .ok r → ∃ r', genTokens g ts = .ok r' ∧ r = .lpar :: r') ∧
    (genTokens g (.rpar :: ts) = .ok r → ∃ r', genTokens g ts = .ok r' ∧ r = .rpar :: r') ∧
    (genTokens g (.and :: ts) = .ok r → ∃ r', genTokens g ts = .ok r' ∧ r = .and :: r') ∧
    (genTokens g (.or :: ts) = .ok r → ∃ r', genTokens g ts = .ok r' ∧ r = .or :: r') := by
  simp only [genTokens, bind, Except.bind]
  cases genTokens g ts with
  | error e => simp
  | ok r' => simp; exact ⟨Eq.symm, Eq.symm, Eq.symm, Eq.symm, Eq.symm⟩

/-- Generation preserves the meaning: `g` gives, for every primitive condition that occurs, a
command with the right truth value. -/
theorem gen_denotes {g : α → Except Err (List (Tok β))} {l : Level} {ts : List (Tok α)}
    {e : Expr α} (h : DenotesAt l ts e) (v : β → Bool) (holds : α → Bool)
    {r : List (Tok β)} (hr : genTokens g ts = .ok r)
    (hg : ∀ c a, .cmd c ∈ ts → g c = .ok a →
      ∃ e', DenotesAt .command a e' ∧ e'.eval v = holds c) :
    ∃ e', DenotesAt l r e' ∧ e'.eval v = e.eval holds := by
  induction h generalizing r with
  | pipe _ ih =>
    obtain ⟨e', h1, h2⟩ := ih hr hg
    exact ⟨e', .pipe h1, h2⟩
  | and _ _ ih1 ih2 =>
    obtain ⟨r1, r2, h1, h2, rfl⟩ := genTokens_append hr
    obtain ⟨r3, h3, rfl⟩ := genTokens_cons_op.2.2.2.1 h2
    obtain ⟨e1, d1, v1⟩ := ih1 h1 (fun c a hc => hg c a (by simp [hc]))
    obtain ⟨e2, d2, v2⟩ := ih2 h3 (fun c a hc => hg c a (by simp [hc]))
    exact ⟨_, .and d1 d2, by simp [Expr.eval, v1, v2]⟩
  | or _ _ ih1 ih2 =>
    obtain ⟨r1, r2, h1, h2, rfl⟩ := genTokens_append hr
    obtain ⟨r3, h3, rfl⟩ := genTokens_cons_op.2.2.2.2 h2
    obtain ⟨e1, d1, v1⟩ := ih1 h1 (fun c a hc => hg c a (by simp [hc]))
    obtain ⟨e2, d2, v2⟩ := ih2 h3 (fun c a hc => hg c a (by simp [hc]))
    exact ⟨_, .or d1 d2, by simp [Expr.eval, v1, v2]⟩
  | cmd c =>
    simp only [genTokens, bind, Except.bind] at hr
    cases hgc : g c with
    | error e => simp [hgc] at hr
    | ok a =>
      simp [hgc] at hr
      subst hr
      obtain ⟨e', d, hv⟩ := hg c a (by simp) hgc
      exact ⟨e', by simpa using d, by simpa [Expr.eval] using hv⟩
  | not _ ih =>
    obtain ⟨r', h1, rfl⟩ := genTokens_cons_op.1 hr
    obtain ⟨e', d, hv⟩ := ih h1 (fun c a hc => hg c a (by simp [hc]))
    exact ⟨_, .not d, by simp [Expr.eval, hv]⟩
  | group _ ih =>
    obtain ⟨r', h1, rfl⟩ := genTokens_cons_op.2.1 hr
    obtain ⟨r1, r2, h2, h3, rfl⟩ := genTokens_append h1
    obtain ⟨r3, h4, rfl⟩ := genTokens_cons_op.2.2.1 h3
    simp [genTokens] at h4
    subst h4
    obtain ⟨e', d, hv⟩ := ih h2 (fun c a hc => hg c a (by simp [hc]))
    exact ⟨_, .group d, hv⟩

/-- A list without top-level `||` can follow `... &&`. -/
theorem and_context {l : Level} {ts : List (Tok β)} {e : Expr β} (h : DenotesAt l ts e) :
    l = .list → .or ∉ ts → ∀ (pre : List (Tok β)) (p : Expr β) (v : β → Bool), Denotes pre p →
    ∃ e', Denotes (pre ++ .and :: ts) e' ∧ e'.eval v = (p.eval v && e.eval v) := by
  induction h with
  | pipe h _ => intro _ _ pre p v hp; exact ⟨_, .and hp h, rfl⟩
  | and h1 h2 ih1 ih2 =>
    intro _ hor pre p v hp
    simp at hor
    obtain ⟨e', d, hv⟩ := ih1 rfl hor.1 pre p v hp
    refine ⟨_, by simpa using DenotesAt.and d h2, ?_⟩
    simp [Expr.eval, hv, Bool.and_assoc]
  | or h1 h2 => intro _ hor; simp at hor
  | cmd | not | group => intro h; cases h

/-- An and-or list of at most two tokens is a single, possibly negated, command. -/
theorem short_is_command {l : Level} {ts : List (Tok α)} {e : Expr α} (h : DenotesAt l ts e)
    (hl : ts.length ≤ 2) : DenotesAt .command ts e ∧ ts ≠ [] := by
  induction h with
  | pipe h ih => exact ih hl
  | and h1 h2 ih1 ih2 =>
    simp at hl
    have h3 := List.length_pos_iff.mpr (ih1 (by omega)).2
    have h4 := List.length_pos_iff.mpr (ih2 (by omega)).2
    omega
  | or h1 h2 ih1 ih2 =>
    simp at hl
    have h3 := List.length_pos_iff.mpr (ih1 (by omega)).2
    have h4 := List.length_pos_iff.mpr (ih2 (by omega)).2
    omega
  | cmd a => exact ⟨.cmd a, by simp⟩
  | not h ih => exact ⟨.not h, by simp⟩
  | group h ih => exact ⟨.group h, by simp⟩

/-- `||` in the generated code comes from the source, or is inside a group. -/
theorem context_general {g : α → Except Err (List (Tok β))} {l : Level} {ts : List (Tok α)}
    {e : Expr α} (h : DenotesAt l ts e) (v : β → Bool) (holds : α → Bool)
    {r : List (Tok β)} (hr : genTokens g ts = .ok r)
    (hg : ∀ c a, .cmd c ∈ ts → g c = .ok a →
      ∃ e', DenotesAt .command a e' ∧ e'.eval v = holds c) :
    l = .list → .or ∉ ts → ∀ (pre : List (Tok β)) (p : Expr β), Denotes pre p →
    ∃ e', Denotes (pre ++ .and :: r) e' ∧ e'.eval v = (p.eval v && e.eval holds) := by
  induction h generalizing r with
  | pipe h _ =>
    intro _ _ pre p hp
    obtain ⟨e', d, hv⟩ := gen_denotes h v holds hr hg
    exact ⟨_, .and hp d, by simp [Expr.eval, hv]⟩
  | and h1 h2 ih1 ih2 =>
    intro _ hor pre p hp
    simp at hor
    obtain ⟨r1, r2, g1, g2, rfl⟩ := genTokens_append hr
    obtain ⟨r3, g3, rfl⟩ := genTokens_cons_op.2.2.2.1 g2
    obtain ⟨e1, d1, v1⟩ := ih1 g1 (fun c a hc => hg c a (by simp [hc])) rfl hor.1 pre p hp
    obtain ⟨e2, d2, v2⟩ := gen_denotes h2 v holds g3 (fun c a hc => hg c a (by simp [hc]))
    refine ⟨_, by simpa using DenotesAt.and d1 d2, ?_⟩
    simp [Expr.eval, v1, v2, Bool.and_assoc]
  | or h1 h2 => intro _ hor; simp at hor
  | cmd | not | group => intro h; cases h

theorem mem_or_iff {ts : List (Tok α)} :
    ts.any (fun t => match t with | .or => true | _ => false) = true ↔ .or ∈ ts := by
  simp only [List.any_eq_true]
  constructor
  · rintro ⟨x, hx, h⟩; cases x <;> simp_all
  · intro h; exact ⟨_, h, rfl⟩

/-- The code of a condition, with the braces the generator adds, between other conditions. -/
theorem braces_context {g : α → Except Err (List (Tok β))} {ts : List (Tok α)}
    {e : Expr α} (h : Denotes ts e) (v : β → Bool) (holds : α → Bool)
    {r : List (Tok β)} (hr : genWithBraces g ts = .ok r)
    (hg : ∀ c a, .cmd c ∈ ts → g c = .ok a →
      ∃ e', DenotesAt .command a e' ∧ e'.eval v = holds c) :
    (∃ e', Denotes r e' ∧ e'.eval v = e.eval holds) ∧
    ∀ (pre : List (Tok β)) (p : Expr β), Denotes pre p →
      ∃ e', Denotes (pre ++ .and :: r) e' ∧ e'.eval v = (p.eval v && e.eval holds) := by
  simp only [genWithBraces, bind, Except.bind] at hr
  cases hgt : genTokens g ts with
  | error e => simp [hgt] at hr
  | ok r0 =>
    simp only [hgt] at hr
    split at hr
    · simp at hr
      subst hr
      obtain ⟨e', d, hv⟩ := gen_denotes h v holds hgt hg
      exact ⟨⟨e', .pipe (.group d), hv⟩, fun pre p hp => ⟨_, .and hp (.group d), by simp [Expr.eval, hv]⟩⟩
    · rename_i hb
      simp at hr
      subst hr
      obtain ⟨e', d, hv⟩ := gen_denotes h v holds hgt hg
      refine ⟨⟨e', d, hv⟩, fun pre p hp => ?_⟩
      by_cases hlen : ts.length > 2
      · have hor : .or ∉ ts := by
          intro hh
          apply hb
          simp only [needsBraces, hlen, decide_true, Bool.true_and]
          exact mem_or_iff.mpr hh
        exact context_general h v holds hgt hg rfl hor pre p hp
      · have hc := (short_is_command h (by omega)).1
        obtain ⟨e2, d2, v2⟩ := gen_denotes hc v holds hgt hg
        exact ⟨_, .and hp d2, by simp [Expr.eval, v2]⟩

/-! ### Primitive conditions, Bash -/

theorem orJoin_denotes (as : List β) (hne : as ≠ []) (v : β → Bool) :
    ∃ e, Denotes (orJoin as) e ∧ e.eval v = as.any v := by
  -- `||` associates to the left, so generalise over what precedes
  have key : ∀ (as : List β) (pre : List (Tok β)) (p : Expr β), Denotes pre p → as ≠ [] →
      ∃ e, Denotes (pre ++ .or :: orJoin as) e ∧ e.eval v = (p.eval v || as.any v) := by
    intro as
    induction as with
    | nil => intro pre p hp hne; exact absurd rfl hne
    | cons a as ih =>
      intro pre p hp _
      have d : Denotes (pre ++ .or :: [.cmd a]) (.or p (.atom a)) := .or hp (.cmd a)
      cases as with
      | nil => exact ⟨_, d, by simp [Expr.eval]⟩
      | cons b bs =>
        obtain ⟨e, d2, hv⟩ := ih _ _ d (by simp)
        refine ⟨e, by simpa [orJoin] using d2, ?_⟩
        simp [hv, Expr.eval, Bool.or_assoc]
  match as with
  | [] => exact absurd rfl hne
  | [a] => exact ⟨.atom a, .pipe (.cmd a), by simp [Expr.eval]⟩
  | a :: b :: bs =>
    obtain ⟨e, d, hv⟩ := key (b :: bs) [.cmd a] (.atom a) (.pipe (.cmd a)) (by simp)
    exact ⟨e, by simpa [orJoin] using d, by simpa [Expr.eval] using hv⟩

end CC
