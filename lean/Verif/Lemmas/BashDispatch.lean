import Verif.Lemmas.BashRun
import Verif.Spec.BashFunctionSpec
/-!
# Lemmas about the dispatcher
-/

namespace CC

/-! ## The case statements -/

theorem dropWhile_all {α} (p : α → Bool) (l : List α) (h : ∀ x ∈ l, p x = true) : l.dropWhile p = [] := by
  induction l with
  | nil => rfl
  | cons x l ih =>
    rw [List.dropWhile_cons_of_pos (h x (List.mem_cons_self ..))]
    exact ih (fun y hy => h y (List.mem_cons_of_mem _ hy))

theorem runClauses_stop (act : DAct → List BEvent × Bool) (p : DPat) (a : DAct) (cls : List DClause) :
    runClauses act (⟨p, a, false⟩ :: cls) = act a := by
  simp only [runClauses]; split <;> simp

theorem prev_other (act : DAct → List BEvent × Bool) (i : DispatchInfo) {prev : Str} (h : startsWith prev ['-'] = false) :
    runCase act prev (prevClauses i) = ([], false) := by
  have h2 : startsWith prev ['-', '-'] = false := by
    cases prev with
    | nil => rfl
    | cons c cs => simp [startsWith] at h ⊢; simp [h]
  have : (prevClauses i).dropWhile (fun cl => !cl.pat.matches prev) = [] := by
    refine dropWhile_all _ _ ?_
    intro cl hcl
    unfold prevClauses at hcl
    rcases List.mem_append.mp hcl with hcl | hcl
    · split at hcl <;> (simp at hcl; subst hcl; simp [DPat.matches, h2])
    · split at hcl
      · simp at hcl; rcases hcl with rfl | rfl <;> simp [DPat.matches, h]
      · split at hcl
        · simp at hcl; subst hcl; simp [DPat.matches, h]
        · split at hcl
          · simp at hcl; subst hcl; simp [DPat.matches, h]
          · cases hcl
  unfold runCase
  rw [this]; rfl

theorem prev_long (act : DAct → List BEvent × Bool) (i : DispatchInfo) {prev : Str} (h : startsWith prev ['-', '-'] = true)
    (hn : act .nop = ([], false)) :
    runCase act prev (prevClauses i) = if i.longRequired then act .word else ([], false) := by
  unfold runCase prevClauses
  cases i.longRequired with
  | true =>
    simp only [if_true, List.cons_append, List.nil_append]
    rw [List.dropWhile_cons_of_neg (by simp [DPat.matches, h]), runClauses_stop]
  | false =>
    simp only [Bool.false_eq_true, if_false, List.cons_append, List.nil_append]
    rw [List.dropWhile_cons_of_neg (by simp [DPat.matches, h]), runClauses_stop, hn]

theorem prev_dash (act : DAct → List BEvent × Bool) (i : DispatchInfo) {w : Str} (h : w.head? ≠ some '-') :
    runCase act ('-' :: w) (prevClauses i) =
      if i.oldRequired && i.shortRequired then
        (if (act .word).2 then act .word else ((act .word).1 ++ (act .last).1, (act .last).2))
      else if i.oldRequired then act .word
      else if i.shortRequired && clusterEnds i.noArgs i.requiredArgs w then act .last
      else ([], false) := by
  have h1 : startsWith ('-' :: w) ['-', '-'] = false := by
    cases w with
    | nil => rfl
    | cons c cs => simp at h; simp [startsWith, h]
  have h2 : startsWith ('-' :: w) ['-'] = true := by cases w <;> rfl
  have h0 : (DClause.pat (if i.longRequired then (⟨.long, .word, false⟩ : DClause) else ⟨.long, .nop, false⟩)).matches ('-' :: w) = false := by
    split <;> simp [DPat.matches, h1]
  unfold runCase prevClauses
  rw [List.cons_append, List.nil_append, List.dropWhile_cons_of_pos (by simp [h0])]
  cases i.oldRequired with
  | true =>
    cases i.shortRequired with
    | true =>
      simp only [Bool.and_true, if_true]
      rw [List.dropWhile_cons_of_neg (by simp [DPat.matches, h2])]
      simp only [runClauses]
      split
      · rfl
      · simp
    | false =>
      simp only [Bool.and_false, Bool.false_eq_true, if_false, if_true]
      rw [List.dropWhile_cons_of_neg (by simp [DPat.matches, h2]), runClauses_stop]
  | false =>
    cases i.shortRequired with
    | true =>
      simp only [Bool.false_and, Bool.false_eq_true, if_false, if_true, Bool.true_and]
      by_cases hc : clusterEnds i.noArgs i.requiredArgs w = true
      · rw [List.dropWhile_cons_of_neg (by simp [DPat.matches, h2, hc]), runClauses_stop, if_pos hc]
      · rw [List.dropWhile_cons_of_pos (by simp [DPat.matches, hc]), if_neg hc]; rfl
    | false => rfl

/-- The clauses after the ones for long options. -/
def curRest (i : DispatchInfo) : List DClause :=
  let short := i.shortRequired || i.shortOptional
  (if short && !i.oldStrings.isEmpty then [⟨.olds i.oldStrings, .nop, false⟩] else []) ++
    (if i.oldRequired || i.oldOptional then [⟨.dashEq, .eq, true⟩] else []) ++
    (if short then [⟨.shortAny i.noArgs (i.requiredArgs ++ i.optionalArgs), .loop, false⟩] else [])

theorem curClauses_eq (i : DispatchInfo) : curClauses i =
    (if i.longRequired || i.longOptional then [⟨.longEq, .eq, false⟩] else [⟨.longEq, .nop, false⟩]) ++
    (if (curRest i).isEmpty then [] else ⟨.long, .nop, false⟩ :: curRest i) := rfl

theorem cur_other (act : DAct → List BEvent × Bool) (i : DispatchInfo) {cur : Str} (h : startsWith cur ['-'] = false)
    (ho : ∀ s ∈ i.oldStrings, startsWith s ['-'] = true) :
    runCase act cur (curClauses i) = ([], false) := by
  have h2 : startsWith cur ['-', '-'] = false := by
    cases cur with
    | nil => rfl
    | cons c cs => simp [startsWith] at h ⊢; simp [h]
  have hr : ∀ cl ∈ curRest i, cl.pat.matches cur = false := by
    intro cl hcl
    unfold curRest at hcl
    simp only [List.mem_append] at hcl
    rcases hcl with (hcl | hcl) | hcl
    · split at hcl
      · simp at hcl; subst hcl
        simp only [DPat.matches]
        cases hc : i.oldStrings.contains cur with
        | false => rfl
        | true => rw [List.contains_iff_mem] at hc; rw [ho _ hc] at h; cases h
      · cases hcl
    · split at hcl
      · simp at hcl; subst hcl; simp [DPat.matches, h]
      · cases hcl
    · split at hcl
      · simp at hcl; subst hcl; simp [DPat.matches, h]
      · cases hcl
  have : (curClauses i).dropWhile (fun cl => !cl.pat.matches cur) = [] := by
    refine dropWhile_all _ _ ?_
    intro cl hcl
    rw [curClauses_eq] at hcl
    rcases List.mem_append.mp hcl with hcl | hcl
    · split at hcl <;> (simp at hcl; subst hcl; simp [DPat.matches, h2])
    · split at hcl
      · cases hcl
      · rcases List.mem_cons.mp hcl with rfl | hcl
        · simp [DPat.matches, h2]
        · simp [hr cl hcl]
  unfold runCase
  rw [this]; rfl

theorem cur_long (act : DAct → List BEvent × Bool) (i : DispatchInfo) {w : Str} (hn : act .nop = ([], false)) :
    runCase act ('-' :: '-' :: w) (curClauses i) =
      if w.contains '=' && (i.longRequired || i.longOptional) then act .eq else ([], false) := by
  have e2 : ∀ r, (if (i.longRequired || i.longOptional) = true then [(⟨.longEq, .eq, false⟩ : DClause)] else [⟨.longEq, .nop, false⟩]) ++ r =
      ⟨.longEq, if (i.longRequired || i.longOptional) = true then .eq else .nop, false⟩ :: r := by
    intro r; split <;> rfl
  rw [curClauses_eq, e2]
  unfold runCase
  have hm : DPat.matches ('-' :: '-' :: w) .longEq = w.contains '=' := by simp [DPat.matches, startsWith]
  cases he : w.contains '=' with
  | true =>
    rw [List.dropWhile_cons_of_neg (by rw [hm, he]; decide), runClauses_stop]
    cases (i.longRequired || i.longOptional) with
    | true => rfl
    | false => exact hn
  | false =>
    rw [List.dropWhile_cons_of_pos (by rw [hm, he]; rfl)]
    simp only [Bool.false_and, Bool.false_eq_true, if_false]
    by_cases hr : (curRest i).isEmpty = true
    · rw [if_pos hr]; rfl
    · rw [if_neg hr, List.dropWhile_cons_of_neg (by simp [DPat.matches, startsWith]), runClauses_stop, hn]

theorem cur_dash (act : DAct → List BEvent × Bool) (i : DispatchInfo) {w : Str} (h : w.head? ≠ some '-')
    (hn : act .nop = ([], false)) :
    runCase act ('-' :: w) (curClauses i) =
      if (i.shortRequired || i.shortOptional) && i.oldStrings.contains ('-' :: w) then ([], false)
      else if (i.oldRequired || i.oldOptional) && w.contains '=' then
        (if (act .eq).2 then act .eq
         else if i.shortRequired || i.shortOptional then ((act .eq).1 ++ (act .loop).1, (act .loop).2)
         else act .eq)
      else if (i.shortRequired || i.shortOptional) && clusterHas i.noArgs (i.requiredArgs ++ i.optionalArgs) w then act .loop
      else ([], false) := by
  have h1 : startsWith ('-' :: w) ['-', '-'] = false := by
    cases w with
    | nil => rfl
    | cons c cs => simp at h; simp [startsWith, h]
  have h2 : startsWith ('-' :: w) ['-'] = true := by cases w <;> rfl
  have hd : (curClauses i).dropWhile (fun cl => !cl.pat.matches ('-' :: w)) =
      (curRest i).dropWhile (fun cl => !cl.pat.matches ('-' :: w)) := by
    rw [curClauses_eq]
    have e2 : ∀ r, (if (i.longRequired || i.longOptional) = true then [(⟨.longEq, .eq, false⟩ : DClause)] else [⟨.longEq, .nop, false⟩]) ++ r =
        ⟨.longEq, if (i.longRequired || i.longOptional) = true then .eq else .nop, false⟩ :: r := by
      intro r; split <;> rfl
    rw [e2, List.dropWhile_cons_of_pos (by simp [DPat.matches, h1])]
    by_cases hr : (curRest i).isEmpty = true
    · rw [if_pos hr, List.isEmpty_iff.mp hr]
    · rw [if_neg hr, List.dropWhile_cons_of_pos (by simp [DPat.matches, h1])]
  unfold runCase
  rw [hd]
  unfold curRest
  have hmo : DPat.matches ('-' :: w) (.olds i.oldStrings) = i.oldStrings.contains ('-' :: w) := rfl
  have hme : DPat.matches ('-' :: w) .dashEq = w.contains '=' := by simp [DPat.matches, h2]
  have hms : ∀ f a, DPat.matches ('-' :: w) (.shortAny f a) = clusterHas f a w := by intro f a; simp [DPat.matches, h2]
  have key : runClauses act (List.dropWhile (fun cl => !cl.pat.matches ('-' :: w))
      ((if (i.oldRequired || i.oldOptional) = true then [(⟨.dashEq, .eq, true⟩ : DClause)] else []) ++
        (if (i.shortRequired || i.shortOptional) = true then [⟨.shortAny i.noArgs (i.requiredArgs ++ i.optionalArgs), .loop, false⟩] else []))) =
      if (i.oldRequired || i.oldOptional) && w.contains '=' then
        (if (act .eq).2 then act .eq
         else if i.shortRequired || i.shortOptional then ((act .eq).1 ++ (act .loop).1, (act .loop).2)
         else act .eq)
      else if (i.shortRequired || i.shortOptional) && clusterHas i.noArgs (i.requiredArgs ++ i.optionalArgs) w then act .loop
      else ([], false) := by
    have tail : runClauses act (List.dropWhile (fun cl => !cl.pat.matches ('-' :: w))
        (if (i.shortRequired || i.shortOptional) = true then [(⟨.shortAny i.noArgs (i.requiredArgs ++ i.optionalArgs), .loop, false⟩ : DClause)] else [])) =
        if (i.shortRequired || i.shortOptional) && clusterHas i.noArgs (i.requiredArgs ++ i.optionalArgs) w then act .loop else ([], false) := by
      cases hs : (i.shortRequired || i.shortOptional) with
      | false => rfl
      | true =>
        simp only [if_true, Bool.true_and]
        by_cases hc : clusterHas i.noArgs (i.requiredArgs ++ i.optionalArgs) w = true
        · rw [List.dropWhile_cons_of_neg (by simp [hms, hc]), runClauses_stop, if_pos hc]
        · rw [List.dropWhile_cons_of_pos (by simp [hms, hc]), if_neg hc]; rfl
    cases ho : (i.oldRequired || i.oldOptional) with
    | false => simpa using tail
    | true =>
      simp only [if_true, Bool.true_and, List.cons_append, List.nil_append]
      by_cases he : w.contains '=' = true
      · rw [List.dropWhile_cons_of_neg (by rw [hme, he]; decide), if_pos he]
        simp only [runClauses, if_true]
        split
        · rfl
        · rename_i hr
          cases hs : (i.shortRequired || i.shortOptional) with
          | false =>
            simp only [Bool.false_eq_true, if_false, runClauses, List.append_nil]
            have : (act .eq).2 = false := by simpa using hr
            rw [← this]
          | true => simp [runClauses]
      · have he' : w.contains '=' = false := by simpa using he
        rw [List.dropWhile_cons_of_pos (by rw [hme, he']; rfl), if_neg he]
        exact tail
  rw [List.append_assoc]
  cases hs : ((i.shortRequired || i.shortOptional) && !i.oldStrings.isEmpty) with
  | false =>
    simp only [Bool.false_eq_true, if_false, List.nil_append]
    rw [key]
    refine (if_neg ?_).symm
    intro hc
    simp only [Bool.and_eq_true, List.contains_iff_mem] at hc
    rw [hc.1] at hs
    have : i.oldStrings = [] := by simpa using hs
    rw [this] at hc; cases hc.2
  | true =>
    have hs' : (i.shortRequired || i.shortOptional) = true := by
      simp only [Bool.and_eq_true] at hs; exact hs.1
    simp only [if_true, List.cons_append, List.nil_append]
    by_cases hc : i.oldStrings.contains ('-' :: w) = true
    · rw [List.dropWhile_cons_of_neg (by rw [hmo, hc]; decide), runClauses_stop, hn, if_pos (by simp only [hs', hc]; rfl)]
    · have hc' : i.oldStrings.contains ('-' :: w) = false := by simpa using hc
      rw [List.dropWhile_cons_of_pos (by rw [hmo, hc']; rfl), key]
      exact (if_neg (by simp only [Bool.and_eq_true]; intro h; exact hc h.2)).symm

end CC
