import Verif.Spec.ShellGrammar
import Verif.Model.ShellParser

namespace ShellGrammar

variable {α : Type}

theorem negate_not (n : Nat) (e : Expr α) : negate n (.not e) = .not (negate n e) := by
  induction n with
  | zero => rfl
  | succ n ih => simp [negate, ih]

theorem close_not (f : Frame α) (e : Expr α) :
    f.close (.not e) = ({ f with bangs := f.bangs + 1 } : Frame α).close e := by
  unfold Frame.close
  cases h : f.left with
  | none => simp [negate, negate_not]
  | some p => obtain ⟨l, b⟩ := p; cases b <;> simp [negate, negate_not]

/-- Reading a list at the start of a level, or a command at any operand position. -/
theorem parseGo_denotes {l : Level} {ts : List (Tok α)} {e : Expr α} (h : DenotesAt l ts e) :
    (∀ st rest, l = .list →
      parseGo st (.inl ⟨none, 0⟩) (ts ++ rest) = parseGo st (.inr e) rest) ∧
    (∀ st f rest, l = .command →
      parseGo st (.inl f) (ts ++ rest) = parseGo st (.inr (f.close e)) rest) := by
  induction h with
  | pipe _ ih =>
    refine ⟨fun st rest _ => ?_, by simp⟩
    rw [ih.2 _ _ _ rfl]; simp [Frame.close, negate]
  | and _ _ ih1 ih2 =>
    refine ⟨fun st rest _ => ?_, by simp⟩
    simp only [List.append_assoc, List.cons_append]
    rw [ih1.1 _ _ rfl]
    simp only [parseGo]
    rw [ih2.2 _ _ _ rfl]
    simp [Frame.close, negate]
  | or _ _ ih1 ih2 =>
    refine ⟨fun st rest _ => ?_, by simp⟩
    simp only [List.append_assoc, List.cons_append]
    rw [ih1.1 _ _ rfl]
    simp only [parseGo]
    rw [ih2.2 _ _ _ rfl]
    simp [Frame.close, negate]
  | cmd a => exact ⟨by simp, fun st f rest _ => by simp [parseGo]⟩
  | not _ ih =>
    refine ⟨by simp, fun st f rest _ => ?_⟩
    simp only [List.cons_append, parseGo]
    rw [ih.2 _ _ _ rfl, close_not]
  | group _ ih =>
    refine ⟨by simp, fun st f rest _ => ?_⟩
    simp only [List.cons_append, List.append_assoc, List.nil_append, parseGo]
    rw [ih.1 _ _ rfl]
    simp [parseGo]

/-- The reader finds the meaning that the grammar gives. -/
theorem parse_complete {ts : List (Tok α)} {e : Expr α} (h : Denotes ts e) :
    parse ts = some e := by
  have := (parseGo_denotes h).1 [] [] rfl
  simp only [List.append_nil] at this
  simp [parse, this, parseGo]

/-- The grammar is unambiguous. -/
theorem denotes_unique {ts : List (Tok α)} {e f : Expr α} (h : Denotes ts e) (h' : Denotes ts f) :
    e = f := by
  have h1 := parse_complete h
  rw [parse_complete h'] at h1
  exact (Option.some.inj h1).symm

end ShellGrammar

namespace CC

open ShellGrammar

variable {α : Type}

/-- `pre` can be completed to an and-or list by any command. -/
def Opd (pre : List (Tok α)) : Prop :=
  ∀ us f, DenotesAt .command us f → ∃ e, Denotes (pre ++ us) e

theorem opd_nil : Opd ([] : List (Tok α)) := fun _ f h => ⟨f, .pipe h⟩

theorem opd_bang {pre : List (Tok α)} (h : Opd pre) : Opd (pre ++ [.bang]) := by
  intro us f hf
  have := h (.bang :: us) _ (.not hf)
  simpa using this

theorem opd_and {pre : List (Tok α)} {e : Expr α} (h : Denotes pre e) : Opd (pre ++ [.and]) := by
  intro us f hf
  exact ⟨_, by simpa using DenotesAt.and h hf⟩

theorem opd_or {pre : List (Tok α)} {e : Expr α} (h : Denotes pre e) : Opd (pre ++ [.or]) := by
  intro us f hf
  exact ⟨_, by simpa using DenotesAt.or h hf⟩

/-- Text of the open levels, innermost first. -/
def levels : List (List (Tok α)) → List (Tok α)
  | [] => []
  | p :: ps => levels ps ++ p ++ [.lpar]

/-- No command directly after a command or a closing parenthesis. -/
def noJuxtaposition : List (Tok α) → Bool
  | .cmd _ :: .cmd _ :: _ => false
  | .rpar :: .cmd _ :: _ => false
  | _ :: ts => noJuxtaposition ts
  | [] => true

/-- The last token is a command or a closing parenthesis. -/
def endsComplete (ts : List (Tok α)) : Bool := !expectsOperand ts.getLast?

theorem noJuxt_tail {t : Tok α} {ts : List (Tok α)} (h : noJuxtaposition (t :: ts) = true) :
    noJuxtaposition ts = true := by
  unfold noJuxtaposition at h
  split at h
  · cases h
  · cases h
  · rename_i heq; simp at heq; rw [heq.2]; exact h
  · simp at *

theorem noJuxt_head {t : Tok α} {a : α} {ts : List (Tok α)}
    (h : noJuxtaposition (t :: .cmd a :: ts) = true) : expectsOperand (some t) = true := by
  cases t <;> simp_all [noJuxtaposition, expectsOperand]

theorem endsComplete_cons {t u : Tok α} {ts : List (Tok α)} :
    endsComplete (t :: u :: ts) = endsComplete (u :: ts) := by
  simp [endsComplete, List.getLast?_cons_cons]

/-- Soundness of the syntax check, generalised to the middle of a token list. -/
theorem checkGo_sound (ts : List (Tok α)) : ∀ (open_ : List (List (Tok α))) (cur : List (Tok α))
    (last : Option (Tok α)),
    (∀ p ∈ open_, Opd p) →
    (expectsOperand last = true → Opd cur) →
    (expectsOperand last = false → ∃ e, Denotes cur e) →
    checkSyntaxGo last open_.length ts = .ok () →
    (match last, ts with
      | some t, ts => noJuxtaposition (t :: ts) = true ∧ endsComplete (t :: ts) = true
      | none, ts => noJuxtaposition ts = true ∧ (ts ≠ [] → endsComplete ts = true)) →
    ∃ e, Denotes (levels open_ ++ cur ++ ts) e := by
  induction ts with
  | nil =>
    intro open_ cur last ho h1 h2 hc hs
    simp only [checkSyntaxGo] at hc
    split at hc
    · cases hc
    · rename_i hp
      have hlen : open_ = [] := by
        cases open_ with
        | nil => rfl
        | cons a b => exfalso; apply hp; simp
      subst hlen
      split at hc
      · cases hc
      · cases last with
        | none => simp at *
        | some t =>
          simp only at hs
          have : expectsOperand (some t) = false := by simpa [endsComplete] using hs.2
          obtain ⟨e, he⟩ := h2 this
          exact ⟨e, by simpa [levels] using he⟩
  | cons t ts ih =>
    intro open_ cur last ho h1 h2 hc hs
    have hs' : noJuxtaposition (t :: ts) = true ∧ endsComplete (t :: ts) = true := by
      cases last with
      | none => exact ⟨hs.1, hs.2 (by simp)⟩
      | some l => exact ⟨noJuxt_tail hs.1, by rw [← endsComplete_cons]; exact hs.2⟩
    cases t with
    | bang =>
      simp only [checkSyntaxGo] at hc
      split at hc
      · rename_i hop
        have := ih open_ (cur ++ [.bang]) (some .bang) ho (fun _ => opd_bang (h1 hop))
          (by simp [expectsOperand]) hc hs'
        simpa using this
      · cases hc
    | lpar =>
      simp only [checkSyntaxGo] at hc
      split at hc
      · rename_i hop
        have := ih (cur :: open_) [] (some .lpar)
          (by intro p hp; simp at hp; rcases hp with rfl | hp
              · exact h1 hop
              · exact ho p hp)
          (fun _ => opd_nil) (by simp [expectsOperand]) (by simpa using hc) hs'
        simpa [levels] using this
      · cases hc
    | rpar =>
      simp only [checkSyntaxGo] at hc
      split at hc
      · cases hc
      · rename_i hop
        simp at hop
        have hcomp := h2 hop.2
        cases open_ with
        | nil => simp at hop
        | cons p ps =>
          obtain ⟨e, he⟩ := hcomp
          obtain ⟨e', he'⟩ := ho p (by simp) _ _ (.group he)
          have := ih ps (p ++ (.lpar :: (cur ++ [.rpar]))) (some .rpar)
            (fun q hq => ho q (by simp [hq])) (by simp [expectsOperand])
            (fun _ => ⟨e', he'⟩)
            (by have : ((p :: ps).length : Int) - 1 = ps.length := by simp
                rw [← this]; exact hc) hs'
          simpa [levels] using this
    | and =>
      simp only [checkSyntaxGo] at hc
      split at hc
      · cases hc
      · rename_i hop
        obtain ⟨e, he⟩ := h2 (by simpa using hop)
        have := ih open_ (cur ++ [.and]) (some .and) ho (fun _ => opd_and he)
          (by simp [expectsOperand]) hc hs'
        simpa using this
    | or =>
      simp only [checkSyntaxGo] at hc
      split at hc
      · cases hc
      · rename_i hop
        obtain ⟨e, he⟩ := h2 (by simpa using hop)
        have := ih open_ (cur ++ [.or]) (some .or) ho (fun _ => opd_or he)
          (by simp [expectsOperand]) hc hs'
        simpa using this
    | cmd a =>
      simp only [checkSyntaxGo] at hc
      have hop : expectsOperand last = true := by
        cases last with
        | none => rfl
        | some l => exact noJuxt_head hs.1
      obtain ⟨e, he⟩ := h1 hop _ _ (.cmd a)
      have := ih open_ (cur ++ [.cmd a]) (some (.cmd a)) ho (by simp [expectsOperand])
          (fun _ => ⟨e, he⟩) hc hs'
      simpa using this

/-- Completeness of the check: grammatical text is accepted in operand position. -/
theorem checkGo_denotes {l : Level} {ts : List (Tok α)} {e : Expr α} (h : DenotesAt l ts e) :
    ∃ t, expectsOperand (some t) = false ∧ ts.getLast? = some t ∧
      ∀ (last : Option (Tok α)) (par : Int) (rest : List (Tok α)),
        expectsOperand last = true → 0 ≤ par →
        checkSyntaxGo last par (ts ++ rest) = checkSyntaxGo (some t) par rest := by
  induction h with
  | pipe _ ih => exact ih
  | @and ts us _ _ _ _ ih1 ih2 =>
    obtain ⟨t1, e1, -, r1⟩ := ih1
    obtain ⟨t2, e2, l2, r2⟩ := ih2
    refine ⟨t2, e2, ?_, ?_⟩
    · simp [List.getLast?_append, List.getLast?_cons, l2]
    · intro last par rest hl hp
      simp only [List.append_assoc, List.cons_append, r1 last par _ hl hp, checkSyntaxGo, e1]
      simp [r2 (some .and) par rest rfl hp]
  | @or ts us _ _ _ _ ih1 ih2 =>
    obtain ⟨t1, e1, -, r1⟩ := ih1
    obtain ⟨t2, e2, l2, r2⟩ := ih2
    refine ⟨t2, e2, ?_, ?_⟩
    · simp [List.getLast?_append, List.getLast?_cons, l2]
    · intro last par rest hl hp
      simp only [List.append_assoc, List.cons_append, r1 last par _ hl hp, checkSyntaxGo, e1]
      simp [r2 (some .or) par rest rfl hp]
  | cmd a => exact ⟨.cmd a, rfl, rfl, fun _ _ _ _ _ => by simp [checkSyntaxGo]⟩
  | not _ ih =>
    obtain ⟨t1, e1, l1, r1⟩ := ih
    refine ⟨t1, e1, ?_, ?_⟩
    · simp [List.getLast?_cons, l1]
    · intro last par rest hl hp
      simp [checkSyntaxGo, hl, r1 (some .bang) par rest rfl hp]
  | group _ ih =>
    obtain ⟨t1, e1, l1, r1⟩ := ih
    refine ⟨.rpar, rfl, ?_, ?_⟩
    · simp [List.getLast?_cons, List.getLast?_append]
    · intro last par rest hl hp
      simp only [List.cons_append, List.append_assoc, List.nil_append, checkSyntaxGo, hl, if_true,
        r1 (some .lpar) (par + 1) _ rfl (by omega)]
      have h2 : par + 1 - 1 = par := by omega
      simp [e1, h2]
      omega

/-- Tokens that may follow a given token in grammatical text never juxtapose. -/
theorem noJuxt_append {ts us : List (Tok α)} {t : Tok α}
    (h1 : noJuxtaposition ts = true) (h2 : noJuxtaposition (t :: us) = true)
    (ht : ∀ a, t ≠ .cmd a) : noJuxtaposition (ts ++ t :: us) = true := by
  induction ts with
  | nil => simpa using h2
  | cons x xs ih =>
    have ih' := ih (noJuxt_tail h1)
    cases xs with
    | nil =>
      simp only [List.cons_append, List.nil_append] at ih' ⊢
      cases t <;> simp_all [noJuxtaposition]
    | cons y ys =>
      cases x <;> cases y <;> simp_all [noJuxtaposition]

theorem noJuxt_cons {ts : List (Tok α)} {t : Tok α}
    (h1 : noJuxtaposition ts = true) (ht : expectsOperand (some t) = true) :
    noJuxtaposition (t :: ts) = true := by
  cases t <;> simp_all [noJuxtaposition, expectsOperand]

theorem noJuxt_denotes {l : Level} {ts : List (Tok α)} {e : Expr α} (h : DenotesAt l ts e) :
    noJuxtaposition ts = true := by
  induction h with
  | pipe _ ih => exact ih
  | and _ _ ih1 ih2 => exact noJuxt_append ih1 (noJuxt_cons ih2 rfl) (by simp)
  | or _ _ ih1 ih2 => exact noJuxt_append ih1 (noJuxt_cons ih2 rfl) (by simp)
  | cmd a => rfl
  | not _ ih => exact noJuxt_cons ih rfl
  | group _ ih =>
    exact noJuxt_cons (noJuxt_append ih (by rfl) (by simp)) rfl

/-- Exact characterisation of what the syntax check accepts besides the two holes. -/
theorem check_iff (ts : List (Tok α)) :
    (checkSyntax ts = .ok () ∧ noJuxtaposition ts = true ∧ endsComplete ts = true) ↔
      ∃ e, Denotes ts e := by
  constructor
  · rintro ⟨h1, h2, h3⟩
    have := checkGo_sound ts [] [] none (by simp) (fun _ => opd_nil) (by simp [expectsOperand])
      (by simpa [checkSyntax] using h1) ⟨h2, fun _ => h3⟩
    simpa [levels] using this
  · rintro ⟨e, h⟩
    obtain ⟨t, h1, h2, h3⟩ := checkGo_denotes h
    refine ⟨?_, noJuxt_denotes h, ?_⟩
    · have := h3 none 0 [] rfl (by omega)
      simp only [List.append_nil] at this
      simp [checkSyntax, this, checkSyntaxGo]
    · simp [endsComplete, h2, h1]

end CC
