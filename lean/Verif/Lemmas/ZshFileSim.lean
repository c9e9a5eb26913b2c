import Verif.Lemmas.ZshFileRun
/-!
# Lemmas: running the text of the functions is running the model (C93)
-/

namespace CC
namespace ZshLex
open ZshText

/-- What the function of a command needs in order to run as in the model. -/
structure FunctionRuns (parents : List Cmd) (c : Cmd) (f : ZshFunction) : Prop where
  table : ∀ t, f.init = some t → noEquals t
  variations : ∀ d ∈ c.children, ∀ w ∈ variations c d, noEquals w
  args : ∀ a ∈ f.args, ArgRuns a

theorem zshCall_find (F : List Cmd → Cmd → Except Err ZshFunction) (rx : Bool → Str → Str → Bool) (init : Str → Parsed) (p : Parsed)
    (parents : List Cmd) (c : Cmd) (w : Str) (ds : List Cmd) {r : Option ZshEnd} (h : Cmd.zshCall F rx init p parents c w ds = .ok r) :
    match ds.find? (fun d => (variations c d).contains w) with
    | none => r = none
    | some d => ∃ e, r = some e ∧ d.zshRun F rx init p (parents ++ [c]) = .ok e := by
  induction ds with
  | nil => rw [Cmd.zshCall] at h; cases h; rfl
  | cons d ds ih =>
    rw [Cmd.zshCall] at h
    by_cases hm : (variations c d).contains w = true
    · rw [if_pos hm] at h
      obtain ⟨e, h1, h2⟩ := bind_ok h
      cases h2
      rw [List.find?_cons_of_pos (p := fun d => (variations c d).contains w) hm]
      exact ⟨e, rfl, h1⟩
    · rw [if_neg hm] at h
      rw [List.find?_cons_of_neg (p := fun d => (variations c d).contains w) hm]
      exact ih h

theorem zshRun_cases (F : List Cmd → Cmd → Except Err ZshFunction) (rx : Bool → Str → Str → Bool) (init : Str → Parsed) (p : Parsed)
    (parents : List Cmd) (c : Cmd) {r : ZshEnd} (h : c.zshRun F rx init p parents = .ok r) :
    ∃ f, F parents c = .ok f ∧
      match c.sub.bind (fun n => c.children.find? (fun d => (variations c d).contains
        (zshIndex ((f.init.map init).getD p).positionals (positionalNum parents n)))) with
      | none => r = ⟨parents, c, (f.init.map init).getD p, f.elements rx ((f.init.map init).getD p)⟩
      | some d => d.zshRun F rx init ((f.init.map init).getD p) (parents ++ [c]) = .ok r := by
  cases c with
  | node d s ch =>
    rw [Cmd.zshRun] at h
    obtain ⟨f, hf, h⟩ := bind_ok h
    refine ⟨f, hf, ?_⟩
    simp only at h
    obtain ⟨call, hc, h⟩ := bind_ok h
    cases h
    simp only [Cmd.sub, Cmd.children]
    cases s with
    | none =>
      simp only [Except.ok.injEq] at hc
      subst hc
      rfl
    | some n =>
      simp only at hc
      have := zshCall_find F rx init _ parents _ _ ch hc
      simp only [Option.bind_some]
      split at this
      · rename_i hfind
        subst this
        rfl
      · rename_i d' hfind
        obtain ⟨e, rfl, he⟩ := this
        exact he

/-- The text of the functions does what the model does. -/
theorem simulates {pre : Str} (hp : ∀ c ∈ pre, idChar c = true) (rx : Bool → Str → Str → Bool) (root : Cmd) (q : Str → Str) (words : List Str)
    (stacking : Bool) (F : List Cmd → Cmd → Except Err ZshFunction) (table : List (Str × List Stmt))
    (hall : ∀ parents c, At root parents c → ∀ f, F parents c = .ok f → FunctionRuns parents c f ∧
      lookup table (zshName pre parents c) = some (bodyStmts pre stacking parents c f))
    (hb : ∀ t, ∀ w ∈ (zshQueryOf root t q words.tail).positionals, w.getLast? ≠ some '\n')
    (c : Cmd) (parents : List Cmd) (hat : At root parents c) (v : Vars Parsed) (hv : ∀ w ∈ v.known.positionals, w.getLast? ≠ some '\n') (r : ZshEnd)
    (h : c.zshRun F rx (fun t => zshQueryOf root t q words.tail) v.known parents = .ok r) :
    ∃ f v', At root r.parents r.cmd ∧ F r.parents r.cmd = .ok f ∧
      Runs (zshHelperEnv pre rx root q words) table (zshName pre parents c) v (zshName pre r.parents r.cmd) v' ∧
      v'.known = r.parsed ∧ r.elements = f.elements rx r.parsed ∧
      v'.calls = v.calls ++ (if f.args = [] then [] else [(argumentsFlags stacking, r.elements)]) := by
  obtain ⟨f, hf, hr⟩ := zshRun_cases F rx _ _ parents c h
  obtain ⟨hok, hl⟩ := hall parents c hat f hf
  have hl' := hl
  unfold bodyStmts at hl
  rw [List.append_assoc] at hl
  obtain ⟨v1, h1, h2, h3⟩ := run_init hp rx root q words f.init hok.table v (caseStmts pre parents c ++ optionStmts pre stacking f.args)
  have hv1 : ∀ w ∈ v1.known.positionals, w.getLast? ≠ some '\n' := by
    rw [h2]
    cases f.init with
    | none => exact hv
    | some t => exact hb t
  have hcase := run_case hp rx root q words parents c hok.variations v1 hv1 (optionStmts pre stacking f.args)
  rw [← h2] at hr
  cases hd : c.sub.bind (fun n => c.children.find? (fun d => (CC.variations c d).contains (zshIndex v1.known.positionals (positionalNum parents n)))) with
  | none =>
    rw [hd] at hr
    simp only at hr
    subst hr
    obtain ⟨v2, k1, k2, k3⟩ := run_options hp rx root q words stacking f hok.args v1
    have hstep : statements (zshHelperEnv pre rx root q words) v1 none (caseStmts pre parents c ++ optionStmts pre stacking f.args) = some (.done v2) := by
      rw [hcase, ← k1]
      cases hs : c.sub with
      | none => rfl
      | some n =>
        rw [hs, Option.bind_some] at hd
        simp only [hd]
    refine ⟨f, v2, hat, hf, .ends hl (h1.trans hstep), k2, rfl, ?_⟩
    rw [k3, h3]
  | some d =>
    rw [hd] at hr
    simp only at hr
    cases hs : c.sub with
    | none => rw [hs] at hd; cases hd
    | some n =>
      rw [hs, Option.bind_some] at hd
      rw [hs] at hcase
      simp only [hd] at hcase
      have hmem : d ∈ c.children := List.mem_of_find?_eq_some hd
      have hsz : sizeOf d < sizeOf c := by
        cases c with
        | node a b ch =>
          simp only [Cmd.children] at hmem
          have := List.sizeOf_lt_of_mem hmem
          simp only [Cmd.node.sizeOf_spec]
          omega
      obtain ⟨g, v', m1, m2, m3, m4, m5, m6⟩ := simulates hp rx root q words stacking F table hall hb d (parents ++ [c]) (.child hat hmem) v1 hv1 r hr
      refine ⟨g, v', m1, m2, .goesOn hl (h1.trans hcase) m3, m4, m5, ?_⟩
      rw [m6, h3]
termination_by sizeOf c

theorem lookup_nodup {fs : List (Str × List Stmt)} (h : (fs.map (·.1)).Nodup) {e : Str × List Stmt} (he : e ∈ fs) : lookup fs e.1 = some e.2 := by
  unfold lookup
  have hu : ∀ x ∈ fs, x.1 = e.1 → x = e := by
    intro x hx hxe
    induction fs with
    | nil => simp at he
    | cons y r ih =>
      rw [List.map_cons, List.nodup_cons] at h
      rcases List.mem_cons.mp he with rfl | he' <;> rcases List.mem_cons.mp hx with rfl | hx'
      · rfl
      · exact absurd (List.mem_map.mpr ⟨x, hx', hxe⟩) h.1
      · exact absurd (List.mem_map.mpr ⟨e, he', hxe.symm⟩ : x.1 ∈ r.map (·.1)) h.1
      · exact ih h.2 he' hx'
  cases hf : fs.reverse.find? (fun f => decide (f.1 = e.1)) with
  | none =>
    have := List.find?_eq_none.mp hf e (by simpa using he)
    simp at this
  | some x =>
    have h1 := List.find?_some hf
    have h2 := List.mem_of_find?_eq_some hf
    rw [hu x (by simpa using h2) (by simpa using h1)]
    rfl

end ZshLex
end CC
