import Verif.Model.BashOptionText
import Verif.Spec.BashOffers
import Verif.Lemmas.ZshFileRun
import Verif.Lemmas.BashCalls
/-!
# Lemmas: how Bash reads the lines that offer option strings
-/

namespace CC
namespace OffersLex
open ZshText ZshLex
open ShellGrammar (Expr)
open FishReads (alternates mapTok)
open BashText (isName nameChar)

/-- The word of a reference to values. -/
def refWord (r : VarRef) : Str := S "\"${" ++ (r.var ++ (if r.all then S "[@]" else S "[@]: -1:1")) ++ S "}\""

/-- The text of a sum of lengths, and of a conjunction of tests for emptiness. -/
def sumText (vars : List Str) : Str := ' ' :: joinWith (S " + ") (vars.map (fun v => S "${#" ++ v ++ S "[@]}")) ++ [' ']
def emptyText (vars : List Str) : Str := ' ' :: joinWith (S " && ") (vars.map noneText) ++ [' ']

/-- The command of a part of a condition. -/
def primSimple (pre : Str) : BashPrim → Simple
  | .arrayContains nc v refs => .call (realName pre (if nc then S "array_contains_nocase" else S "array_contains") :: quote v :: refs.map refWord)
  | .arrayMatch nc rx refs => .call (realName pre (S "array_match") :: ((if nc then [S "-i"] else []) ++ S "--" :: quote rx :: refs.map refWord))
  | .anySet vars => .arith (sumText vars)
  | .posCount op n => .arith (S " ${#POSITIONALS[@]} " ++ op.text ++ [' '] ++ intStr n ++ [' '])
  | .posContains nc i vals =>
    .call (realName pre (S "array_contains") :: (S "\"${" ++ (S "POSITIONALS[" ++ intStr i ++ (if nc then S "],," else S "]")) ++ S "}\"") ::
      vals.map (fun w => quote w))

/-- The command of a part of the condition of an option. -/
def osSimple (pre : Str) : OSPrim → Simple
  | .noneSet vars => .arith (emptyText vars)
  | .when_ p => primSimple pre p

/-- The tokens of a piece. -/
def pieceOf {α : Type} (f : α → Simple) : ShellGrammar.Tok α → List Tok
  | .cmd k => simpleToks (f k)
  | .and => [.and]
  | .or => [.or]
  | .bang => [.word (S "!")]
  | .lpar => [.word (S "{")]
  | .rpar => [.semi, .word (S "}")]

/-- The tokens of a condition, followed by `&&`, give the condition. -/
theorem scan_pieces {α : Type} (f : α → Simple) (hf : ∀ a, startsPlain (f a)) (r : List Tok) (ts : List (ShellGrammar.Tok α)) :
    (alternates true ts = true → scan .start (ts.flatMap (pieceOf f) ++ .and :: r) =
      (scan .start r).map (fun x => (ts.map (mapTok f) ++ .and :: x.1, x.2))) ∧
    (alternates false ts = true → (scan .closed (ts.flatMap (pieceOf f) ++ .and :: r) =
      (scan .start r).map (fun x => (ts.map (mapTok f) ++ .and :: x.1, x.2))) ∧
      ∀ ws, scan (.command ws) (ts.flatMap (pieceOf f) ++ .and :: r) =
        (scan .start r).map (fun x => (.cmd (.call ws) :: (ts.map (mapTok f) ++ .and :: x.1), x.2))) := by
  induction ts with
  | nil =>
    refine ⟨by simp [alternates], fun _ => ⟨?_, fun ws => ?_⟩⟩
    · simp only [List.flatMap_nil, List.nil_append, scan, List.map_nil]
    · simp only [List.flatMap_nil, List.nil_append, scan, List.map_nil]
  | cons t ts ih =>
    obtain ⟨ih1, ih2⟩ := ih
    constructor
    · intro ha
      rw [List.flatMap_cons, List.append_assoc, List.map_cons]
      cases t with
      | cmd k =>
        simp only [alternates] at ha
        obtain ⟨i1, i2⟩ := ih2 ha
        have hs := hf k
        simp only [pieceOf, mapTok]
        cases hk : f k with
        | call ws =>
          rw [hk] at hs
          obtain ⟨w, q, rfl, p1, p2, p3⟩ := hs
          simp only [simpleToks, List.map_cons, List.cons_append, scan]
          rw [if_neg (show ¬ w = "!".toList from p1), if_neg (show ¬ w = "{".toList from p2), if_neg (show ¬ w = "}".toList from p3), scan_words, i2]
          rfl
        | arith t =>
          simp only [simpleToks, List.cons_append, List.nil_append, scan]
          rw [i1]
          cases scan .start r <;> rfl
        | append n els => rw [hk] at hs; exact hs.elim
      | bang =>
        simp only [alternates] at ha
        simp only [pieceOf, List.cons_append, List.nil_append, scan, mapTok]
        rw [if_pos (show S "!" = "!".toList from rfl), ih1 ha]
        cases scan .start r <;> rfl
      | lpar =>
        simp only [alternates] at ha
        simp only [pieceOf, List.cons_append, List.nil_append, scan, mapTok]
        rw [if_neg (show ¬ S "{" = "!".toList by decide), if_pos (show S "{" = "{".toList from rfl), ih1 ha]
        cases scan .start r <;> rfl
      | _ => simp [alternates] at ha
    · intro ha
      rw [List.flatMap_cons, List.append_assoc, List.map_cons]
      cases t with
      | and =>
        simp only [alternates] at ha
        simp only [pieceOf, List.cons_append, List.nil_append, scan, mapTok]
        rw [ih1 ha]
        cases scan .start r <;> simp
      | or =>
        simp only [alternates] at ha
        simp only [pieceOf, List.cons_append, List.nil_append, scan, mapTok]
        rw [ih1 ha]
        cases scan .start r <;> simp
      | rpar =>
        simp only [alternates] at ha
        simp only [pieceOf, List.cons_append, List.nil_append, scan, mapTok]
        rw [if_pos (show S "}" = "}".toList from rfl), (ih2 ha).1]
        cases scan .start r <;> simp
      | _ => simp [alternates] at ha

theorem osSimple_plain (pre : Str) (p : OSPrim) : startsPlain (osSimple pre p) := by
  cases p with
  | noneSet vars => trivial
  | when_ p =>
    cases p with
    | anySet vars => trivial
    | posCount op n => trivial
    | _ => exact ⟨_, _, rfl, realName_plain _ _⟩

/-! ## Texts -/

theorem name_chars {v : Str} (h : isName v = true) : ∀ c ∈ v, c ∉ ['"', '\'', '\\', '`', '$', '{', '}', ')', '\n', ' ', '!', '&', '+', '[', ']', '#'] := by
  intro c hc
  have := List.all_eq_true.mp (BashText.isName_all h) c hc
  intro hm
  simp only [List.mem_cons, List.not_mem_nil, or_false] at hm
  rcases hm with rfl | rfl | rfl | rfl | rfl | rfl | rfl | rfl | rfl | rfl | rfl | rfl | rfl | rfl | rfl | rfl <;> revert this <;> decide

theorem brace_append {a b : Str} (h1 : ∀ c ∈ a, c ∉ ['"', '\'', '\\', '`', '$', '{', '}']) (h2 : ∀ c ∈ b, c ∉ ['"', '\'', '\\', '`', '$', '{', '}']) :
    ∀ c ∈ a ++ b, c ∉ ['"', '\'', '\\', '`', '$', '{', '}'] := by
  intro c hc
  rcases List.mem_append.mp hc with h | h
  · exact h1 c h
  · exact h2 c h

theorem name_brace {v : Str} (h : isName v = true) : ∀ c ∈ v, c ∉ ['"', '\'', '\\', '`', '$', '{', '}'] := by
  intro c hc hm
  have := name_chars h c hc
  simp only [List.mem_cons, not_or, List.not_mem_nil, or_false] at this hm
  rcases hm with rfl | rfl | rfl | rfl | rfl | rfl | rfl <;> simp_all

theorem isWord_ref {r : VarRef} (h : isName r.var = true) : IsWord (refWord r) := by
  unfold refWord
  apply isWord_brace
  apply brace_append (name_brace h)
  split <;> decide +kernel

theorem valueRefs_eq (vars : List Str) (any : Bool) : valueRefs vars any = (vars.map (fun x => (⟨x, any⟩ : VarRef))).map refWord := by
  unfold valueRefs
  rw [List.map_map]
  apply List.map_congr_left
  intro v _
  cases any <;> simp [refWord, S]

theorem reads_words (ws : List Str) (hne : ws ≠ []) (h : ∀ w ∈ ws, IsWord w) : ZshLex.Reads (joinWith [' '] ws) (ws.map .word) := by
  have := reads_join (ws.map (fun w => (w, [Tok.word w]))) (by simpa using hne) (by
    intro e he
    obtain ⟨w, hw, rfl⟩ := List.mem_map.mp he
    exact reads_word (h w hw))
  simp only [List.map_map, Function.comp_def, List.map_id', List.flatMap_map] at this
  have e : ∀ l : List Str, (l.flatMap fun a => [Tok.word a]) = l.map .word := by
    intro l
    induction l with
    | nil => rfl
    | cons a l ih => rw [List.flatMap_cons, ih]; rfl
  rwa [e] at this

theorem refs_ne {vars : List Str} (h : vars ≠ []) (any : Bool) : valueRefs vars any ≠ [] := by
  unfold valueRefs; simpa using h

theorem refs_words {vars : List Str} (h : ∀ v ∈ vars, isName v = true) (any : Bool) : ∀ w ∈ valueRefs vars any, IsWord w := by
  rw [valueRefs_eq]
  intro w hw
  obtain ⟨r, hr, rfl⟩ := List.mem_map.mp hw
  obtain ⟨v, hv, rfl⟩ := List.mem_map.mp hr
  exact isWord_ref (h v hv)

theorem contains_nocase_id (nc : Bool) : ∀ c ∈ (if nc then S "array_contains_nocase" else S "array_contains"), idChar c = true := by
  cases nc <;> decide +kernel

theorem array_match_id : ∀ c ∈ S "array_match", idChar c = true := by decide +kernel

theorem reads_contains {pre : Str} (hp : ∀ c ∈ pre, idChar c = true) (nc any : Bool) (v : Str) (hv : '\n' ∉ v) (vars : List Str) (hne : vars ≠ [])
    (h : ∀ v ∈ vars, isName v = true) :
    ZshLex.Reads (realName pre (if nc then S "array_contains_nocase" else S "array_contains") ++ [' '] ++ quote v ++ [' '] ++ joinWith [' '] (valueRefs vars any))
      (simpleToks (primSimple pre (.arrayContains nc v (vars.map (fun x => ⟨x, any⟩))))) := by
  have h1 := reads_word (isWord_id (realName_ne pre _) (realName_id hp (contains_nocase_id nc)))
  have h2 := reads_space h1 (reads_space (reads_word (isWord_quote v hv)) (reads_words _ (refs_ne hne any) (refs_words h any)))
  rw [valueRefs_eq] at h2 ⊢
  simpa [simpleToks, primSimple] using h2

/-- The tokens of commands between `||`. -/
def orToks : List (List Tok) → List Tok
  | [] => []
  | [a] => a
  | a :: b :: r => a ++ .or :: orToks (b :: r)

/-- Joined with an operator. -/
theorem reads_ors : ∀ (es : List (Str × List Tok)), es ≠ [] → (∀ e ∈ es, ZshLex.Reads e.1 e.2) →
    ZshLex.Reads (joinWith (S " || ") (es.map (·.1))) (orToks (es.map (·.2)))
  | [], h, _ => absurd rfl h
  | [e], _, h => by simpa [joinWith, orToks] using h e (by simp)
  | e :: f :: r, _, h => by
    have h1 := h e (by simp)
    have h2 := reads_ors (f :: r) (by simp) (fun x hx => h x (by simp [hx]))
    have h3 := reads_space h1 (reads_space (reads_gap (t := S "||") (ts := [.or]) (fun o => rfl)) h2)
    simpa [joinWith, orToks, S] using h3

theorem orJoin_toks {α : Type} (f : α → Simple) : ∀ l : List α, l ≠ [] →
    (orJoin l).flatMap (pieceOf f) = orToks (l.map (fun a => simpleToks (f a)))
  | [], h => absurd rfl h
  | [a], _ => by simp [orJoin, orToks, pieceOf]
  | a :: b :: r, _ => by
    rw [orJoin, List.flatMap_cons, List.flatMap_cons, orJoin_toks f (b :: r) (by simp)]
    simp [orToks, pieceOf]

theorem reads_group {r : Str} {ts : List Tok} (hr : ZshLex.Reads r ts) : ZshLex.Reads (S "{ " ++ r ++ S "; }") (.word (S "{") :: ts ++ [.semi, .word (S "}")]) := by
  have e : (.word (S "{") :: ts ++ [Tok.semi, .word (S "}")]) = (.word (S "{") :: ts ++ [.semi]) ++ [.word (S "}")] := by simp
  rw [e]
  apply reads_of_run
  intro o
  have e2 : S "{ " ++ r ++ S "; }" = S "{ " ++ ((r ++ [';']) ++ S " }") := by simp [S]
  rw [e2, ZshLex.run_append]
  have h1 : run ⟨.gap, [], o⟩ (S "{ ") = some ⟨.gap, [], o ++ [.word (S "{")]⟩ := rfl
  rw [h1, Option.bind_some, ZshLex.run_append, hr _ ';' (by simp)]
  simp [gapStep, S, run, step]

theorem not_mem_join {x : Char} {sep : Str} (hs : x ∉ sep) : ∀ {l : List Str}, (∀ t ∈ l, x ∉ t) → x ∉ joinWith sep l
  | [], _ => by simp [joinWith]
  | [a], h => by simpa [joinWith] using h a (by simp)
  | a :: b :: r, h => by
    have := not_mem_join hs (l := b :: r) (fun t ht => h t (by simp [ht]))
    simp only [joinWith, List.mem_append, not_or]
    exact ⟨⟨h a (by simp), hs⟩, this⟩

theorem sum_close {vars : List Str} (h : ∀ v ∈ vars, isName v = true) {x : Char} (hx : x ∈ [')', '\n']) : x ∉ sumText vars ∧ x ∉ emptyText vars := by
  have hv : ∀ v ∈ vars, x ∉ v := by
    intro v hv hm
    have := name_chars (h v hv) x hm
    simp only [List.mem_cons, List.not_mem_nil, or_false] at hx
    rcases hx with rfl | rfl <;> simp at this
  have hx2 : x ≠ ' ' ∧ x ∉ S " + " ∧ x ∉ S " && " ∧ x ∉ S "${#" ∧ x ∉ S "[@]}" ∧ x ∉ S "! ${#" := by
    simp only [List.mem_cons, List.not_mem_nil, or_false] at hx
    rcases hx with rfl | rfl <;> decide +kernel
  obtain ⟨a1, a2, a3, a4, a5, a6⟩ := hx2
  constructor
  · unfold sumText
    simp only [List.cons_append, List.mem_cons, List.mem_append, List.not_mem_nil, or_false, not_or]
    refine ⟨a1, not_mem_join a2 ?_, a1⟩
    intro t ht
    obtain ⟨v, hv2, rfl⟩ := List.mem_map.mp ht
    simp only [List.mem_append, not_or]
    exact ⟨⟨a4, hv v hv2⟩, a5⟩
  · unfold emptyText
    simp only [List.cons_append, List.mem_cons, List.mem_append, List.not_mem_nil, or_false, not_or]
    refine ⟨a1, not_mem_join a3 ?_, a1⟩
    intro t ht
    obtain ⟨v, hv2, rfl⟩ := List.mem_map.mp ht
    unfold noneText
    simp only [List.mem_append, not_or]
    exact ⟨⟨a6, hv v hv2⟩, a5⟩

/-- The texts of a condition have no line breaks, and there are options and values. -/
def condLine : Cond → Prop
  | .optionIs opts vals _ _ => opts ≠ [] ∧ vals ≠ [] ∧ ∀ s ∈ vals, '\n' ∉ s
  | .optionMatch opts rx _ _ => opts ≠ [] ∧ '\n' ∉ rx
  | .hasOption opts => opts ≠ []
  | .positionalCount _ _ => True
  | .positionalContains _ _ vals => vals ≠ [] ∧ ∀ s ∈ vals, '\n' ∉ s

/-- Options are replaced by names of variables. -/
def GoodNames (resolve : List Str → Except Err (List Str)) : Prop :=
  ∀ ss vars, resolve ss = .ok vars → ss ≠ [] → vars ≠ [] ∧ ∀ v ∈ vars, isName v = true

theorem id_break {s : Str} (h : ∀ c ∈ s, idChar c = true) : '\n' ∉ s := fun hm => by
  have := h _ hm; revert this; decide

theorem refs_break {vars : List Str} (h : ∀ v ∈ vars, isName v = true) (any : Bool) : '\n' ∉ joinWith [' '] (valueRefs vars any) := by
  apply not_mem_join (by decide)
  intro t ht
  unfold valueRefs at ht
  obtain ⟨v, hv, rfl⟩ := List.mem_map.mp ht
  have := fun hm => name_chars (h v hv) '\n' hm
  split <;> simp only [List.mem_append, not_or] <;> refine ⟨⟨by decide +kernel, fun hm => absurd (this hm) (by decide)⟩, by decide +kernel⟩

theorem intStr_break (n : Int) : '\n' ∉ intStr n := intStr_not (by decide) (by decide)

/-- Bash reads the text of a condition as its tokens. -/
theorem reads_cond {pre : Str} (hp : ∀ c ∈ pre, idChar c = true) {resolve : List Str → Except Err (List Str)} (hr : GoodNames resolve) (k : Cond)
    (hk : condLine k) {code : List (ShellGrammar.Tok BashPrim)} {t : Str} (h1 : bashCond resolve k = .ok code) (h2 : k.bashText pre resolve = .ok t) :
    ZshLex.Reads t (code.flatMap (pieceOf (primSimple pre))) ∧ '\n' ∉ t := by
  cases k with
  | optionIs opts vals nc any =>
    simp only [bashCond, Cond.bashText, bind, Except.bind] at h1 h2
    cases hv : resolve opts with
    | error e => rw [hv] at h1; cases h1
    | ok vars =>
      rw [hv] at h1 h2
      simp only at h1 h2
      obtain ⟨g1, g2⟩ := hr opts vars hv hk.1
      have hrd : ∀ v ∈ vals, ZshLex.Reads (realName pre (if nc then S "array_contains_nocase" else S "array_contains") ++ [' '] ++ quote v ++ [' '] ++ joinWith [' '] (valueRefs vars any))
          (simpleToks (primSimple pre (.arrayContains nc v (vars.map (fun x => ⟨x, any⟩))))) :=
        fun v hv => reads_contains hp nc any v (hk.2.2 v hv) vars g1 g2
      have hbr : ∀ v ∈ vals, '\n' ∉ (realName pre (if nc then S "array_contains_nocase" else S "array_contains") ++ [' '] ++ quote v ++ [' '] ++ joinWith [' '] (valueRefs vars any)) := by
        intro v hv
        simp only [List.mem_append, not_or]
        exact ⟨⟨⟨⟨id_break (realName_id hp (contains_nocase_id nc)), by decide⟩, quote_break v (hk.2.2 v hv)⟩, by decide⟩, refs_break g2 any⟩
      match vals, h1, h2, hk.2.1 with
      | [v], h1, h2, _ =>
        simp only [List.map_cons, List.map_nil, Except.ok.injEq] at h1 h2
        subst h1; subst h2
        exact ⟨by simpa [pieceOf] using hrd v (by simp), hbr v (by simp)⟩
      | v :: w :: r, h1, h2, _ =>
        simp only [List.map_cons, Except.ok.injEq] at h1 h2
        subst h1; subst h2
        have ho := reads_ors ((v :: w :: r).map (fun v => (realName pre (if nc then S "array_contains_nocase" else S "array_contains") ++ [' '] ++ quote v ++ [' '] ++ joinWith [' '] (valueRefs vars any),
          simpleToks (primSimple pre (.arrayContains nc v (vars.map (fun x => ⟨x, any⟩))))))) (by simp) (by
            intro e he
            obtain ⟨x, hx, rfl⟩ := List.mem_map.mp he
            exact hrd x hx)
        rw [List.map_map, List.map_map] at ho
        constructor
        · have hg := reads_group ho
          have e : (orJoin (BashPrim.arrayContains nc v (vars.map (fun x => ⟨x, any⟩)) :: BashPrim.arrayContains nc w (vars.map (fun x => ⟨x, any⟩)) ::
              r.map (fun v => BashPrim.arrayContains nc v (vars.map (fun x => ⟨x, any⟩))))).flatMap (pieceOf (primSimple pre)) =
              orToks ((v :: w :: r).map (fun v => simpleToks (primSimple pre (.arrayContains nc v (vars.map (fun x => ⟨x, any⟩)))))) := by
            rw [orJoin_toks _ _ (by simp)]
            simp [Function.comp_def]
          rw [List.flatMap_cons, List.flatMap_append, e]
          simpa [pieceOf, Function.comp_def] using hg
        · simp only [List.mem_append, not_or]
          refine ⟨⟨by decide +kernel, not_mem_join (by decide +kernel) ?_⟩, by decide +kernel⟩
          intro t ht
          have ht' : t ∈ (v :: w :: r).map (fun v => realName pre (if nc then S "array_contains_nocase" else S "array_contains") ++ [' '] ++ quote v ++ [' '] ++ joinWith [' '] (valueRefs vars any)) := ht
          obtain ⟨x, hx, rfl⟩ := List.mem_map.mp ht'
          exact hbr x hx
  | optionMatch opts rx nc any =>
    simp only [bashCond, Cond.bashText, bind, Except.bind] at h1 h2
    cases hv : resolve opts with
    | error e => rw [hv] at h1; cases h1
    | ok vars =>
      rw [hv] at h1 h2
      simp only [Except.ok.injEq] at h1 h2
      subst h1; subst h2
      obtain ⟨g1, g2⟩ := hr opts vars hv hk.1
      constructor
      · have hn := reads_word (isWord_id (realName_ne pre _) (realName_id hp array_match_id))
        have hd : ZshLex.Reads (S "--") [.word (S "--")] := reads_word (isWord_of rfl)
        have hi : ZshLex.Reads (S "-i") [.word (S "-i")] := reads_word (isWord_of rfl)
        have hq := reads_space hd (reads_space (reads_word (isWord_quote rx hk.2)) (reads_words _ (refs_ne g1 any) (refs_words g2 any)))
        rw [valueRefs_eq] at hq ⊢
        cases nc with
        | true =>
          have := reads_space hn (reads_space hi hq)
          simpa [pieceOf, simpleToks, primSimple, S] using this
        | false =>
          have := reads_space hn hq
          simpa [pieceOf, simpleToks, primSimple, S] using this
      · simp only [List.mem_append, not_or]
        exact ⟨⟨⟨⟨id_break (realName_id hp array_match_id), by cases nc <;> decide +kernel⟩, quote_break rx hk.2⟩, by decide⟩, refs_break g2 any⟩
  | hasOption opts =>
    simp only [bashCond, Cond.bashText, bind, Except.bind] at h1 h2
    cases hv : resolve opts with
    | error e => rw [hv] at h1; cases h1
    | ok vars =>
      rw [hv] at h1 h2
      simp only [Except.ok.injEq] at h1 h2
      subst h1; subst h2
      obtain ⟨g1, g2⟩ := hr opts vars hv hk
      have e : S "(( " ++ joinWith (S " + ") (vars.map (fun v => S "${#" ++ v ++ S "[@]}")) ++ S " ))" = S "((" ++ sumText vars ++ S "))" := by
        simp [sumText, S]
      rw [e]
      constructor
      · have := reads_arith (sumText vars) (sum_close g2 (by simp)).1
        simpa [pieceOf, simpleToks, primSimple] using this
      · simp only [List.mem_append, not_or]
        exact ⟨⟨by decide +kernel, (sum_close g2 (by simp)).1⟩, by decide +kernel⟩
  | positionalCount op n =>
    simp only [bashCond, Cond.bashText, Except.ok.injEq] at h1 h2
    subst h1; subst h2
    have e : S "(( ${#POSITIONALS[@]} " ++ op.text ++ [' '] ++ intStr n ++ S " ))" =
        S "((" ++ (S " ${#POSITIONALS[@]} " ++ op.text ++ [' '] ++ intStr n ++ [' ']) ++ S "))" := by
      simp [S]
    rw [e]
    constructor
    · have := reads_arith (S " ${#POSITIONALS[@]} " ++ op.text ++ [' '] ++ intStr n ++ [' ']) (by
        simp only [List.mem_append, not_or]
        refine ⟨⟨⟨⟨by decide +kernel, by cases op <;> decide⟩, by decide⟩, intStr_not (by decide) (by decide)⟩, by decide⟩)
      simpa [pieceOf, simpleToks, primSimple] using this
    · simp only [List.mem_append, not_or]
      refine ⟨⟨by decide +kernel, ⟨⟨⟨by decide +kernel, by cases op <;> decide⟩, by decide⟩, intStr_break n⟩, by decide⟩, by decide +kernel⟩
  | positionalContains nc n vals =>
    have hc := realName_id hp contains_id
    have hb : ∀ s : Str, (∀ c ∈ s, c ∉ ['"', '\'', '\\', '`', '$', '{', '}']) →
        ∀ c ∈ S "POSITIONALS[" ++ intStr (n - 1) ++ s, c ∉ ['"', '\'', '\\', '`', '$', '{', '}'] := by
      intro s hs
      refine brace_append (brace_append positionals_brace.1 ?_) hs
      intro c hc2
      exact index_brace _ positionals_brace.1 (n - 1) c (by simp [hc2])
    cases nc with
    | true =>
      simp only [bashCond, Cond.bashText, Except.ok.injEq, if_true] at h1 h2
      subst h1; subst h2
      have e : realName pre (S "array_contains") ++ S " \"${POSITIONALS[" ++ intStr (n - 1) ++ S "],,}\" " ++ lower (joinQuoted vals) =
          realName pre (S "array_contains") ++ ' ' :: ((S "\"${" ++ (S "POSITIONALS[" ++ intStr (n - 1) ++ S "],,") ++ S "}\"") ++
            ' ' :: joinQuoted (vals.map lower)) := by
        rw [← lower_joinQuoted]; simp [S]
      have hl : ∀ w ∈ vals.map lower, '\n' ∉ w := by
        intro w hw
        obtain ⟨x, hx, rfl⟩ := List.mem_map.mp hw
        exact lower_break x (hk.2 x hx)
      constructor
      · rw [e]
        have := reads_space (reads_word (isWord_id (realName_ne pre _) hc)) (reads_quoted _ (isWord_brace _ (hb (S "],,") (by decide +kernel)))
          (vals.map lower) (by simpa using hk.1) hl)
        simpa [primSimple, simpleToks, pieceOf] using this
      · simp only [List.mem_append, not_or]
        refine ⟨⟨⟨⟨id_break hc, by decide +kernel⟩, intStr_break _⟩, by decide +kernel⟩, ?_⟩
        rw [lower_joinQuoted]
        refine not_mem_join (by decide) ?_
        intro t ht
        obtain ⟨x, hx, rfl⟩ := List.mem_map.mp ht
        exact quote_break x (hl x hx)
    | false =>
      simp only [bashCond, Cond.bashText, Except.ok.injEq, Bool.false_eq_true, if_false] at h1 h2
      subst h1; subst h2
      have e : realName pre (S "array_contains") ++ S " \"${POSITIONALS[" ++ intStr (n - 1) ++ S "]}\" " ++ joinQuoted vals =
          realName pre (S "array_contains") ++ ' ' :: ((S "\"${" ++ (S "POSITIONALS[" ++ intStr (n - 1) ++ S "]") ++ S "}\"") ++
            ' ' :: joinQuoted vals) := by
        simp [S]
      constructor
      · rw [e]
        have := reads_space (reads_word (isWord_id (realName_ne pre _) hc)) (reads_quoted _ (isWord_brace _ (hb (S "]") (by decide +kernel)))
          vals hk.1 hk.2)
        simpa [primSimple, simpleToks, pieceOf] using this
      · simp only [List.mem_append, not_or]
        refine ⟨⟨⟨⟨id_break hc, by decide +kernel⟩, intStr_break _⟩, by decide +kernel⟩, ?_⟩
        refine not_mem_join (by decide) ?_
        intro t ht
        obtain ⟨x, hx, rfl⟩ := List.mem_map.mp ht
        exact quote_break x (hk.2 x hx)

/-! ## Conditions -/

theorem bashWhen_pieces {pre : Str} (hp : ∀ c ∈ pre, idChar c = true) {resolve : List Str → Except Err (List Str)} (hr : GoodNames resolve)
    (ts : List (ShellGrammar.Tok Cond)) : (∀ k, .cmd k ∈ ts → condLine k) → ∀ (r : List Str) (code : List (ShellGrammar.Tok BashPrim)),
    mapE (bashWhenPiece pre resolve) ts = .ok r → genTokens (bashCond resolve) ts = .ok code →
    ∃ es : List (Str × List Tok), r = es.map (·.1) ∧ code.flatMap (pieceOf (primSimple pre)) = es.flatMap (·.2) ∧ es.length = ts.length ∧
      ∀ e ∈ es, ZshLex.Reads e.1 e.2 ∧ '\n' ∉ e.1 := by
  induction ts with
  | nil =>
    intro _ r code h1 h2
    simp only [mapE, genTokens, Except.ok.injEq] at h1 h2
    subst h1; subst h2
    exact ⟨[], rfl, rfl, rfl, by simp⟩
  | cons t ts ih =>
    intro hk r code h1 h2
    rw [mapE] at h1
    obtain ⟨x, hx, h1⟩ := bind_ok h1
    obtain ⟨xs, hxs, h1⟩ := bind_ok h1
    cases h1
    have ih := ih (fun k hm => hk k (by simp [hm])) xs
    have key : ∀ (p : List (ShellGrammar.Tok BashPrim)) (q : List (ShellGrammar.Tok BashPrim)), genTokens (bashCond resolve) ts = .ok q → code = p ++ q →
        ZshLex.Reads x (p.flatMap (pieceOf (primSimple pre))) ∧ '\n' ∉ x →
        ∃ es : List (Str × List Tok), x :: xs = es.map (·.1) ∧ code.flatMap (pieceOf (primSimple pre)) = es.flatMap (·.2) ∧
          es.length = (t :: ts).length ∧ ∀ e ∈ es, ZshLex.Reads e.1 e.2 ∧ '\n' ∉ e.1 := by
      intro p q hq e hread
      obtain ⟨es, i1, i2, i3, i4⟩ := ih q hxs hq
      refine ⟨(x, p.flatMap (pieceOf (primSimple pre))) :: es, by simp [i1], by rw [e, List.flatMap_append, i2]; rfl, by simp [i3], ?_⟩
      intro y hy
      rcases List.mem_cons.mp hy with rfl | hy
      · exact hread
      · exact i4 y hy
    cases t with
    | cmd k =>
      rw [genTokens] at h2
      obtain ⟨a, ha, h2⟩ := bind_ok h2
      obtain ⟨q, hq, h2⟩ := bind_ok h2
      cases h2
      exact key a q hq rfl (reads_cond hp hr k (hk k (by simp)) ha hx)
    | bang =>
      rw [genTokens] at h2
      obtain ⟨q, hq, h2⟩ := bind_ok h2
      cases h2
      simp only [bashWhenPiece, Except.ok.injEq] at hx
      subst hx
      exact key [.bang] q hq rfl ⟨reads_word (isWord_of rfl), by decide +kernel⟩
    | lpar =>
      rw [genTokens] at h2
      obtain ⟨q, hq, h2⟩ := bind_ok h2
      cases h2
      simp only [bashWhenPiece, Except.ok.injEq] at hx
      subst hx
      exact key [.lpar] q hq rfl ⟨reads_word (isWord_of rfl), by decide +kernel⟩
    | rpar =>
      rw [genTokens] at h2
      obtain ⟨q, hq, h2⟩ := bind_ok h2
      cases h2
      simp only [bashWhenPiece, Except.ok.injEq] at hx
      subst hx
      exact key [.rpar] q hq rfl ⟨reads_of_run (fun o => rfl) (ts := [.semi]), by decide +kernel⟩
    | and =>
      rw [genTokens] at h2
      obtain ⟨q, hq, h2⟩ := bind_ok h2
      cases h2
      simp only [bashWhenPiece, Except.ok.injEq] at hx
      subst hx
      exact key [.and] q hq rfl ⟨reads_gap (fun o => rfl), by decide +kernel⟩
    | or =>
      rw [genTokens] at h2
      obtain ⟨q, hq, h2⟩ := bind_ok h2
      cases h2
      simp only [bashWhenPiece, Except.ok.injEq] at hx
      subst hx
      exact key [.or] q hq rfl ⟨reads_gap (fun o => rfl), by decide +kernel⟩

/-- Bash reads the text of a condition with its braces as its tokens. -/
theorem bashWhen_reads {pre : Str} (hp : ∀ c ∈ pre, idChar c = true) {resolve : List Str → Except Err (List Str)} (hr : GoodNames resolve)
    {ts : List (ShellGrammar.Tok Cond)} (hne : ts ≠ []) (hk : ∀ k, .cmd k ∈ ts → condLine k) {t : Str} {code : List (ShellGrammar.Tok BashPrim)}
    (h1 : bashWhenText pre resolve ts = .ok t) (h2 : bashGenerate resolve ts = .ok code) :
    ZshLex.Reads t (code.flatMap (pieceOf (primSimple pre))) ∧ '\n' ∉ t := by
  unfold bashWhenText at h1
  unfold bashGenerate genWithBraces at h2
  obtain ⟨r, hr1, h1⟩ := bind_ok h1
  obtain ⟨q, hq, h2⟩ := bind_ok h2
  obtain ⟨es, e1, e2, e3, e4⟩ := bashWhen_pieces hp hr ts hk r q hr1 hq
  have hes : es ≠ [] := by
    rintro rfl
    exact hne (List.length_eq_zero_iff.mp e3.symm)
  have hrd := reads_join es hes (fun e he => (e4 e he).1)
  rw [← e1, ← e2] at hrd
  have hbr : '\n' ∉ joinWith [' '] r := by
    apply not_mem_join (by decide)
    intro t ht
    rw [e1] at ht
    obtain ⟨e, he, rfl⟩ := List.mem_map.mp ht
    exact (e4 e he).2
  split at h1
  · rename_i hb
    rw [if_pos hb] at h2
    cases h1; cases h2
    refine ⟨?_, ?_⟩
    · have := reads_group hrd
      simpa [pieceOf] using this
    · simp only [List.mem_append, not_or]
      exact ⟨⟨by decide +kernel, hbr⟩, by decide +kernel⟩
  · rename_i hb
    rw [if_neg hb] at h2
    cases h1; cases h2
    exact ⟨hrd, hbr⟩

end OffersLex
end CC
