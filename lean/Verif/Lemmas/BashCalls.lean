import Verif.Spec.BashCalls
import Verif.Model.BashScript
import Verif.Spec.BashParsed
import Verif.Lemmas.BashPlainText
import Verif.Lemmas.BashWrapping
import Verif.Lemmas.Decimal
import Verif.Props.FishUtils
/-!
# Reading and running the text by which Bash functions call each other
-/

namespace BashCalls

open CC BashText

theorem fields_word (a : Str) (h : ' ' ∉ a) (t : Str) : ∀ w : Str, w ++ a ≠ [] → fields w (a ++ ' ' :: t) = (w ++ a) :: fields [] t := by
  induction a with
  | nil =>
    intro w hw
    rw [List.append_nil] at hw
    show (if ' ' = ' ' then _ else _) = _
    rw [if_pos rfl, if_neg (by simpa using hw), List.append_nil]
  | cons c a ih =>
    intro w _
    simp only [List.mem_cons, not_or] at h
    show (if c = ' ' then _ else _) = _
    rw [if_neg (fun hc => h.1 hc.symm)]
    show fields (w ++ [c]) (a ++ ' ' :: t) = _
    rw [ih h.2 (w ++ [c]) (by simp)]
    simp

theorem fields_first {a : Str} (h : ' ' ∉ a) (hne : a ≠ []) (t : Str) : fields [] (a ++ ' ' :: t) = a :: fields [] t :=
  fields_word a h t [] (by simpa using hne)

theorem name_no_blank {f : Str} (h : isName f = true) : ' ' ∉ f := by
  intro hm
  have := List.all_eq_true.mp (isName_all h) _ hm
  exact absurd this (by decide)

theorem number_no_blank (n : Nat) : ' ' ∉ natStr n := by
  intro hm
  have := natStr_isDigit hm
  revert this; decide

theorem number_no_break (n : Nat) : '\n' ∉ natStr n := by
  intro hm
  have := natStr_isDigit hm
  revert this; decide

theorem number_ne (n : Nat) : natStr n ≠ [] := by
  intro h
  have := digits_natStr n
  rw [h] at this
  revert this; simp [Decimal.digits]

theorem between_both (p q t : Str) : between p q (p ++ (t ++ q)) = some t := by
  unfold between without
  rw [if_pos (by rw [List.isPrefixOf_iff_prefix]; exact List.prefix_append _ _)]
  simp only [List.drop_left, Option.bind_some]
  rw [if_pos (by rw [List.isSuffixOf_iff_suffix]; exact List.suffix_append t q)]
  simp

/-- The first line. -/
theorem read_if (n : Nat) : readIf (S "if (( " ++ natStr n ++ S " < ${#POSITIONALS[@]} )); then") = some (n, S "POSITIONALS") := by
  have h1 : between "if (( ".toList " )); then".toList (S "if (( " ++ natStr n ++ S " < ${#POSITIONALS[@]} )); then") =
      some (natStr n ++ S " < ${#POSITIONALS[@]}") := by
    have : S "if (( " ++ natStr n ++ S " < ${#POSITIONALS[@]} )); then" =
        "if (( ".toList ++ ((natStr n ++ S " < ${#POSITIONALS[@]}") ++ " )); then".toList) := by simp [S]
    rw [this, between_both]
  have h2 : fields [] (natStr n ++ S " < ${#POSITIONALS[@]}") = [natStr n, S "<", S "${#POSITIONALS[@]}"] := by
    have : natStr n ++ S " < ${#POSITIONALS[@]}" = natStr n ++ ' ' :: S "< ${#POSITIONALS[@]}" := rfl
    rw [this, fields_first (number_no_blank n) (number_ne n)]
    have : fields [] (S "< ${#POSITIONALS[@]}") = [S "<", S "${#POSITIONALS[@]}"] := by decide +kernel
    rw [this]
  unfold readIf
  rw [h1, Option.map_some, h2]
  show (if S "<" = "<".toList then _ else _) = _
  rw [if_pos (show S "<" = "<".toList from rfl), digits_natStr, Option.bind_some]
  have : (between "${#".toList "[@]}".toList (S "${#POSITIONALS[@]}")).filter isName = some (S "POSITIONALS") := by decide +kernel
  rw [this]; rfl

/-- The second line. -/
theorem read_case (n : Nat) : readCase (S "case \"${POSITIONALS[" ++ natStr n ++ S "]}\" in") = some (n, S "POSITIONALS") := by
  have h1 : between "case \"${".toList "]}\" in".toList (S "case \"${POSITIONALS[" ++ natStr n ++ S "]}\" in") =
      some (S "POSITIONALS[" ++ natStr n) := by
    have : S "case \"${POSITIONALS[" ++ natStr n ++ S "]}\" in" =
        "case \"${".toList ++ ((S "POSITIONALS[" ++ natStr n) ++ "]}\" in".toList) := by simp [S]
    rw [this, between_both]
  have h2 : spanName (S "POSITIONALS[" ++ natStr n) = some (S "POSITIONALS", '[' :: natStr n) := by rfl
  have h3 : without "[".toList ('[' :: natStr n) = some (natStr n) := by rfl
  unfold readCase
  rw [h1, Option.bind_some, h2, Option.bind_some]
  simp only
  rw [h3, Option.bind_some, digits_natStr]; rfl

/-! ## Clauses -/

theorem span_chars (b : Str) : ∀ (a u : Str), (gread caseCtx {} (a ++ b)).isSome → spanPattern a (b ++ u) = spanPattern (a ++ b) u := by
  induction b with
  | nil => intro a u _; simp
  | cons c b ih =>
    intro a u h
    have hac : (gread caseCtx {} (a ++ [c])).isSome := by
      apply gread_prefix (b := b); simpa using h
    obtain ⟨st, hst⟩ := Option.isSome_iff_exists.mp hac
    show (match gread caseCtx {} (a ++ [c]) with | some _ => _ | none => _) = _
    rw [hst]
    show spanPattern (a ++ [c]) (b ++ u) = _
    rw [ih (a ++ [c]) u (by simpa using h)]
    simp

theorem span_pattern {t : Str} (h : Pat t) (u : Str) : spanPattern [] (t ++ ')' :: u) = some (t, u) := by
  rw [span_chars t [] _ (by simpa using (gread_close h.readable).2), List.nil_append]
  show (match gread caseCtx {} (t ++ [')']) with | some _ => _ | none => _) = _
  rw [(gread_close h.readable).1]
  show (if _ then _ else _) = _
  rw [if_pos ⟨rfl, h.readable, h.notEsac⟩]

theorem read_clause {t : Str} (h : Pat t) {u : Str} {a : AndOr} (ha : readAndOr (fields [] u) = some a) :
    readClause (t ++ ')' :: (u ++ S ";;")) = some (t, a) := by
  unfold readClause
  rw [span_pattern h, Option.bind_some]
  show (between [] ";;".toList (u ++ ";;".toList)).bind _ = _
  rw [BashWrap.between_suffix, Option.bind_some, ha]; rfl

theorem read_call {f : Str} (hf : FunctionName f) : readSimple [f] = some (.call f) := by
  show (if _ then _ else _) = _
  rw [if_pos ⟨hf.1, hf.2⟩]

theorem not_operator {f : Str} (hf : FunctionName f) : f ≠ "&&".toList ∧ f ≠ "||".toList := by
  have := hf.2
  constructor <;> (rintro rfl; revert this; decide)

/-- `f && return 0` -/
theorem read_pass {f : Str} (hf : FunctionName f) : readAndOr (fields [] (S " " ++ f ++ S " && return 0")) = some [(true, .call f), (true, .ret true)] := by
  have hne : f ≠ [] := by rintro rfl; exact absurd hf.1 (by decide)
  have h1 : fields [] (S " " ++ f ++ S " && return 0") = f :: fields [] (S "&& return 0") := by
    show fields [] (f ++ ' ' :: S "&& return 0") = _
    rw [fields_first (name_no_blank hf.1) hne]
  have h2 : fields [] (S "&& return 0") = ["&&".toList, "return".toList, "0".toList] := by decide +kernel
  have h3 : cut (f :: ["&&".toList, "return".toList, "0".toList]) = ([f], [(true, ["return".toList, "0".toList])]) := by
    show (if f = _ then _ else if f = _ then _ else _) = _
    rw [if_neg (not_operator hf).1, if_neg (not_operator hf).2]; rfl
  rw [h1, h2]
  unfold readAndOr
  rw [if_neg (by simp), h3]
  show (Option.map _ (readSimple [f])).bind _ = _
  rw [read_call hf]; rfl

/-- `f && return 0 || return 1` -/
theorem read_end {f : Str} (hf : FunctionName f) :
    readAndOr (fields [] (S " " ++ f ++ S " && return 0 || return 1")) = some [(true, .call f), (true, .ret true), (false, .ret false)] := by
  have hne : f ≠ [] := by rintro rfl; exact absurd hf.1 (by decide)
  have h1 : fields [] (S " " ++ f ++ S " && return 0 || return 1") = f :: fields [] (S "&& return 0 || return 1") := by
    show fields [] (f ++ ' ' :: S "&& return 0 || return 1") = _
    rw [fields_first (name_no_blank hf.1) hne]
  have h2 : fields [] (S "&& return 0 || return 1") = ["&&".toList, "return".toList, "0".toList, "||".toList, "return".toList, "1".toList] := by decide +kernel
  have h3 : cut (f :: ["&&".toList, "return".toList, "0".toList, "||".toList, "return".toList, "1".toList]) =
      ([f], [(true, ["return".toList, "0".toList]), (false, ["return".toList, "1".toList])]) := by
    show (if f = _ then _ else if f = _ then _ else _) = _
    rw [if_neg (not_operator hf).1, if_neg (not_operator hf).2]; rfl
  rw [h1, h2]
  unfold readAndOr
  rw [if_neg (by simp), h3]
  show (Option.map _ (readSimple [f])).bind _ = _
  rw [read_call hf]; rfl

/-! ## The whole text -/

theorem split_flat (last : Str) (hl : '\n' ∉ last) : ∀ (ls : List Str), (∀ l ∈ ls, '\n' ∉ l) →
    splitOn '\n' (ls.flatMap (fun l => l ++ S "\n") ++ last) = ls ++ [last]
  | [], _ => by
    have := BashWrap.split_joined last [] (by simpa using hl)
    exact this
  | l :: ls, h => by
    have : (l :: ls).flatMap (fun l => l ++ S "\n") ++ last = l ++ '\n' :: (ls.flatMap (fun l => l ++ S "\n") ++ last) := by simp [S]
    rw [this, BashWrap.split_line (h l (by simp)), split_flat last hl ls (fun x hx => h x (List.mem_cons_of_mem _ hx))]
    rfl

/-- What the line of a subcommand means. -/
def callAct (pre : Str) (parents : List Cmd) (c d : Cmd) : AndOr :=
  if d.worth then
    if c.data.inheritOptions = .val true then [(true, .call (bashName pre (parents ++ [c]) d)), (true, .ret true)]
    else [(true, .call (bashName pre (parents ++ [c]) d)), (true, .ret true), (false, .ret false)]
  else if c.data.inheritOptions = .val true then [] else [(true, .ret true)]

/-- The line without the blanks. -/
theorem strip_line {t : Str} (h : Pat t) (u : Str) : (S "    " ++ t ++ u).dropWhile (· == ' ') = t ++ u := by
  cases t with
  | nil => exact absurd h.readable (by simp [readGlob])
  | cons c t =>
    obtain ⟨h1, -⟩ := special_first h.readable
    have e : S "    " ++ (c :: t) ++ u = ' ' :: ' ' :: ' ' :: ' ' :: c :: (t ++ u) := by simp [S]
    rw [e, List.cons_append]
    iterate 4 rw [List.dropWhile_cons_of_pos (by decide)]
    rw [List.dropWhile_cons_of_neg (by simpa using h1)]

theorem read_line {pre : Str} {parents : List Cmd} {c d : Cmd} (hp : Pat (makePattern ((variations c d).map quote)))
    (hf : FunctionName (bashName pre (parents ++ [c]) d)) :
    readClause ((callLine pre parents c d).dropWhile (· == ' ')) = some (makePattern ((variations c d).map quote), callAct pre parents c d) ∧
      '\n' ∉ callLine pre parents c d := by
  have hn := hp.noBreak
  have hfn := BashWrap.name_no_newline hf.1
  unfold callLine callAct
  simp only
  generalize makePattern ((variations c d).map quote) = t at *
  generalize bashName pre (parents ++ [c]) d = f at *
  by_cases hw : d.worth = true
  · by_cases hi : c.data.inheritOptions = .val true
    · rw [if_pos hw, if_pos hi, if_pos hw, if_pos hi]
      refine ⟨?_, by simp [S, hn, hfn]⟩
      have := strip_line hp (')' :: ((S " " ++ f ++ S " && return 0") ++ S ";;"))
      have e : S "    " ++ t ++ S ") " ++ f ++ S " && return 0;;" = S "    " ++ t ++ (')' :: ((S " " ++ f ++ S " && return 0") ++ S ";;")) := by simp [S]
      rw [e, this, read_clause hp (read_pass hf)]
    · rw [if_pos hw, if_neg hi, if_pos hw, if_neg hi]
      refine ⟨?_, by simp [S, hn, hfn]⟩
      have := strip_line hp (')' :: ((S " " ++ f ++ S " && return 0 || return 1") ++ S ";;"))
      have e : S "    " ++ t ++ S ") " ++ f ++ S " && return 0 || return 1;;" =
        S "    " ++ t ++ (')' :: ((S " " ++ f ++ S " && return 0 || return 1") ++ S ";;")) := by simp [S]
      rw [e, this, read_clause hp (read_end hf)]
  · by_cases hi : c.data.inheritOptions = .val true
    · rw [if_neg hw, if_pos hi, if_neg hw, if_pos hi]
      refine ⟨?_, by simp [S, hn]⟩
      have := strip_line hp (')' :: (([] : Str) ++ S ";;"))
      have e : S "    " ++ t ++ S ");;" = S "    " ++ t ++ (')' :: (([] : Str) ++ S ";;")) := by simp [S]
      rw [e, this, read_clause hp (by rfl)]
    · rw [if_neg hw, if_neg hi, if_neg hw, if_neg hi]
      refine ⟨?_, by simp [S, hn]⟩
      have := strip_line hp (')' :: (S " return 0" ++ S ";;"))
      have e : S "    " ++ t ++ S ") return 0;;" = S "    " ++ t ++ (')' :: (S " return 0" ++ S ";;")) := by simp [S]
      rw [e, this, read_clause hp (u := S " return 0") (a := [(true, .ret true)]) (by decide +kernel)]

/-- What the text means. -/
def callDispatch (pre : Str) (parents : List Cmd) (c : Cmd) (n : Nat) : Dispatch :=
  { index := positionalNum parents n - 1, array := S "POSITIONALS", place := positionalNum parents n - 1, word := S "POSITIONALS"
    clauses := c.children.map (fun d => (makePattern ((variations c d).map quote), callAct pre parents c d)) }

theorem allSome_map {α β : Type} (f : α → Option β) (g : α → β) : ∀ l : List α, (∀ x ∈ l, f x = some (g x)) → allSome (l.map f) = some (l.map g)
  | [], _ => rfl
  | x :: l, h => by
    show (f x).bind _ = _
    rw [h x (by simp), Option.bind_some, allSome_map f g l (fun y hy => h y (List.mem_cons_of_mem _ hy))]; rfl

theorem read_call_text {pre : Str} {parents : List Cmd} {c : Cmd} {n : Nat} (hs : c.sub = some n)
    (hp : ∀ d ∈ c.children, Pat (makePattern ((variations c d).map quote))) (hf : ∀ d ∈ c.children, FunctionName (bashName pre (parents ++ [c]) d)) :
    (callText pre parents c).bind readDispatch = some (callDispatch pre parents c n) := by
  unfold callText
  rw [hs, Option.map_some, Option.bind_some]
  generalize hk : positionalNum parents n - 1 = k
  have hlines : S "if (( " ++ natStr k ++ S " < ${#POSITIONALS[@]} )); then\n" ++ S "  case \"${POSITIONALS[" ++ natStr k ++ S "]}\" in\n" ++
      c.children.flatMap (fun d => callLine pre parents c d ++ S "\n") ++ S "  esac\n" ++ S "fi" =
      ((S "if (( " ++ natStr k ++ S " < ${#POSITIONALS[@]} )); then") :: (S "  case \"${POSITIONALS[" ++ natStr k ++ S "]}\" in") ::
        (c.children.map (callLine pre parents c) ++ [S "  esac"])).flatMap (fun l => l ++ S "\n") ++ S "fi" := by
    simp [S, List.flatMap_map]
  have hnb := number_no_break k
  simp only
  unfold readDispatch
  rw [hlines, split_flat _ (by decide)]
  · simp only [List.cons_append, List.map_cons]
    have e1 : (S "if (( " ++ natStr k ++ S " < ${#POSITIONALS[@]} )); then").dropWhile (· == ' ') =
      S "if (( " ++ natStr k ++ S " < ${#POSITIONALS[@]} )); then" := rfl
    have e2 : (S "  case \"${POSITIONALS[" ++ natStr k ++ S "]}\" in").dropWhile (· == ' ') = S "case \"${POSITIONALS[" ++ natStr k ++ S "]}\" in" := rfl
    have e3 : (c.children.map (callLine pre parents c) ++ [S "  esac"] ++ [S "fi"]).map (fun l => l.dropWhile (· == ' ')) =
      (c.children.map (fun d => (callLine pre parents c d).dropWhile (· == ' ')) ++ [S "esac"]) ++ [S "fi"] := by
      rw [List.map_append, List.map_append, List.map_map]; rfl
    rw [e1, e2, e3, read_if, read_case]
    have f1 : ((c.children.map (fun d => (callLine pre parents c d).dropWhile (· == ' ')) ++ [S "esac"]) ++ [S "fi"]).getLast? = some "fi".toList := by
      rw [List.getLast?_append]; rfl
    have f2 : ((c.children.map (fun d => (callLine pre parents c d).dropWhile (· == ' ')) ++ [S "esac"]) ++ [S "fi"]).dropLast =
      c.children.map (fun d => (callLine pre parents c d).dropWhile (· == ' ')) ++ [S "esac"] := by rw [List.dropLast_concat]
    have f3 : (c.children.map (fun d => (callLine pre parents c d).dropWhile (· == ' ')) ++ [S "esac"]).getLast? = some "esac".toList := by
      rw [List.getLast?_append]; rfl
    rw [f2, List.dropLast_concat, if_pos ⟨f1, f3⟩]
    simp only [Option.bind_some]
    rw [List.map_map, allSome_map _ (fun d => (makePattern ((variations c d).map quote), callAct pre parents c d))]
    · unfold callDispatch
      rw [hk]; rfl
    · intro d hd
      exact (read_line (hp d hd) (hf d hd)).1
  · intro l hl
    simp only [List.mem_cons, List.mem_append, List.mem_map, List.not_mem_nil, or_false] at hl
    rcases hl with rfl | rfl | ⟨d, hd, rfl⟩ | rfl
    · simp [S, hnb]
    · simp [S, hnb]
    · exact (read_line (hp d hd) (hf d hd)).2
    · decide

end BashCalls
