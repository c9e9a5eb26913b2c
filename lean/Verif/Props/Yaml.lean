import Verif.Spec.YamlSpec
/-!
# C29: the tracing YAML parser
-/

namespace CC

theorem optAll_append {α β : Type} (f : α → Option β) (a b : List α) (x y : List β)
    (ha : optAll f a = some x) (hb : optAll f b = some y) : optAll f (a ++ b) = some (x ++ y) := by
  induction a generalizing x with
  | nil => simp only [optAll, Option.some.injEq] at ha; subst ha; simpa using hb
  | cons c cs ih =>
    simp only [optAll] at ha
    cases h1 : f c with
    | none => rw [h1] at ha; simp at ha
    | some z =>
      cases h2 : optAll f cs with
      | none => rw [h1, h2] at ha; simp at ha
      | some zs =>
        rw [h1, h2] at ha
        simp only [Option.some.injEq] at ha
        subst ha
        simp [optAll, h1, ih zs h2]

theorem optAll_mono {α β : Type} (f g : α → Option β) (a : List α) (x : List β)
    (hfg : ∀ v t, f v = some t → g v = some t) (ha : optAll f a = some x) : optAll g a = some x := by
  induction a generalizing x with
  | nil => exact ha
  | cons c cs ih =>
    simp only [optAll] at ha
    cases h1 : f c with
    | none => rw [h1] at ha; simp at ha
    | some z =>
      cases h2 : optAll f cs with
      | none => rw [h1, h2] at ha; simp at ha
      | some zs =>
        rw [h1, h2] at ha
        simp [optAll, hfg c z h1, ih zs h2, ← ha]

theorem deref_mono (n k : Nat) (h : List HNode) (v : HVal) (t : TVal) (ht : deref n h v = some t) :
    deref (n + k) h v = some t := by
  induction n generalizing v t with
  | zero =>
    cases v with
    | scalar m c => simpa [deref] using ht
    | ref m i => simp [deref] at ht
  | succ n ih =>
    cases v with
    | scalar m c => simpa [deref] using ht
    | ref m i =>
      rw [show n + 1 + k = (n + k) + 1 by omega]
      simp only [deref] at ht ⊢
      cases hn : h[i]? with
      | none => rw [hn] at ht; simp at ht
      | some nd =>
        rw [hn] at ht
        cases nd with
        | list vs =>
          simp only [Option.map_eq_some_iff] at ht ⊢
          obtain ⟨a, ha, e⟩ := ht
          exact ⟨a, optAll_mono _ _ _ _ (fun v t hv => ih v t hv) ha, e⟩
        | dict es =>
          simp only [Option.map_eq_some_iff] at ht ⊢
          obtain ⟨a, ha, e⟩ := ht
          refine ⟨a, optAll_mono _ _ _ _ ?_ ha, e⟩
          intro v t hv
          simp only [Option.map_eq_some_iff] at hv ⊢
          obtain ⟨b, hb, e⟩ := hv
          exact ⟨b, ih _ _ hb, e⟩

/-- Two heaps agree on a range. -/
def Agree (h h' : List HNode) (lo hi : Nat) : Prop := ∀ j, lo ≤ j → j < hi → h'[j]? = h[j]?

/-- The values are complete and live in the given range of the heap. -/
def DenL (h : List HNode) (lo hi : Nat) (vs : List HVal) (ts : List TVal) : Prop :=
  ∃ n, ∀ h', Agree h h' lo hi → optAll (fun v => deref n h' v) vs = some ts

/-- The same for one value. -/
def Den (h : List HNode) (lo hi : Nat) (v : HVal) (t : TVal) : Prop :=
  ∃ n, ∀ h', Agree h h' lo hi → deref n h' v = some t

/-- The same for dictionary entries. -/
def DenE (h : List HNode) (lo hi : Nat) (es : List ((Mark × Key) × HVal)) (ts : List ((Mark × Key) × TVal)) : Prop :=
  ∃ n, ∀ h', Agree h h' lo hi → optAll (fun e => (deref n h' e.2).map (fun t => (e.1, t))) es = some ts

theorem optAll_setEntry (f : HVal → Option TVal) (es : List ((Mark × Key) × HVal))
    (ts : List ((Mark × Key) × TVal)) (k : Mark × Key) (v : HVal) (t : TVal)
    (h : optAll (fun e : (Mark × Key) × HVal => (f e.2).map (fun t => (e.1, t))) es = some ts) (hv : f v = some t) :
    optAll (fun e : (Mark × Key) × HVal => (f e.2).map (fun t => (e.1, t))) (setEntry es k v) = some (setEntry ts k t) := by
  induction es generalizing ts with
  | nil =>
    simp only [optAll, Option.some.injEq] at h
    subst h
    simp [setEntry, optAll, hv]
  | cons e es ih =>
    obtain ⟨k', v'⟩ := e
    simp only [optAll] at h
    cases h1 : f v' with
    | none => rw [h1] at h; simp at h
    | some t' =>
      cases h2 : optAll (fun e : (Mark × Key) × HVal => (f e.2).map (fun t => (e.1, t))) es with
      | none => rw [h1, h2] at h; simp at h
      | some ts' =>
        rw [h1, h2] at h
        simp only [Option.map_some, Option.some.injEq] at h
        subst h
        simp only [setEntry]
        by_cases hk : k'.2 = k.2
        · rw [if_pos hk, if_pos hk]
          simp [optAll, hv, h2]
        · rw [if_neg hk, if_neg hk]
          simp [optAll, h1, ih ts' h2]

theorem runEvents_append (conv : Str → Bool → Key) (st : YState) (a b : List YEvent) :
    runEvents conv st (a ++ b) = (runEvents conv st a >>= fun s => runEvents conv s b) := by
  induction a generalizing st with
  | nil => rfl
  | cons e es ih =>
    simp only [List.cons_append, runEvents, bind, Except.bind]
    cases handleEvent conv st e with
    | error x => rfl
    | ok s => exact ih s

/-- The top container can take a value. -/
def Ready (node : HNode) (key : Option (Mark × Key)) : Prop :=
  (∃ items, node = .list items ∧ key = none) ∨ (∃ es k, node = .dict es ∧ key = some k)

/-- The container after taking a value. -/
def put (node : HNode) (key : Option (Mark × Key)) (v : HVal) : HNode := match node, key with
  | .list items, _ => .list (items ++ [v])
  | .dict es, some k => .dict (setEntry es k v)
  | .dict es, none => .dict es

theorem addToCurrent_put (st : YState) (m : Mark) (i : Nat) (rest : List HVal) (node : HNode) (v : HVal)
    (hs : st.stack = .ref m i :: rest) (hn : st.heap[i]? = some node) (hr : Ready node st.key) :
    addToCurrent st st.key v = .ok { st with heap := st.heap.set i (put node st.key v) } := by
  unfold addToCurrent
  rw [hs]
  simp only [hn]
  rcases hr with ⟨items, rfl, hk⟩ | ⟨es, k, rfl, hk⟩
  · rfl
  · rw [hk]; rfl

/-- What running the events of one value does. -/
def Step (conv : Str → Bool → Key) (evs : List YEvent) (t : TVal) : Prop :=
  ∀ (st : YState) (m : Mark) (i : Nat) (rest : List HVal) (node : HNode),
    st.stack = .ref m i :: rest → st.heap[i]? = some node → Ready node st.key →
    ∃ st' v, runEvents conv st evs = .ok st' ∧ st'.stack = st.stack ∧ st'.data = st.data ∧ st'.key = none ∧
      st.heap.length ≤ st'.heap.length ∧ st'.heap[i]? = some (put node st.key v) ∧
      (∀ j, j < st.heap.length → j ≠ i → st'.heap[j]? = st.heap[j]?) ∧
      Den st'.heap st.heap.length st'.heap.length v t

/-- What running the events of several values does to a list. -/
def StepL (conv : Str → Bool → Key) (evs : List YEvent) (ts : List TVal) : Prop :=
  ∀ (st : YState) (m : Mark) (i : Nat) (rest : List HVal) (items : List HVal),
    st.stack = .ref m i :: rest → st.heap[i]? = some (.list items) → st.key = none →
    ∃ st' vs, runEvents conv st evs = .ok st' ∧ st'.stack = st.stack ∧ st'.data = st.data ∧ st'.key = none ∧
      st.heap.length ≤ st'.heap.length ∧ st'.heap[i]? = some (.list (items ++ vs)) ∧
      (∀ j, j < st.heap.length → j ≠ i → st'.heap[j]? = st.heap[j]?) ∧
      DenL st'.heap st.heap.length st'.heap.length vs ts

/-- What running the events of several entries does to a dictionary. -/
def StepE (conv : Str → Bool → Key) (evs : List YEvent)
    (g : List ((Mark × Key) × TVal) → List ((Mark × Key) × TVal)) : Prop :=
  ∀ (st : YState) (m : Mark) (i : Nat) (rest : List HVal) (es : List ((Mark × Key) × HVal))
    (ts : List ((Mark × Key) × TVal)),
    st.stack = .ref m i :: rest → st.heap[i]? = some (.dict es) → st.key = none →
    i < st.heap.length → DenE st.heap (i + 1) st.heap.length es ts →
    ∃ st' es', runEvents conv st evs = .ok st' ∧ st'.stack = st.stack ∧ st'.data = st.data ∧ st'.key = none ∧
      st.heap.length ≤ st'.heap.length ∧ st'.heap[i]? = some (.dict es') ∧
      (∀ j, j < st.heap.length → j ≠ i → st'.heap[j]? = st.heap[j]?) ∧
      DenE st'.heap (i + 1) st'.heap.length es' (g ts)

theorem step_scalar (conv : Str → Bool → Key) (m : Mark) (t : Str) (imp : Bool) :
    Step conv [.scalar m t imp] (.scalar m (conv t imp)) := by
  intro st mt i rest node hs hn hr
  have hadd := addToCurrent_put st mt i rest node (.scalar m (conv t imp)) hs hn hr
  have hlt : i < st.heap.length := by
    rw [List.getElem?_eq_some_iff] at hn; exact hn.1
  refine ⟨{ st with heap := st.heap.set i (put node st.key (.scalar m (conv t imp))), key := none },
    .scalar m (conv t imp), ?_, rfl, rfl, rfl, by simp, ?_, ?_, ⟨0, ?_⟩⟩
  · simp only [runEvents, handleEvent, bind, Except.bind]
    rcases hr with ⟨items, rfl, hk⟩ | ⟨es, k, rfl, hk⟩
    · have htop : topIsList st = true := by simp [topIsList, hs, hn]
      rw [if_pos htop]
      rw [hk] at hadd ⊢
      rw [hadd]
    · have htop : topIsList st = false := by simp [topIsList, hs, hn]
      rw [htop]
      simp only [Bool.false_eq_true, if_false, hk]
      rw [hk] at hadd
      rw [hadd]
  · simp [hlt]
  · intro j _ hj
    simp only
    rw [List.getElem?_set_ne (fun e => hj e.symm)]
  · intro h' _
    simp [deref]

theorem step_container (conv : Str → Bool → Key) (st : YState) (m : Mark) (i : Nat) (rest : List HVal)
    (node : HNode) (mc : Mark) (n0 : HNode)
    (hs : st.stack = .ref m i :: rest) (hn : st.heap[i]? = some node) (hr : Ready node st.key) :
    ∃ st1, startContainer st mc n0 = .ok st1 ∧ st1.stack = .ref mc st.heap.length :: st.stack ∧
      st1.data = st.data ∧ st1.key = none ∧ st1.heap.length = st.heap.length + 1 ∧
      st1.heap[st.heap.length]? = some n0 ∧
      st1.heap[i]? = some (put node st.key (.ref mc st.heap.length)) ∧
      (∀ j, j < st.heap.length → j ≠ i → st1.heap[j]? = st.heap[j]?) := by
  have hlt : i < st.heap.length := by
    rw [List.getElem?_eq_some_iff] at hn; exact hn.1
  have hn' : (st.heap ++ [n0])[i]? = some node := by rw [List.getElem?_append_left hlt]; exact hn
  have hadd := addToCurrent_put { st with heap := st.heap ++ [n0] } m i rest node (.ref mc st.heap.length)
    hs hn' hr
  simp only at hadd
  refine ⟨⟨(st.heap ++ [n0]).set i (put node st.key (.ref mc st.heap.length)), st.data,
    .ref mc st.heap.length :: st.stack, none⟩, ?_, rfl, rfl, rfl, by simp, ?_, ?_, ?_⟩
  · unfold startContainer
    simp only [hadd, bind, Except.bind]
  · simp only
    rw [List.getElem?_set_ne (by omega)]
    simp
  · simp only
    rw [List.getElem?_set_self (by simp; omega)]
  · intro j hj hji
    simp only
    rw [List.getElem?_set_ne (fun e => hji e.symm), List.getElem?_append_left hj]

theorem step_seq (conv : Str → Bool → Key) (m : Mark) (evs : List YEvent) (ts : List TVal)
    (h : StepL conv evs ts) : Step conv (.seqStart m :: (evs ++ [.seqEnd])) (.list m ts) := by
  intro st mt i rest node hs hn hr
  have hlt : i < st.heap.length := by
    rw [List.getElem?_eq_some_iff] at hn; exact hn.1
  obtain ⟨st1, e1, s1, d1, k1, l1, n1, p1, f1⟩ := step_container conv st mt i rest node m (.list []) hs hn hr
  obtain ⟨st2, vs, e2, s2, d2, k2, l2, n2, f2, n, hden⟩ := h st1 m st.heap.length st.stack [] s1 n1 k1
  simp only [List.nil_append] at n2
  refine ⟨{ st2 with stack := st.stack }, .ref m st.heap.length, ?_, rfl, by rw [← d1, ← d2], k2, ?_, ?_, ?_, ?_⟩
  · simp only [runEvents, handleEvent, e1, bind, Except.bind]
    rw [runEvents_append, e2]
    simp only [runEvents, handleEvent, bind, Except.bind, s2, s1]
  · simp only; omega
  · simp only
    rw [f2 i (by omega) (by omega)]
    exact p1
  · intro j hj hji
    simp only
    rw [f2 j (by omega) (by omega), f1 j hj hji]
  · refine ⟨n + 1, ?_⟩
    intro h' ha
    have hh : h'[st.heap.length]? = some (.list vs) := by
      rw [ha st.heap.length (Nat.le_refl _) (by simp only; omega)]; exact n2
    simp only [deref, hh]
    rw [hden h' (fun j h1 h2 => ha j (by omega) (by simpa using h2))]
    rfl

theorem step_map (conv : Str → Bool → Key) (m : Mark) (evs : List YEvent)
    (g : List ((Mark × Key) × TVal) → List ((Mark × Key) × TVal))
    (h : StepE conv evs g) : Step conv (.mapStart m :: (evs ++ [.mapEnd])) (.dict m (g [])) := by
  intro st mt i rest node hs hn hr
  have hlt : i < st.heap.length := by
    rw [List.getElem?_eq_some_iff] at hn; exact hn.1
  obtain ⟨st1, e1, s1, d1, k1, l1, n1, p1, f1⟩ := step_container conv st mt i rest node m (.dict []) hs hn hr
  obtain ⟨st2, es, e2, s2, d2, k2, l2, n2, f2, n, hden⟩ := h st1 m st.heap.length st.stack [] [] s1 n1 k1
    (by omega) ⟨0, fun _ _ => rfl⟩
  refine ⟨{ st2 with stack := st.stack }, .ref m st.heap.length, ?_, rfl, by rw [← d1, ← d2], k2, ?_, ?_, ?_, ?_⟩
  · simp only [runEvents, handleEvent, e1, bind, Except.bind]
    rw [runEvents_append, e2]
    simp only [runEvents, handleEvent, bind, Except.bind, s2, s1]
  · simp only; omega
  · simp only
    rw [f2 i (by omega) (by omega)]
    exact p1
  · intro j hj hji
    simp only
    rw [f2 j (by omega) (by omega), f1 j hj hji]
  · refine ⟨n + 1, ?_⟩
    intro h' ha
    have hh : h'[st.heap.length]? = some (.dict es) := by
      rw [ha st.heap.length (Nat.le_refl _) (by simp only; omega)]; exact n2
    simp only [deref, hh]
    rw [hden h' (fun j h1 h2 => ha j (by omega) (by simpa using h2))]
    rfl

theorem step_nil (conv : Str → Bool → Key) : StepL conv [] [] := by
  intro st m i rest items hs hn hk
  exact ⟨st, [], rfl, rfl, rfl, hk, Nat.le_refl _, by simpa using hn, fun _ _ _ => rfl, 0, fun _ _ => rfl⟩

theorem step_cons (conv : Str → Bool → Key) (e1 e2 : List YEvent) (t : TVal) (ts : List TVal)
    (h1 : Step conv e1 t) (h2 : StepL conv e2 ts) : StepL conv (e1 ++ e2) (t :: ts) := by
  intro st m i rest items hs hn hk
  have hlt : i < st.heap.length := by
    rw [List.getElem?_eq_some_iff] at hn; exact hn.1
  obtain ⟨st1, v, r1, s1, d1, k1, l1, n1, f1, a, hd1⟩ := h1 st m i rest (.list items) hs hn (Or.inl ⟨items, rfl, hk⟩)
  obtain ⟨st2, vs, r2, s2, d2, k2, l2, n2, f2, b, hd2⟩ := h2 st1 m i rest (items ++ [v]) (by rw [s1, hs]) n1 k1
  refine ⟨st2, v :: vs, ?_, by rw [s2, s1], by rw [d2, d1], k2, by omega, by simpa using n2, ?_, a + b, ?_⟩
  · rw [runEvents_append, r1]; exact r2
  · intro j hj hji
    rw [f2 j (by omega) hji, f1 j hj hji]
  · intro h' ha
    have g1 : deref a h' v = some t := by
      apply hd1
      intro j hj1 hj2
      rw [ha j hj1 (by omega), f2 j hj2 (by omega)]
    have g2 : optAll (fun v => deref b h' v) vs = some ts := by
      apply hd2
      intro j hj1 hj2
      exact ha j (by omega) hj2
    have g2' : optAll (fun v => deref (a + b) h' v) vs = some ts :=
      optAll_mono _ _ _ _ (fun v t hv => by rw [Nat.add_comm]; exact deref_mono b a h' v t hv) g2
    simp only [optAll, deref_mono a b h' v t g1, g2']

theorem stepE_nil (conv : Str → Bool → Key) : StepE conv [] (fun acc => acc) := by
  intro st m i rest es ts hs hn hk _ hd
  exact ⟨st, es, rfl, rfl, rfl, hk, Nat.le_refl _, hn, fun _ _ _ => rfl, hd⟩

theorem stepE_cons (conv : Str → Bool → Key) (mk : Mark) (text : Str) (imp : Bool) (e1 e2 : List YEvent) (t : TVal)
    (g : List ((Mark × Key) × TVal) → List ((Mark × Key) × TVal))
    (h1 : Step conv e1 t) (h2 : StepE conv e2 g) :
    StepE conv (.scalar mk text imp :: (e1 ++ e2)) (fun acc => g (setEntry acc (mk, conv text imp) t)) := by
  intro st m i rest es ts hs hn hk hlt ⟨c, hc⟩
  have htop : topIsList st = false := by simp [topIsList, hs, hn]
  obtain ⟨st1, v, r1, s1, d1, k1, l1, n1, f1, a, hd1⟩ := h1 { st with key := some (mk, conv text imp) } m i rest
    (.dict es) hs hn (Or.inr ⟨es, _, rfl, rfl⟩)
  simp only [put] at n1
  simp only at s1 d1 l1 f1 hd1
  have hden : DenE st1.heap (i + 1) st1.heap.length (setEntry es (mk, conv text imp) v)
      (setEntry ts (mk, conv text imp) t) := by
    refine ⟨a + c, ?_⟩
    intro h' ha
    apply optAll_setEntry
    · have := hc h' (by
        intro j hj1 hj2
        rw [ha j hj1 (by omega), f1 j hj2 (by omega)])
      refine optAll_mono _ _ _ _ ?_ this
      intro w u hw
      simp only [Option.map_eq_some_iff] at hw ⊢
      obtain ⟨b, hb, e⟩ := hw
      exact ⟨b, by rw [Nat.add_comm]; exact deref_mono c a h' _ _ hb, e⟩
    · exact deref_mono a c h' v t (hd1 h' (fun j hj1 hj2 => ha j (by omega) hj2))
  obtain ⟨st2, es', r2, s2, d2, k2, l2, n2, f2, hd2⟩ := h2 st1 m i rest _ _ (by rw [s1, hs]) n1 k1 (by omega) hden
  refine ⟨st2, es', ?_, by rw [s2, s1], by rw [d2, d1], k2, by omega, n2, ?_, hd2⟩
  · simp only [runEvents, handleEvent, htop, hk, bind, Except.bind, Bool.false_eq_true, if_false]
    rw [runEvents_append, r1]
    exact r2
  · intro j hj hji
    rw [f2 j (by omega) hji, f1 j hj hji]

mutual
theorem step_tree (conv : Str → Bool → Key) : ∀ y : YTree, Step conv y.events (y.value conv)
  | .scalar m t i => by simpa only [YTree.events, YTree.value] using step_scalar conv m t i
  | .seq m ys => by
    simpa only [YTree.events, YTree.value] using step_seq conv m _ _ (step_list conv ys)
  | .map m es => by
    simpa only [YTree.events, YTree.value] using step_map conv m _ (fun acc => YTree.entries conv acc es) (step_entries conv es)
theorem step_list (conv : Str → Bool → Key) : ∀ ys : List YTree, StepL conv (YTree.eventsList ys) (YTree.values conv ys)
  | [] => by simpa only [YTree.eventsList, YTree.values] using step_nil conv
  | y :: ys => by
    simpa only [YTree.eventsList, YTree.values] using step_cons conv _ _ _ _ (step_tree conv y) (step_list conv ys)
theorem step_entries (conv : Str → Bool → Key) : ∀ es : List ((Mark × Str × Bool) × YTree),
    StepE conv (YTree.eventsEntries es) (fun acc => YTree.entries conv acc es)
  | [] => by simpa only [YTree.eventsEntries, YTree.entries] using stepE_nil conv
  | ((m, t, i), y) :: es => by
    simpa only [YTree.eventsEntries, YTree.entries] using
      stepE_cons conv m t i _ _ _ _ (step_tree conv y) (step_entries conv es)
end

/-- One document. -/
theorem step_doc (conv : Str → Bool → Key) (y : YTree) (hy : y.isContainer = true) (st : YState) (hs : st.stack = []) :
    ∃ st' v, runEvents conv st (.docStart :: (y.events ++ [.docEnd])) = .ok st' ∧ st'.stack = [] ∧
      st'.data = st.data ++ [v] ∧ st.heap.length ≤ st'.heap.length ∧
      (∀ j, j < st.heap.length → st'.heap[j]? = st.heap[j]?) ∧
      Den st'.heap st.heap.length st'.heap.length v (y.value conv) := by
  have start : ∀ m n0, startContainer st m n0 = .ok ⟨st.heap ++ [n0], st.data,
      [.ref m st.heap.length, .ref m st.heap.length], none⟩ := by
    intro m n0
    unfold startContainer addToCurrent
    simp [hs, bind, Except.bind]
  cases y with
  | scalar m t i => simp [YTree.isContainer] at hy
  | seq m ys =>
    obtain ⟨st2, vs, e2, s2, d2, k2, l2, n2, f2, n, hden⟩ := step_list conv ys
      ⟨st.heap ++ [.list []], st.data,
        [.ref m st.heap.length, .ref m st.heap.length], none⟩
      m st.heap.length [.ref m st.heap.length] [] rfl (by simp) rfl
    simp only [List.length_append, List.length_cons, List.length_nil, List.nil_append] at l2 n2 f2 hden s2 d2
    refine ⟨{ st2 with stack := [], data := st.data ++ [.ref m st.heap.length] }, .ref m st.heap.length, ?_, rfl, rfl,
      by simp only; omega, ?_, n + 1, ?_⟩
    · simp only [YTree.events, runEvents, handleEvent, List.cons_append, List.append_assoc, bind, Except.bind, start]
      rw [runEvents_append, e2]
      simp only [runEvents, handleEvent, bind, Except.bind, s2, d2, List.nil_append]
    · intro j hj
      simp only
      rw [f2 j (by omega) (by omega), List.getElem?_append_left hj]
    · intro h' ha
      have hh : h'[st.heap.length]? = some (.list vs) := by
        rw [ha st.heap.length (Nat.le_refl _) (by simp only; omega)]; exact n2
      simp only [deref, hh]
      rw [hden h' (fun j h1 h2 => ha j (by omega) (by simpa using h2))]
      simp [YTree.value]
  | map m es =>
    obtain ⟨st2, es', e2, s2, d2, k2, l2, n2, f2, n, hden⟩ := step_entries conv es
      ⟨st.heap ++ [.dict []], st.data,
        [.ref m st.heap.length, .ref m st.heap.length], none⟩
      m st.heap.length [.ref m st.heap.length] [] [] rfl (by simp) rfl (by simp) ⟨0, fun _ _ => rfl⟩
    simp only [List.length_append, List.length_cons, List.length_nil] at l2 n2 f2 hden s2 d2
    refine ⟨{ st2 with stack := [], data := st.data ++ [.ref m st.heap.length] }, .ref m st.heap.length, ?_, rfl, rfl,
      by simp only; omega, ?_, n + 1, ?_⟩
    · simp only [YTree.events, runEvents, handleEvent, List.cons_append, List.append_assoc, bind, Except.bind, start]
      rw [runEvents_append, e2]
      simp only [runEvents, handleEvent, bind, Except.bind, s2, d2, List.nil_append]
    · intro j hj
      simp only
      rw [f2 j (by omega) (by omega), List.getElem?_append_left hj]
    · intro h' ha
      have hh : h'[st.heap.length]? = some (.dict es') := by
        rw [ha st.heap.length (Nat.le_refl _) (by simp only; omega)]; exact n2
      simp only [deref, hh]
      rw [hden h' (fun j h1 h2 => ha j (by omega) (by simpa using h2))]
      simp [YTree.value]

theorem run_docs (conv : Str → Bool → Key) (ds : List YTree) (hds : ∀ d ∈ ds, d.isContainer = true) (st : YState)
    (hs : st.stack = []) :
    ∃ st' vs, runEvents conv st (docEvents ds) = .ok st' ∧ st'.stack = [] ∧ st'.data = st.data ++ vs ∧
      st.heap.length ≤ st'.heap.length ∧ (∀ j, j < st.heap.length → st'.heap[j]? = st.heap[j]?) ∧
      DenL st'.heap st.heap.length st'.heap.length vs (ds.map (YTree.value conv)) := by
  induction ds generalizing st with
  | nil => exact ⟨st, [], rfl, hs, by simp, Nat.le_refl _, fun _ _ => rfl, 0, fun _ _ => rfl⟩
  | cons d ds ih =>
    obtain ⟨st1, v, r1, s1, d1, l1, f1, a, hd1⟩ := step_doc conv d (hds d (by simp)) st hs
    obtain ⟨st2, vs, r2, s2, d2, l2, f2, b, hd2⟩ := ih (fun x hx => hds x (by simp [hx])) st1 s1
    refine ⟨st2, v :: vs, ?_, s2, by rw [d2, d1]; simp, by omega, ?_, a + b, ?_⟩
    · have : docEvents (d :: ds) = (.docStart :: (d.events ++ [.docEnd])) ++ docEvents ds := by simp [docEvents]
      rw [this, runEvents_append, r1]; exact r2
    · intro j hj
      rw [f2 j (by omega), f1 j hj]
    · intro h' ha
      have g1 : deref a h' v = some (d.value conv) := hd1 h' (by
        intro j hj1 hj2
        rw [ha j hj1 (by omega), f2 j hj2])
      have g2 := hd2 h' (fun j hj1 hj2 => ha j (by omega) hj2)
      have g2' : optAll (fun v => deref (a + b) h' v) vs = some (ds.map (YTree.value conv)) :=
        optAll_mono _ _ _ _ (fun v t hv => by rw [Nat.add_comm]; exact deref_mono b a h' v t hv) g2
      simp only [optAll, deref_mono a b h' v _ g1, g2', List.map_cons]

/-- **C29**: for every stream of documents made of mappings and sequences, nested arbitrarily, the
parser returns one value per document, in order, and the value is the one the document stands for:
all scalars, all keys, their order and all positions. -/
theorem C29_documents (conv : Str → Bool → Key) (ds : List YTree) (h : ∀ d ∈ ds, d.isContainer = true) :
    ∃ st, runEvents conv {} (.streamStart :: (docEvents ds ++ [.streamEnd])) = .ok st ∧
      ∃ n, optAll (deref n st.heap) st.data = some (ds.map (YTree.value conv)) := by
  obtain ⟨st, vs, r, _, d, _, _, n, hden⟩ := run_docs conv ds h {} rfl
  refine ⟨st, ?_, n, ?_⟩
  · simp only [runEvents, handleEvent, bind, Except.bind]
    rw [runEvents_append, r]
    rfl
  · rw [d]
    simpa using hden st.heap (fun _ _ _ => rfl)

/-- What `deref` finds does not depend on the number of levels it may follow. -/
theorem C29_deref_unique (a b : Nat) (h : List HNode) (v : HVal) (s t : TVal)
    (ha : deref a h v = some s) (hb : deref b h v = some t) : s = t := by
  have h1 := deref_mono a b h v s ha
  have h2 := deref_mono b a h v t hb
  rw [Nat.add_comm] at h2
  rw [h1] at h2
  exact Option.some.inj h2

/-- A mapping with different keys is returned entry by entry. -/
theorem C29_different_keys (conv : Str → Bool → Key) (es : List ((Mark × Str × Bool) × YTree))
    (h : (es.map (fun e => conv e.1.2.1 e.1.2.2)).Nodup) :
    YTree.entries conv [] es = es.map (fun e => ((e.1.1, conv e.1.2.1 e.1.2.2), e.2.value conv)) := by
  have key : ∀ (acc : List ((Mark × Key) × TVal)),
      (acc.map (fun e => e.1.2) ++ es.map (fun e => conv e.1.2.1 e.1.2.2)).Nodup →
      YTree.entries conv acc es = acc ++ es.map (fun e => ((e.1.1, conv e.1.2.1 e.1.2.2), e.2.value conv)) := by
    clear h
    induction es with
    | nil => intro acc _; simp [YTree.entries]
    | cons e es ih =>
      obtain ⟨⟨m, t, i⟩, y⟩ := e
      intro acc hn
      have hset : ∀ (acc : List ((Mark × Key) × TVal)) (v : TVal), conv t i ∉ acc.map (fun e => e.1.2) →
          setEntry acc (m, conv t i) v = acc ++ [((m, conv t i), v)] := by
        intro acc v
        induction acc with
        | nil => intro _; rfl
        | cons a acc ih2 =>
          obtain ⟨k', v'⟩ := a
          intro hnot
          simp only [List.map_cons, List.mem_cons, not_or] at hnot
          simp only [setEntry]
          rw [if_neg (fun e => hnot.1 e.symm), ih2 hnot.2]
          rfl
      have hnot : conv t i ∉ acc.map (fun e => e.1.2) := by
        intro hm
        exact (List.nodup_append.1 hn).2.2 _ hm (conv t i) (by simp) rfl
      simp only [YTree.entries]
      rw [hset acc _ hnot, ih]
      · simp
      · simpa using hn
  simpa using key [] (by simpa using h)

/-- **C29**: an alias is an error, whatever has been read before and whatever follows. -/
theorem C29_alias (conv : Str → Bool → Key) (st : YState) (a b : List YEvent) (m : Mark) :
    ∃ e, runEvents conv st (a ++ .alias m :: b) = .error e := by
  rw [runEvents_append]
  cases h : runEvents conv st a with
  | error e => exact ⟨e, rfl⟩
  | ok s => exact ⟨.schemaError, rfl⟩

/-- A key that is not a scalar is an error: a mapping or sequence starts where a key is expected. -/
theorem C29_complex_key (conv : Str → Bool → Key) (st : YState) (m mt : Mark) (i : Nat) (rest : List HVal)
    (es : List ((Mark × Key) × HVal)) (hs : st.stack = .ref mt i :: rest) (hn : st.heap[i]? = some (.dict es))
    (hk : st.key = none) :
    handleEvent conv st (.seqStart m) = .error .schemaError ∧
    handleEvent conv st (.mapStart m) = .error .schemaError := by
  have hlt : i < st.heap.length := by
    rw [List.getElem?_eq_some_iff] at hn; exact hn.1
  constructor <;>
  · simp only [handleEvent, startContainer, addToCurrent, hs, hk]
    rw [List.getElem?_append_left hlt, hn]
    rfl

/-- A document that is a bare scalar is dropped, so the documents do not correspond to the results:
of two scalar documents only the second is returned. -/
theorem C29_scalar_documents (conv : Str → Bool → Key) (m : Mark) (a b : Str) :
    ((runEvents conv {} (docEvents [.scalar m a true])).toOption.map (fun st => st.data)) = some [] ∧
    ((runEvents conv {} (docEvents [.scalar m a true, .scalar m b true])).toOption.map (fun st => st.data)) =
      some [.scalar m (conv b true)] :=
  ⟨rfl, rfl⟩

/-- **C29**: scalars. A quoted scalar is its text; a plain scalar that is none of the special words
and no number is its text as well. -/
theorem C29_scalars (isFloat : Str → Bool) (t : Str) :
    convertScalar isFloat t false = .str t ∧
    (lower t ∉ [S "null", S "~", [], S "true", S "on", S "yes", S "false", S "off", S "no"] →
      pyInt t = none → isFloat t = false → convertScalar isFloat t true = .str t) ∧
    (lower t ∈ [S "null", S "~", []] → convertScalar isFloat t true = .none) ∧
    (lower t ∈ [S "true", S "on", S "yes"] → convertScalar isFloat t true = .bool true) ∧
    (lower t ∈ [S "false", S "off", S "no"] → convertScalar isFloat t true = .bool false) ∧
    (∀ i, pyInt t = some i → lower t ∉ [S "null", S "~", [], S "true", S "on", S "yes", S "false", S "off", S "no"] →
      convertScalar isFloat t true = .int i) := by
  unfold convertScalar
  simp only [List.mem_cons, List.not_mem_nil, or_false, not_or]
  refine ⟨rfl, ?_, ?_, ?_, ?_, ?_⟩
  · rintro ⟨h1, h2, h3, h4, h5, h6, h7, h8, h9⟩ hi hf
    simp [h1, h2, h3, h4, h5, h6, h7, h8, h9, hi, hf]
  · intro h
    simp only [if_true]
    rw [if_pos h]
  · rintro (h | h | h) <;> rw [h] <;> simp [S]
  · rintro (h | h | h) <;> rw [h] <;> simp [S]
  · rintro i hi ⟨h1, h2, h3, h4, h5, h6, h7, h8, h9⟩
    simp [h1, h2, h3, h4, h5, h6, h7, h8, h9, hi]

/-- A document with nested containers and a repeated key. -/
theorem C29_example :
    let m : Mark := ⟨1, 1⟩
    let n : Mark := ⟨2, 1⟩
    let d : YTree := .map m [((m, S "a", true), .seq m [.scalar m (S "b") true, .map m []]),
      ((n, S "a", true), .scalar n (S "7") true)]
    ((runEvents (convertScalar (fun _ => false)) {} (docEvents [d])).toOption.bind
      (fun st => optAll (deref 5 st.heap) st.data)) =
    some [.dict m [((m, .str (S "a")), .scalar n (.int 7))]] := rfl

end CC
