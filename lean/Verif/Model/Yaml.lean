import Verif.Model.Value
/-!
# Model of `crazy_complete/extended_yaml_parser.py`

Python lists and dicts are mutable objects that are shared between their parent and the parser's
stack. They are nodes of a heap here; a `ValueWithTrace` holding a container is a reference into the
heap. The PyYAML event source is not modelled; the parser is run on a list of events. The source text
kept in every `ValueWithTrace` is left out. Dictionary keys are compared as in `Model/Value.lean`.
-/

namespace CC

/-- Line and column, `value_with_trace.py` 32-36. -/
structure Mark where
  line : Nat
  column : Nat
  deriving DecidableEq

/-- PyYAML events; `scalar` carries its text and `implicit[0]`. -/
inductive YEvent where
  | streamStart | streamEnd | docStart | docEnd
  | mapStart (m : Mark) | mapEnd | seqStart (m : Mark) | seqEnd
  | scalar (m : Mark) (text : Str) (implicit : Bool)
  | alias (m : Mark)

/-- `ValueWithTrace`: a scalar, or a reference to a container. -/
inductive HVal where
  | scalar (m : Mark) (k : Key)
  | ref (m : Mark) (i : Nat)

/-- A Python list or dict. Keys are `ValueWithTrace` objects too. -/
inductive HNode where
  | list (items : List HVal)
  | dict (entries : List ((Mark × Key) × HVal))

/-- `d[key] = v` where keys are equal if their values are: an existing entry keeps its key object and
its place. -/
def setEntry {α : Type} : List ((Mark × Key) × α) → Mark × Key → α → List ((Mark × Key) × α)
  | [], k, v => [(k, v)]
  | (k', v') :: r, k, v => if k'.2 = k.2 then (k', v) :: r else (k', v') :: setEntry r k v

/-- The attributes of the parser, `extended_yaml_parser.py` 23-27. The top of the stack is the head of
the list. -/
structure YState where
  heap : List HNode := []
  data : List HVal := []
  stack : List HVal := []
  key : Option (Mark × Key) := none

/-- `convert_scalar`, `extended_yaml_parser.py` 114-140. `isFloat` tells whether Python's `float()`
accepts the text. -/
def convertScalar (isFloat : Str → Bool) (text : Str) (implicit : Bool) : Key :=
  if implicit then
    let l := lower text
    if l = S "null" ∨ l = S "~" ∨ l = [] then .none
    else if l = S "true" ∨ l = S "on" ∨ l = S "yes" then .bool true
    else if l = S "false" ∨ l = S "off" ∨ l = S "no" then .bool false
    else match pyInt text with
      | some i => .int i
      | none => if isFloat text then .float text else .str text
  else .str text

/-- `add_to_current_structure`, `extended_yaml_parser.py` 95-112. -/
def addToCurrent (st : YState) (key : Option (Mark × Key)) (v : HVal) : Except Err YState :=
  match st.stack with
  | [] => .ok { st with stack := [v] }
  | .scalar _ _ :: _ => .error .schemaError
  | .ref _ i :: _ =>
    match st.heap[i]? with
    | none => .error .crash
    | some (.list items) => .ok { st with heap := st.heap.set i (.list (items ++ [v])) }
    | some (.dict es) =>
      match key with
      | none => .error .schemaError
      | some k => .ok { st with heap := st.heap.set i (.dict (setEntry es k v)) }

/-- `isinstance(self.current_stack[-1].value, list)` with a non-empty stack, line 81. -/
def topIsList (st : YState) : Bool :=
  match st.stack with
  | .ref _ i :: _ => match st.heap[i]? with
    | some (.list _) => true
    | _ => false
  | _ => false

/-- The common part of lines 67-71 and 72-76. -/
def startContainer (st : YState) (m : Mark) (n : HNode) : Except Err YState := do
  let v := HVal.ref m st.heap.length
  let st' ← addToCurrent { st with heap := st.heap ++ [n] } st.key v
  .ok { st' with stack := v :: st'.stack, key := none }

/-- `handle_event`, `extended_yaml_parser.py` 55-93. `conv` is `convert_scalar`. -/
def handleEvent (conv : Str → Bool → Key) (st : YState) : YEvent → Except Err YState
  | .streamStart => .ok st
  | .streamEnd => .ok st
  | .docStart => .ok st
  | .docEnd => match st.stack with
    | [] => .ok st
    | v :: s => .ok { st with data := st.data ++ [v], stack := s }
  | .mapStart m => startContainer st m (.dict [])
  | .seqStart m => startContainer st m (.list [])
  | .scalar m text implicit =>
    let v := conv text implicit
    if topIsList st then addToCurrent st none (.scalar m v)
    else match st.key with
      | none => .ok { st with key := some (m, v) }
      | some k => do
        let st' ← addToCurrent st (some k) (.scalar m v)
        .ok { st' with key := none }
  | .mapEnd => match st.stack with
    | [] => .error .crash
    | _ :: s => .ok { st with stack := s }
  | .seqEnd => match st.stack with
    | [] => .error .crash
    | _ :: s => .ok { st with stack := s }
  | .alias _ => .error .schemaError

/-- The loop of `parse`, `extended_yaml_parser.py` 45-49. -/
def runEvents (conv : Str → Bool → Key) : YState → List YEvent → Except Err YState
  | st, [] => .ok st
  | st, e :: es => do runEvents conv (← handleEvent conv st e) es

end CC
