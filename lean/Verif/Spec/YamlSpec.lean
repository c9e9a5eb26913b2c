import Verif.Model.Yaml
/-!
# YAML trees, their events, and the values they stand for
-/

namespace CC

/-- A YAML tree whose mapping keys are scalars. -/
inductive YTree where
  | scalar (m : Mark) (text : Str) (implicit : Bool)
  | seq (m : Mark) (items : List YTree)
  | map (m : Mark) (entries : List ((Mark × Str × Bool) × YTree))

mutual
/-- The events of a tree. -/
def YTree.events : YTree → List YEvent
  | .scalar m t i => [.scalar m t i]
  | .seq m ys => .seqStart m :: (YTree.eventsList ys ++ [.seqEnd])
  | .map m es => .mapStart m :: (YTree.eventsEntries es ++ [.mapEnd])
/-- The events of the items of a sequence. -/
def YTree.eventsList : List YTree → List YEvent
  | [] => []
  | y :: ys => y.events ++ YTree.eventsList ys
/-- The events of the keys and values of a mapping. -/
def YTree.eventsEntries : List ((Mark × Str × Bool) × YTree) → List YEvent
  | [] => []
  | ((m, t, i), y) :: es => .scalar m t i :: (y.events ++ YTree.eventsEntries es)
end

/-- A value with the position of each of its parts. -/
inductive TVal where
  | scalar (m : Mark) (k : Key)
  | list (m : Mark) (items : List TVal)
  | dict (m : Mark) (entries : List ((Mark × Key) × TVal))

mutual
/-- The value a tree stands for. A repeated key keeps its first place and takes the last value. -/
def YTree.value (conv : Str → Bool → Key) : YTree → TVal
  | .scalar m t i => .scalar m (conv t i)
  | .seq m ys => .list m (YTree.values conv ys)
  | .map m es => .dict m (YTree.entries conv [] es)
/-- The values of a list of trees. -/
def YTree.values (conv : Str → Bool → Key) : List YTree → List TVal
  | [] => []
  | y :: ys => y.value conv :: YTree.values conv ys
/-- The entries of a mapping, added one after the other. -/
def YTree.entries (conv : Str → Bool → Key) (acc : List ((Mark × Key) × TVal)) :
    List ((Mark × Str × Bool) × YTree) → List ((Mark × Key) × TVal)
  | [] => acc
  | ((m, t, i), y) :: es => YTree.entries conv (setEntry acc (m, conv t i) (y.value conv)) es
end

/-- A document is a container, not a bare scalar. -/
def YTree.isContainer : YTree → Bool
  | .scalar _ _ _ => false
  | _ => true

/-- The events of a stream of documents. -/
def docEvents (ds : List YTree) : List YEvent :=
  ds.flatMap (fun d => .docStart :: (d.events ++ [.docEnd]))

/-- All results or nothing. -/
def optAll {α β : Type} (f : α → Option β) : List α → Option (List β)
  | [] => some []
  | x :: xs => match f x, optAll f xs with
    | some y, some ys => some (y :: ys)
    | _, _ => none

/-- The value held by a reference, following references at most n levels deep. -/
def deref : Nat → List HNode → HVal → Option TVal
  | _, _, .scalar m k => some (.scalar m k)
  | 0, _, .ref _ _ => none
  | n + 1, h, .ref m i => match h[i]? with
    | none => none
    | some (.list vs) => (optAll (fun v => deref n h v) vs).map (.list m)
    | some (.dict es) => (optAll (fun e => (deref n h e.2).map (fun t => (e.1, t))) es).map (.dict m)

end CC
