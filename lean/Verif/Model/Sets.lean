import Verif.Model.Index
/-!
# fastSet, NodeSet, EdgeSet (sets.go) and NodeMap.Iterator (maps.go)
-/
namespace LPG

/-- sets.go:23-26, `fastSet`. `l` is the `container/list`: its elements (cells) have identities, given by the first
component, and hold an item; `m` maps ids to cells; `nextCell` is the identity of the next element that is
allocated. -/
structure FastSet (α : Type) where
  m : AMap Nat Nat
  l : List (Nat × α)
  nextCell : Nat
deriving Repr

namespace FastSet
variable {α : Type}

/-- sets.go:28-38, `newFastSet` and `init`. -/
def new : FastSet α := { m := [], l := [], nextCell := 0 }

/-- sets.go:40, `size`. -/
def size (f : FastSet α) : Nat := f.m.length

/-- sets.go:43-51, `add`. -/
def add (f : FastSet α) (id : Nat) (item : α) : FastSet α × Bool :=
  match f.m.get id with
  | some _ => (f, false)
  | none =>
    let el := f.nextCell
    ({ m := f.m.set id el, l := f.l ++ [(el, item)], nextCell := el + 1 }, true)

/-- sets.go:53-59, `get`: the value of the cell. -/
def get (f : FastSet α) (id : Nat) : Option α :=
  match f.m.get id with
  | none => none
  | some el => AMap.get f.l el

/-- sets.go:62-70, `remove`. `List.Remove` unlinks the element with this identity. -/
def remove (f : FastSet α) (id : Nat) : FastSet α × Bool :=
  match f.m.get id with
  | none => (f, false)
  | some el => ({ f with m := f.m.del id, l := f.l.filter (fun c => c.1 ≠ el) }, true)

/-- sets.go:72-75, `has`. -/
def has (f : FastSet α) (id : Nat) : Bool := (f.m.get id).isSome

/-- sets.go:77-79, `iterator`, run to its end. -/
def items (f : FastSet α) : List α := f.l.map Prod.snd

end FastSet

/-- A node (or an edge) of one of several graphs: the graph and the id in that graph. Two different objects may have
the same id if they belong to different graphs. -/
structure Ref where
  graph : Nat
  id : Nat
deriving DecidableEq, Repr

/-- sets.go:81-113 `NodeSet` and 116-146 `EdgeSet`: a `fastSet` keyed by the id of the object. -/
abbrev RefSet := FastSet Ref

namespace RefSet

/-- sets.go:91-93 and 126-128, `Add`. -/
def add (s : RefSet) (x : Ref) : RefSet := (FastSet.add s x.id x).1

/-- sets.go:95-97 and 130-132, `Remove`. The receiver is a copy of the struct, but its map and its list are
shared with the caller's, so the removal is seen by the caller. -/
def remove (s : RefSet) (x : Ref) : RefSet := (FastSet.remove s x.id).1

/-- sets.go:99-101, `NodeSet.Has`. -/
def has (s : RefSet) (x : Ref) : Bool := FastSet.has s x.id

/-- sets.go:103-105, 134-136, `Len`. `NewNodeSet` and `NewEdgeSet` (sets.go:85-89, 121-125) are the empty set. -/
def len (s : RefSet) : Nat := FastSet.size s

/-- sets.go:107-114 and 138-146, `Iterator` run to its end, `Slice`. -/
def slice (s : RefSet) : List Ref := FastSet.items s

end RefSet

/-- A call of `Add` or `Remove`. -/
inductive SetOp where
  | add (x : Ref)
  | remove (x : Ref)
deriving DecidableEq, Repr

def SetOp.ref : SetOp → Ref
  | .add x => x
  | .remove x => x

def RefSet.step (s : RefSet) : SetOp → RefSet
  | .add x => RefSet.add s x
  | .remove x => RefSet.remove s x

/-- A sequence of calls on a new set. -/
def RefSet.run (ops : List SetOp) : RefSet := ops.foldl RefSet.step FastSet.new

/-! ## NodeMap.Iterator -/

/-- maps.go:163-172, the filter of `NodeMap.Iterator`: at most one of the labels seen so far is a label of the
node. -/
def seenOnce (labels : List String) : List String → Nat → Bool
  | [], _ => true
  | l :: seen, n =>
    if labels.contains l then
      if n + 1 > 1 then false else seenOnce labels seen (n + 1)
    else seenOnce labels seen n

/-- maps.go:122-149, `nodeMapIterator`, with the filter of 161-174, run to its end. The label sets come in the order
of the `linkedhashmap`; `seen` is `seenLabels`. An empty set would make `Next` return true without a current element,
and `Value` would dereference nil: `none`. -/
def NodeMap.iterLabels (labelsOf : Nat → List String) : AMap String (FSet Nat) → List String → Option (List Nat)
  | [], _ => some []
  | (l, s) :: m, seen =>
    if s.length = 0 then none
    else
      let seen := seen ++ [l]
      match NodeMap.iterLabels labelsOf m seen with
      | none => none
      | some ys => some (s.items.filter (fun n => seenOnce (labelsOf n) seen 0) ++ ys)

/-- maps.go:155-182, `NodeMap.Iterator`, run to its end. -/
def NodeMap.iterator (nm : NodeMap) (labelsOf : Nat → List String) : Option (List Nat) :=
  match NodeMap.iterLabels labelsOf nm.m [] with
  | none => none
  | some xs => some (xs ++ nm.nolabels.items)

/-- maps.go:115-120, `IsEmpty`. -/
def NodeMap.isEmpty (nm : NodeMap) : Bool := if nm.m.length = 0 then true else false

end LPG
