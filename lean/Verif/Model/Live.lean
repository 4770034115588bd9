import Verif.Model.Iter
/-!
# Iterators that are used while the graph changes (list.go)

In the other files an iterator is run to its end before the graph changes. Here the program may call operations of
the graph between two calls of `Next`, as in the body of `for nodes.Next() { ... }`.
-/
namespace LPG

/-- What the program does next: call `Next` of its iterator, or an operation of the graph. -/
inductive Event where
  | next
  | op (o : Op)

/-- What happened: `Next` returned true and the item is `x`; `Next` returned false; an operation returned. -/
inductive Seen where
  | item (x : Nat)
  | last
  | did (o : Op)

/-- A program with one iterator. `stp` runs an operation, `adv` is `Next` together with the item that the iterator
yields, in the current state. `none`: a call panics or does not return. -/
def live {S ι : Type} (stp : S → Op → Option S) (adv : S → ι → Option (Option Nat × ι)) :
    S → ι → List Event → Option (List Seen × S × ι)
  | s, it, [] => some ([], s, it)
  | s, it, .next :: evs =>
    match adv s it with
    | none => none
    | some (r, it) =>
      match live stp adv s it evs with
      | none => none
      | some (log, z) =>
        some ((match r with
          | some x => Seen.item x
          | none => Seen.last) :: log, z)
  | s, it, .op o :: evs =>
    match stp s o with
    | none => none
    | some s =>
      match live stp adv s it evs with
      | none => none
      | some (log, z) => some (Seen.did o :: log, z)

/-- list.go:125-129, `nodeListIterator`: `current` and `next`. -/
structure NodeIt where
  current : Option Nat
  next : Option Nat
deriving DecidableEq

/-- list.go:131-138, 140-142, 144-146: `nodeListIterator.Next`, `Value` and `Node`. `Next` reads the pointers of the nodes as they are
now. -/
def NodeIt.adv (s : State) (it : NodeIt) : Option (Option Nat × NodeIt) :=
  match it.next with
  | some x => some (some x, { current := some x, next := s.nptr.next x })
  | none => some (none, { current := none, next := none })

/-- graph.go:127-129, `GetNodes`. -/
def State.openNodes (s : State) : NodeIt := { current := none, next := s.allNodes.head }

/-- A program that holds an iterator returned by `GetNodes`. -/
def State.liveNodes (s : State) (evs : List Event) : Option (List Seen × State × NodeIt) :=
  live step NodeIt.adv s s.openNodes evs

/-- `for nodes := g.GetNodes(); nodes.Next(); { body }`, where the body calls some operations, which may depend on the
node. -/
def forNodes (body : Nat → List Op) (s : State) (it : NodeIt) : Option State :=
  match NodeIt.adv s it with
  | none => none
  | some (none, _) => some s
  | some (some x, it) =>
    match runFrom s (body x) with
    | none => none
    | some s => forNodes body s it
partial_fixpoint

end LPG
