import Verif.Model.EdgeHeap
import Verif.Model.LabelHeap
import Verif.Model.Queries
/-!
# Loops over the nodes or edges with a property, in a graph that changes (graph.go, hashindex.go, itr.go)

`GetNodesWithProperty` goes through the list of a hash index, or through all nodes if there is no index. Not modelled: the
iterators of a btree index, which are iterators of the library `gods`.
-/
namespace LPG

/-- hashindex.go:80-85: the cells that `valueItr` goes through, if there is a hash index for the key. `emptyIterator` if the
index was never used. -/
def hashCells (ixs : Indexes) (k : String) : Option (List (Nat × Nat)) :=
  match AMap.get ixs k with
  | some (.hash h) => some (if h.init then h.elements else [])
  | _ => none

/-- itr.go:239-245, 247-249, `listIterator.Next` and `Value`: the field `next` is a cell and the object in it. `Next` reads
the list as it is now. -/
def advCells (ixs : State → Indexes) (k : String) (s : State) :
    Option (Nat × Nat) → Option (Option Nat × Option (Nat × Nat))
  | none => some (none, none)
  | some c =>
    match hashCells (ixs s) k with
    | none => none
    | some l => some (some c.2, (LState.cellsAfter c.1 l).head?)

/-- A program that holds an iterator over a hash index. -/
def liveCells (ixs : State → Indexes) (s : State) (k : String) (evs : List Event) :
    Option (List Seen × State × Option (Nat × Nat)) :=
  match hashCells (ixs s) k with
  | none => none
  | some l => live step (advCells ixs k) s l.head? evs

/-- itr.go:105-114, `filterIterator.Next` over `nodeListIterator` (list.go:131-138), with the filter of graph.go:180-187, which
reads the properties that the node has now. `none`: the loop does not end. -/
def scanNodes (k : String) (s : State) : Nat → NodeIt → Option (Option Nat × NodeIt)
  | 0, _ => none
  | f + 1, it =>
    match NodeIt.adv s it with
    | none => none
    | some (none, it) => some (none, it)
    | some (some x, it) => if (s.nodeProperty x k).isSome then some (some x, it) else scanNodes k s f it

/-- The same over the iterator of all edges (edgemap.go:126-143), with the filter of graph.go:205-212. -/
def scanEdges (k : String) (h : HState) : Nat → EdgeIt → Option (Option Nat × EdgeIt)
  | 0, _ => none
  | f + 1, it =>
    match h.adv .all it with
    | none => none
    | some (none, it) => some (none, it)
    | some (some x, it) => if (h.base.edgeProperty x k).isSome then some (some x, it) else scanEdges k h f it

/-- More than the number of edges that an iterator over all edges has left: each list has at most as many edges as there are
ids. -/
def scanFuel (h : HState) : EdgeIt → Nat
  | .all g _ _ => ((h.allEdges.order g).length + 2) * h.base.idBase + 2
  | _ => h.base.idBase + 2

/-- A program that holds an iterator returned by `GetEdgesWithProperty(k)` (graph.go:197-214), when there is no index for `k`. -/
def HState.liveEdgeScan (h : HState) (k : String) (evs : List Event) : Option (List Seen × HState × EdgeIt) :=
  match AMap.get h.base.edgeIx k with
  | some _ => none
  | none =>
    match h.openEdges .all .all with
    | none => none
    | some it => live HState.step (fun h it => scanEdges k h (scanFuel h it) it) h it evs

namespace State

/-- A program that holds an iterator returned by `GetNodesWithProperty(k)` (graph.go:173-189, indexes.go:89-97), when there is
a hash index for `k`. -/
def liveNodeHash (s : State) (k : String) (evs : List Event) : Option (List Seen × State × Option (Nat × Nat)) :=
  liveCells State.nodeIx s k evs

/-- The same for `GetEdgesWithProperty(k)` (graph.go:197-214, indexes.go:99-107). -/
def liveEdgeHash (s : State) (k : String) (evs : List Event) : Option (List Seen × State × Option (Nat × Nat)) :=
  liveCells State.edgeIx s k evs

/-- A program that holds an iterator returned by `GetNodesWithProperty(k)`, when there is no index for `k`. -/
def liveNodeScan (s : State) (k : String) (evs : List Event) : Option (List Seen × State × NodeIt) :=
  match AMap.get s.nodeIx k with
  | some _ => none
  | none => live step (fun s it => scanNodes k s (s.idBase + 1) it) s s.openNodes evs

end State

end LPG
