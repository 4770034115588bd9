import Verif.Model.Sets
/-!
# A NodeMap kept by the caller (maps.go)

`NodeMap` is exported. A program may keep one beside a graph, and calls `Add`, `Remove` and `Replace` itself. Simplification:
its nodes have pairwise different ids, as those of one graph have (sets.go:23-26: the sets are keyed by the id); a number is a
node.
-/
namespace LPG

/-- The calls: those on the map, and `SetLabels` of a node (node.go:101-104, graph.go:413-416), which does not know of the map. -/
inductive MapCall where
  | setLabels (n : Nat) (ls : List String)
  | add (n : Nat)
  | remove (n : Nat)
  | replace (n : Nat) (old new : List String)
deriving DecidableEq, Repr

/-- The map, and the labels of the nodes. -/
structure MapState where
  nm : NodeMap
  labels : Nat → List String

/-- maps.go:36-113. `Add` and `Remove` read the labels that the node has at the time of the call. -/
def MapState.call (m : MapState) : MapCall → MapState
  | .setLabels n ls => { m with labels := upd m.labels n ls }
  | .add n => { m with nm := m.nm.add n (m.labels n) }
  | .remove n => { m with nm := m.nm.remove n (m.labels n) }
  | .replace n old new => { m with nm := m.nm.replace n old new }

def MapState.calls : MapState → List MapCall → MapState
  | m, [] => m
  | m, c :: cs => (m.call c).calls cs

/-- maps.go:28-34, `NewNodeMap`, with nodes that have these labels. -/
def MapState.new (labels : Nat → List String) : MapState := { nm := NodeMap.empty, labels := labels }

end LPG
