import Verif.Model.Queries
/-!
# Several graphs on one heap (graph.go, node.go:27, edge.go:45-88)

`Verif.Model.Graph` gives the operations of one graph on a heap of nodes and edges. Here several graphs live on the
same heap: the fields of nodes and edges are shared functions from addresses, and each graph only has its root object
(`Graph`: the node list, the edge map and the indexes). An operation may follow any pointer.

Simplification: addresses are allocated from one counter for all graphs and take the place of the ids, which in Go
come from a counter per graph (`idBase`). Within one graph addresses and ids are in the same order, and ids are only
compared within one graph.
-/
namespace LPG

/-- graph.go:32-37 `Graph` (without `idBase`), indexes.go:31-38 `graphIndex`. -/
structure Root where
  allNodes : NList
  allEdges : EdgeMap
  byLabel : NodeMap
  nodeIx : Indexes
  edgeIx : Indexes

/-- graph.go:41-46, `NewGraph`. -/
def Root.new : Root :=
  { allNodes := { head := none, tail := none, n := 0 }, allEdges := EdgeMap.empty, byLabel := NodeMap.empty,
    nodeIx := [], edgeIx := [] }

/-- All graphs of a program. `heap` holds the fields of all nodes and edges; its root fields are not used.
`nodeGraph` is the field `Node.graph` (node.go:27), `none` for an address that is not a node. `isEdge` says that an
address is an edge. Graphs are named by numbers; a graph that nothing was done with is a new one. -/
structure World where
  heap : State
  root : Nat → Root
  nodeGraph : Nat → Option Nat
  isEdge : Nat → Bool

namespace World

def new : World :=
  { heap := State.new, root := fun _ => Root.new, nodeGraph := fun _ => none, isEdge := fun _ => false }

/-- Graph `g`: its root together with the whole heap. -/
def view (W : World) (g : Nat) : State :=
  { W.heap with allNodes := (W.root g).allNodes, allEdges := (W.root g).allEdges, byLabel := (W.root g).byLabel,
                nodeIx := (W.root g).nodeIx, edgeIx := (W.root g).edgeIx }

/-- edge.go:47-48, `Edge.GetGraph`: the graph of the source node. -/
def edgeGraph (W : World) (e : Nat) : Option Nat :=
  if W.isEdge e then W.nodeGraph (W.heap.eFrom e) else none

/-- The graph whose method is called: the receiver `g` for `Graph` methods, `node.graph` for node methods
(node.go:102-135), `edge.from.graph` for edge methods (edge.go:62-97). `none`: nil dereference. -/
def target (W : World) (g : Nat) : Op → Option Nat
  | .newNode _ _ => some g
  | .newEdge _ _ _ _ => some g
  | .addNodeIndex _ _ => some g
  | .addEdgeIndex _ _ => some g
  | .setLabels n _ => W.nodeGraph n
  | .setNodeProp n _ _ => W.nodeGraph n
  | .removeNodeProp n _ => W.nodeGraph n
  | .detach n => W.nodeGraph n
  | .detachRemove n => W.nodeGraph n
  | .setEdgeLabel e _ => W.edgeGraph e
  | .setEdgeProp e _ _ => W.edgeGraph e
  | .removeEdgeProp e _ => W.edgeGraph e
  | .removeEdge e => W.edgeGraph e

/-- graph.go:93-98: the check at the start of `FastNewEdge`. -/
def foreign (W : World) (g : Nat) : Op → Bool
  | .newEdge a b _ _ => W.nodeGraph a ≠ some g || W.nodeGraph b ≠ some g
  | _ => false

/-- The address allocated by an operation is a node (with its `graph` field set, graph.go:66) or an edge. -/
def alloc (W : World) (t : Nat) : Op → World
  | .newNode _ _ => { W with nodeGraph := upd W.nodeGraph W.heap.idBase (some t) }
  | .newEdge _ _ _ _ => { W with isEdge := upd W.isEdge W.heap.idBase true }
  | _ => W

/-- Store the result of an operation of graph `t` back. -/
def store (W : World) (t : Nat) (s : State) : World :=
  { W with heap := s,
           root := upd W.root t { allNodes := s.allNodes, allEdges := s.allEdges, byLabel := s.byLabel,
                                  nodeIx := s.nodeIx, edgeIx := s.edgeIx } }

/-- One call. The flag says that it panicked with the message of line 94 or 97 (graph.go); the world is then the
one before the call and the program may recover and go on. `none`: any other panic. -/
def step (W : World) (g : Nat) (op : Op) : Option (World × Bool) :=
  match W.target g op with
  | none => none
  | some t =>
    if W.foreign t op then some (W, true)
    else
      match LPG.step (W.view t) op with
      | none => none
      | some s => some ((W.alloc t op).store t s, false)

/-- A program: a sequence of calls, each on some graph. -/
def runFrom : World → List (Nat × Op) → Option World
  | W, [] => some W
  | W, (g, op) :: ops =>
    match W.step g op with
    | none => none
    | some (W, _) => runFrom W ops

def run (ops : List (Nat × Op)) : Option World := runFrom World.new ops

end World
end LPG
