import Verif.Model.Lists
import Verif.Model.Index
import Verif.Model.Filter
/-!
# The graph (graph.go, node.go, edge.go)
-/
namespace LPG

abbrev Props := AMap String Value

/-- graph.go:32-37 `Graph`, node.go:24-32 `Node` (with `GetID`, node.go:54; `GetGraph`, node.go:44, is in
`Model/World.lean`), edge.go:23-32 `Edge`: every field of a node or an edge is a
function from ids. `slot0`, `slot1`, `slot2` are `listElements[0..2]` of the edges. -/
structure State where
  idBase : Nat
  nptr : NPtr
  allNodes : NList
  nLabels : Nat → List String
  nProps : Nat → Props
  incoming : Nat → EdgeMap
  outgoing : Nat → EdgeMap
  eFrom : Nat → Nat
  eTo : Nat → Nat
  eLabel : Nat → String
  eProps : Nat → Props
  slot0 : Slot
  slot1 : Slot
  slot2 : Slot
  allEdges : EdgeMap
  byLabel : NodeMap
  nodeIx : Indexes
  edgeIx : Indexes

/-- graph.go:41-46, `NewGraph`. -/
def State.new : State :=
  { idBase := 0,
    nptr := { next := fun _ => none, prev := fun _ => none },
    allNodes := { head := none, tail := none, n := 0 },
    nLabels := fun _ => [], nProps := fun _ => [],
    incoming := fun _ => EdgeMap.empty, outgoing := fun _ => EdgeMap.empty,
    eFrom := fun _ => 0, eTo := fun _ => 0, eLabel := fun _ => "", eProps := fun _ => [],
    slot0 := fun _ => ⟨none, none⟩, slot1 := fun _ => ⟨none, none⟩, slot2 := fun _ => ⟨none, none⟩,
    allEdges := EdgeMap.empty, byLabel := NodeMap.empty, nodeIx := [], edgeIx := [] }

namespace State

/-- graph.go:514-517, `connect`. `none`: nil dereference in `edgeMap.add`. -/
def connect (s : State) (e : Nat) : Option State :=
  match (s.incoming (s.eTo e)).add s.slot2 s.eLabel e with
  | none => none
  | some (p2, im) =>
    let s := { s with slot2 := p2, incoming := upd s.incoming (s.eTo e) im }
    match (s.outgoing (s.eFrom e)).add s.slot1 s.eLabel e with
    | none => none
    | some (p1, om) => some { s with slot1 := p1, outgoing := upd s.outgoing (s.eFrom e) om }

/-- graph.go:519-522, `disconnect`. -/
def disconnect (s : State) (e : Nat) : State :=
  let r2 := (s.incoming (s.eTo e)).remove s.slot2 s.eLabel e
  let s := { s with slot2 := r2.1, incoming := upd s.incoming (s.eTo e) r2.2 }
  let r1 := (s.outgoing (s.eFrom e)).remove s.slot1 s.eLabel e
  { s with slot1 := r1.1, outgoing := upd s.outgoing (s.eFrom e) r1.2 }

/-- `g.allEdges.remove(edge, 0)` (graph.go:479, 485, 532). -/
def dropEdge (s : State) (e : Nat) : State :=
  let r := s.allEdges.remove s.slot0 s.eLabel e
  { s with slot0 := r.1, allEdges := r.2 }

/-- graph.go:48-73 `NewNode`/`FastNewNode`, 450-453 `addNode`, indexes.go:109-119 `addNodeToIndex`. The new
object has zero values in the fields that are not set explicitly. `labels` is a set. -/
def newNode (s : State) (labels : List String) (props : Props) : Option State :=
  let n := s.idBase
  let s := { s with
    idBase := n + 1,
    nptr := { next := upd s.nptr.next n none, prev := upd s.nptr.prev n none },
    nLabels := upd s.nLabels n labels, nProps := upd s.nProps n props,
    incoming := upd s.incoming n EdgeMap.empty, outgoing := upd s.outgoing n EdgeMap.empty }
  let r := s.allNodes.add s.nptr n
  let s := { s with nptr := r.1, allNodes := r.2, byLabel := s.byLabel.add n labels }
  match Indexes.addAll n props s.nodeIx with
  | none => none
  | some ixs => some { s with nodeIx := ixs }

/-- graph.go:77-111, `NewEdge`/`FastNewEdge`, after the check that both nodes belong to this graph (see
`World` for the check), indexes.go:156-164 `addEdgeToIndex`. -/
def newEdge (s : State) (src dst : Nat) (label : String) (props : Props) : Option State :=
  let e := s.idBase
  let s := { s with
    idBase := e + 1,
    eFrom := upd s.eFrom e src, eTo := upd s.eTo e dst, eLabel := upd s.eLabel e label,
    eProps := upd s.eProps e props,
    slot0 := upd s.slot0 e ⟨none, none⟩, slot1 := upd s.slot1 e ⟨none, none⟩,
    slot2 := upd s.slot2 e ⟨none, none⟩ }
  match s.allEdges.add s.slot0 s.eLabel e with
  | none => none
  | some (p0, m) =>
    let s := { s with slot0 := p0, allEdges := m }
    match s.connect e with
    | none => none
    | some s =>
      match Indexes.addAll e props s.edgeIx with
      | none => none
      | some ixs => some { s with edgeIx := ixs }

/-- graph.go:413-416, `setNodeLabels`. -/
def setLabels (s : State) (n : Nat) (labels : List String) : State :=
  { s with byLabel := s.byLabel.replace n (s.nLabels n) labels, nLabels := upd s.nLabels n labels }

/-- graph.go:418-434, `setNodeProperty`. -/
def setNodeProp (s : State) (n : Nat) (key : String) (v : Value) : Option State :=
  let removed := match (s.nProps n).get key with
    | none => some s.nodeIx
    | some old => Indexes.remove s.nodeIx key old n
  match removed with
  | none => none
  | some ixs =>
    match Indexes.add ixs key v n with
    | none => none
    | some ixs => some { s with nProps := upd s.nProps n ((s.nProps n).set key v), nodeIx := ixs }

/-- graph.go:455-468, `removeNodeProperty`. -/
def removeNodeProp (s : State) (n : Nat) (key : String) : Option State :=
  match (s.nProps n).get key with
  | none => some s
  | some old =>
    match Indexes.remove s.nodeIx key old n with
    | none => none
    | some ixs => some { s with nProps := upd s.nProps n ((s.nProps n).del key), nodeIx := ixs }

/-- graph.go:478-480 and 484-486: the body of the loops of `detachNode`; indexes.go:166-174
`removeEdgeFromIndex`. -/
def detachEdge (s : State) (e : Nat) : Option State :=
  let s := (s.disconnect e).dropEdge e
  match Indexes.removeAll e (s.eProps e) s.edgeIx with
  | none => none
  | some ixs => some { s with edgeIx := ixs }

/-- The loops of `detachNode` over a slice of edges. -/
def detachEdges : State → List Nat → Option State
  | s, [] => some s
  | s, e :: es =>
    match s.detachEdge e with
    | none => none
    | some s => s.detachEdges es

/-- graph.go:476-489, `detachNode`. The slices are taken before the loops (`EdgeSlice`). -/
def detachNode (s : State) (n : Nat) : Option State :=
  match (s.incoming n).enum s.slot2 s.idBase with
  | none => none
  | some es =>
    match s.detachEdges es with
    | none => none
    | some s =>
      let s := { s with incoming := upd s.incoming n EdgeMap.empty }
      match (s.outgoing n).enum s.slot1 s.idBase with
      | none => none
      | some es =>
        match s.detachEdges es with
        | none => none
        | some s => some { s with outgoing := upd s.outgoing n EdgeMap.empty }

/-- graph.go:470-474, `detachRemoveNode`; indexes.go:121-131 `removeNodeFromIndex`. -/
def detachRemoveNode (s : State) (n : Nat) : Option State :=
  match s.detachNode n with
  | none => none
  | some s =>
    let r := s.allNodes.remove s.nptr n
    let s := { s with nptr := r.1, allNodes := r.2, byLabel := s.byLabel.remove n (s.nLabels n) }
    match Indexes.removeAll n (s.nProps n) s.nodeIx with
    | none => none
    | some ixs => some { s with nodeIx := ixs }

/-- edge.go:62-66 `SetLabel`, graph.go:524-528 `setEdgeLabel`. `allEdges` is not touched. -/
def setEdgeLabel (s : State) (e : Nat) (label : String) : Option State :=
  if label = s.eLabel e then some s
  else
    let s := s.disconnect e
    let s := { s with eLabel := upd s.eLabel e label }
    s.connect e

/-- graph.go:530-533, `removeEdge`. The property index of the edges is not touched. -/
def removeEdge (s : State) (e : Nat) : State := (s.disconnect e).dropEdge e

/-- graph.go:535-551, `setEdgeProperty`. -/
def setEdgeProp (s : State) (e : Nat) (key : String) (v : Value) : Option State :=
  let removed := match (s.eProps e).get key with
    | none => some s.edgeIx
    | some old => Indexes.remove s.edgeIx key old e
  match removed with
  | none => none
  | some ixs =>
    match Indexes.add ixs key v e with
    | none => none
    | some ixs => some { s with eProps := upd s.eProps e ((s.eProps e).set key v), edgeIx := ixs }

/-- graph.go:553-566, `removeEdgeProperty`. -/
def removeEdgeProp (s : State) (e : Nat) (key : String) : Option State :=
  match (s.eProps e).get key with
  | none => some s
  | some old =>
    match Indexes.remove s.edgeIx key old e with
    | none => none
    | some ixs => some { s with eProps := upd s.eProps e ((s.eProps e).del key), edgeIx := ixs }

/-! ## Queries -/

/-- graph.go:127-129 `GetNodes`, list.go:125-150, run to its end. -/
def getNodes (s : State) : Option (List Nat) := walk s.nptr.next s.idBase s.allNodes.head

/-- graph.go:114-116, `NumNodes`. -/
def numNodes (s : State) : Int := s.allNodes.n

/-- graph.go:119-121 `NumEdges`. -/
def numEdges (s : State) : Int := s.allEdges.n

/-- graph.go:144-146, `GetEdges`, run to its end. -/
def getEdges (s : State) : Option (List Nat) := s.allEdges.enum s.slot0 s.idBase

/-- graph.go:153-155, `GetEdgesWithAnyLabel`, run to its end. -/
def getEdgesWithAnyLabel (s : State) (ls : List String) : Option (List Nat) :=
  s.allEdges.enumAny s.slot0 s.eLabel s.idBase ls

/-- graph.go:136-138, `GetNodesWithAllLabels`, run to its end. `none`: panic. -/
def getNodesWithAllLabels (s : State) (ls : List String) : Option (List Nat) :=
  (s.byLabel.allLabels s.nLabels ls).map Prod.fst

/-- edge.go:35-42, `EdgeDir`. -/
inductive Dir where
  | incoming
  | any
  | outgoing
deriving DecidableEq, Repr

/-- Concatenation of two iterators (itr.go:183-194 `MultiIterator`). -/
def cat2 (a b : Option (List Nat)) : Option (List Nat) :=
  match a, b with
  | some xs, some ys => some (xs ++ ys)
  | _, _ => none

/-- node.go:57-67, `Node.GetEdges`, run to its end. -/
def nodeEdges (s : State) (n : Nat) : Dir → Option (List Nat)
  | .incoming => (s.incoming n).enum s.slot2 s.idBase
  | .outgoing => (s.outgoing n).enum s.slot1 s.idBase
  | .any => cat2 ((s.incoming n).enum s.slot2 s.idBase) ((s.outgoing n).enum s.slot1 s.idBase)

/-- node.go:70-80, `Node.GetEdgesWithLabel`, run to its end. -/
def nodeEdgesWithLabel (s : State) (n : Nat) (l : String) : Dir → Option (List Nat)
  | .incoming => (s.incoming n).enumLabel s.slot2 s.eLabel s.idBase l
  | .outgoing => (s.outgoing n).enumLabel s.slot1 s.eLabel s.idBase l
  | .any => cat2 ((s.incoming n).enumLabel s.slot2 s.eLabel s.idBase l)
      ((s.outgoing n).enumLabel s.slot1 s.eLabel s.idBase l)

/-- node.go:84-93: one direction of `GetEdgesWithAnyLabel`; an empty set means all edges. -/
def nodeEdgesAny1 (s : State) (em : EdgeMap) (p : Slot) (ls : List String) : Option (List Nat) :=
  if ls.length = 0 then em.enum p s.idBase else em.enumAny p s.eLabel s.idBase ls

/-- node.go:83-99, `Node.GetEdgesWithAnyLabel`, run to its end. -/
def nodeEdgesWithAnyLabel (s : State) (n : Nat) (ls : List String) : Dir → Option (List Nat)
  | .incoming => s.nodeEdgesAny1 (s.incoming n) s.slot2 ls
  | .outgoing => s.nodeEdgesAny1 (s.outgoing n) s.slot1 ls
  | .any => cat2 (s.nodeEdgesAny1 (s.incoming n) s.slot2 ls) (s.nodeEdgesAny1 (s.outgoing n) s.slot1 ls)

/-- graph.go:163-165, indexes.go:47-67, `AddNodePropertyIndex`. -/
def addNodeIndex (s : State) (key : String) (t : IndexType) : Option State :=
  match AMap.get s.nodeIx key with
  | some _ => some s
  | none =>
    match s.getNodes with
    | none => none
    | some ns =>
      match Index.addObjects key s.nProps ns (Index.new t) with
      | none => none
      | some ix => some { s with nodeIx := AMap.set s.nodeIx key ix }

/-- graph.go:158-160, indexes.go:134-154, `AddEdgePropertyIndex`. -/
def addEdgeIndex (s : State) (key : String) (t : IndexType) : Option State :=
  match AMap.get s.edgeIx key with
  | some _ => some s
  | none =>
    match s.getEdges with
    | none => none
    | some es =>
      match Index.addObjects key s.eProps es (Index.new t) with
      | none => none
      | some ix => some { s with edgeIx := AMap.set s.edgeIx key ix }

end State

/-- stringset.go:27-33, `NewStringSet`: the distinct strings of a slice. -/
def newStringSet (l : List String) : List String := l.eraseDups

/-- The public operations that change a graph. Handles are ids of this graph; `StringSet` arguments are lists
without duplicates and property maps have distinct keys (`Spec.Valid`). -/
inductive Op where
  | newNode (labels : List String) (props : Props)
  | newEdge (src dst : Nat) (label : String) (props : Props)
  | setLabels (n : Nat) (labels : List String)
  | setNodeProp (n : Nat) (key : String) (v : Value)
  | removeNodeProp (n : Nat) (key : String)
  | detach (n : Nat)
  | detachRemove (n : Nat)
  | setEdgeLabel (e : Nat) (label : String)
  | setEdgeProp (e : Nat) (key : String) (v : Value)
  | removeEdgeProp (e : Nat) (key : String)
  | removeEdge (e : Nat)
  | addNodeIndex (key : String) (t : IndexType)
  | addEdgeIndex (key : String) (t : IndexType)

/-- One operation. `none`: the call panics or does not return. `NewNode` builds a set from the slice of labels
(graph.go:57). -/
def step (s : State) : Op → Option State
  | .newNode ls ps => s.newNode (newStringSet ls) ps
  | .newEdge a b l ps => s.newEdge a b l ps
  | .setLabels n ls => some (s.setLabels n ls)
  | .setNodeProp n k v => s.setNodeProp n k v
  | .removeNodeProp n k => s.removeNodeProp n k
  | .detach n => s.detachNode n
  | .detachRemove n => s.detachRemoveNode n
  | .setEdgeLabel e l => s.setEdgeLabel e l
  | .setEdgeProp e k v => s.setEdgeProp e k v
  | .removeEdgeProp e k => s.removeEdgeProp e k
  | .removeEdge e => some (s.removeEdge e)
  | .addNodeIndex k t => s.addNodeIndex k t
  | .addEdgeIndex k t => s.addEdgeIndex k t

/-- A history, from a given state. -/
def runFrom : State → List Op → Option State
  | s, [] => some s
  | s, op :: ops =>
    match step s op with
    | none => none
    | some s => runFrom s ops

/-- A history, from a new graph. -/
def run (ops : List Op) : Option State := runFrom State.new ops

end LPG
