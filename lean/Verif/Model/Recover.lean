import Verif.Model.Graph
/-!
# Panics of a property index (graph.go, indexes.go, hashindex.go, btreeindex.go)

`Verif.Model.Graph` ends a history at a panic. Here a call that panics in a property index, because the value is not a map
key (hashindex.go:37, 52) or cannot be compared (properties.go:208), leaves behind what it has done so far, and the
program may recover and go on. The flag says that the call panicked. `none`: a nil dereference in the edge map of the
graph (see C49), or no return.
-/
namespace LPG

/-- The orders in which one call ranges over the properties of objects. A Go map may be visited in another order each time,
and a panic stops the loop, so what was done before it depends on the order. -/
structure MapOrder where
  order : Nat → Props → Props
  perm : ∀ id ps, (order id ps).Perm ps

/-- the order of the list that models the map -/
def MapOrder.listed : MapOrder := ⟨fun _ ps => ps, fun _ _ => .refl _⟩

/-- hashindex.go:27-43 and btreeindex.go:26-37, `add`. The hash index appends the item to its list before it looks at the
map. -/
def Index.tryAdd : Index → Value → Nat → Index × Bool
  | .btree t, v, id =>
    match SetTree.add t v id with
    | none => (.btree t, true)
    | some t => (.btree t, false)
  | .hash h, v, id =>
    match h.add v id with
    | none => (.hash { h with init := true, elements := h.elements ++ [(h.nextCell, id)], nextCell := h.nextCell + 1 }, true)
    | some h => (.hash h, false)

/-- graph.go:431-433, 548-550, indexes.go:113-117, 158-162: add to the index of a key if there is one. -/
def Indexes.tryAdd (ixs : Indexes) (key : String) (v : Value) (id : Nat) : Indexes × Bool :=
  match AMap.get ixs key with
  | none => (ixs, false)
  | some ix => (AMap.set ixs key (ix.tryAdd v id).1, (ix.tryAdd v id).2)

/-- indexes.go:112-118 and 157-163: the loop adding all properties of an object. -/
def Indexes.tryAddAll (id : Nat) : AMap String Value → Indexes → Indexes × Bool
  | [], ixs => (ixs, false)
  | (k, v) :: ps, ixs =>
    let r := Indexes.tryAdd ixs k v id
    if r.2 then r else Indexes.tryAddAll id ps r.1

/-- indexes.go:124-130 and 167-173: the loop removing all properties of an object. Both indexes look up the value before
they change anything (hashindex.go:52, btreeindex.go:43). -/
def Indexes.tryRemoveAll (id : Nat) : AMap String Value → Indexes → Indexes × Bool
  | [], ixs => (ixs, false)
  | (k, v) :: ps, ixs =>
    match Indexes.remove ixs k v id with
    | none => (ixs, true)
    | some ixs => Indexes.tryRemoveAll id ps ixs

/-- indexes.go:60-66 and 147-153: index all given objects that have the property. -/
def Index.tryAddObjects (key : String) (props : Nat → AMap String Value) : List Nat → Index → Index × Bool
  | [], ix => (ix, false)
  | x :: xs, ix =>
    match (props x).get key with
    | none => Index.tryAddObjects key props xs ix
    | some v =>
      let r := ix.tryAdd v x
      if r.2 then r else Index.tryAddObjects key props xs r.1

namespace State

/-- graph.go:48-73 `NewNode`/`FastNewNode`, 450-453 `addNode`, indexes.go:109-119 `addNodeToIndex`. -/
def tryNewNode (s : State) (labels : List String) (props : Props) : State × Bool :=
  let n := s.idBase
  let s := { s with
    idBase := n + 1,
    nptr := { next := upd s.nptr.next n none, prev := upd s.nptr.prev n none },
    nLabels := upd s.nLabels n labels, nProps := upd s.nProps n props,
    incoming := upd s.incoming n EdgeMap.empty, outgoing := upd s.outgoing n EdgeMap.empty }
  let r := s.allNodes.add s.nptr n
  let s := { s with nptr := r.1, allNodes := r.2, byLabel := s.byLabel.add n labels }
  let i := Indexes.tryAddAll n props s.nodeIx
  ({ s with nodeIx := i.1 }, i.2)

/-- graph.go:77-111, `NewEdge`/`FastNewEdge`, indexes.go:156-164 `addEdgeToIndex`. -/
def tryNewEdge (s : State) (src dst : Nat) (label : String) (props : Props) : Option (State × Bool) :=
  let e := s.idBase
  let s := { s with
    idBase := e + 1,
    eFrom := upd s.eFrom e src, eTo := upd s.eTo e dst, eLabel := upd s.eLabel e label,
    eProps := upd s.eProps e props,
    slot0 := upd s.slot0 e ⟨none, none⟩, slot1 := upd s.slot1 e ⟨none, none⟩,
    slot2 := upd s.slot2 e ⟨none, none⟩ }
  match s.allEdges.add s.slot0 s.eLabel e with
  | none => none
  | some (p0, m) =>
    let s := { s with slot0 := p0, allEdges := m }
    match s.connect e with
    | none => none
    | some s =>
      let i := Indexes.tryAddAll e props s.edgeIx
      some ({ s with edgeIx := i.1 }, i.2)

/-- graph.go:418-434, `setNodeProperty`. The old value is removed from the index, then the property is set, then the new
value is added to the index. -/
def trySetNodeProp (s : State) (n : Nat) (key : String) (v : Value) : State × Bool :=
  let removed := match (s.nProps n).get key with
    | none => some s.nodeIx
    | some old => Indexes.remove s.nodeIx key old n
  match removed with
  | none => (s, true)
  | some ixs =>
    let i := Indexes.tryAdd ixs key v n
    ({ s with nProps := upd s.nProps n ((s.nProps n).set key v), nodeIx := i.1 }, i.2)

/-- graph.go:455-468, `removeNodeProperty`. -/
def tryRemoveNodeProp (s : State) (n : Nat) (key : String) : State × Bool :=
  match s.removeNodeProp n key with
  | none => (s, true)
  | some s => (s, false)

/-- graph.go:478-480 and 484-486: the body of the loops of `detachNode`. -/
def tryDetachEdge (s : State) (o : MapOrder) (e : Nat) : State × Bool :=
  let s := (s.disconnect e).dropEdge e
  let i := Indexes.tryRemoveAll e (o.order e (s.eProps e)) s.edgeIx
  ({ s with edgeIx := i.1 }, i.2)

/-- The loops of `detachNode` over a slice of edges. -/
def tryDetachEdges : State → MapOrder → List Nat → State × Bool
  | s, _, [] => (s, false)
  | s, o, e :: es =>
    let r := s.tryDetachEdge o e
    if r.2 then r else r.1.tryDetachEdges o es

/-- graph.go:476-489, `detachNode`. -/
def tryDetachNode (s : State) (o : MapOrder) (n : Nat) : Option (State × Bool) :=
  match (s.incoming n).enum s.slot2 s.idBase with
  | none => none
  | some es =>
    let r := s.tryDetachEdges o es
    if r.2 then some r
    else
      let s := { r.1 with incoming := upd r.1.incoming n EdgeMap.empty }
      match (s.outgoing n).enum s.slot1 s.idBase with
      | none => none
      | some es =>
        let r := s.tryDetachEdges o es
        if r.2 then some r else some ({ r.1 with outgoing := upd r.1.outgoing n EdgeMap.empty }, false)

/-- graph.go:470-474, `detachRemoveNode`; indexes.go:121-131 `removeNodeFromIndex`. -/
def tryDetachRemoveNode (s : State) (o : MapOrder) (n : Nat) : Option (State × Bool) :=
  match s.tryDetachNode o n with
  | none => none
  | some (s, true) => some (s, true)
  | some (s, false) =>
    let r := s.allNodes.remove s.nptr n
    let s := { s with nptr := r.1, allNodes := r.2, byLabel := s.byLabel.remove n (s.nLabels n) }
    let i := Indexes.tryRemoveAll n (o.order n (s.nProps n)) s.nodeIx
    some ({ s with nodeIx := i.1 }, i.2)

/-- graph.go:535-551, `setEdgeProperty`. -/
def trySetEdgeProp (s : State) (e : Nat) (key : String) (v : Value) : State × Bool :=
  let removed := match (s.eProps e).get key with
    | none => some s.edgeIx
    | some old => Indexes.remove s.edgeIx key old e
  match removed with
  | none => (s, true)
  | some ixs =>
    let i := Indexes.tryAdd ixs key v e
    ({ s with eProps := upd s.eProps e ((s.eProps e).set key v), edgeIx := i.1 }, i.2)

/-- graph.go:553-566, `removeEdgeProperty`. -/
def tryRemoveEdgeProp (s : State) (e : Nat) (key : String) : State × Bool :=
  match s.removeEdgeProp e key with
  | none => (s, true)
  | some s => (s, false)

/-- graph.go:163-165, indexes.go:47-67, `AddNodePropertyIndex`. The index is entered into the map of indexes before it is
filled. -/
def tryAddNodeIndex (s : State) (key : String) (t : IndexType) : Option (State × Bool) :=
  match AMap.get s.nodeIx key with
  | some _ => some (s, false)
  | none =>
    match s.getNodes with
    | none => none
    | some ns =>
      let r := Index.tryAddObjects key s.nProps ns (Index.new t)
      some ({ s with nodeIx := AMap.set s.nodeIx key r.1 }, r.2)

/-- graph.go:158-160, indexes.go:134-154, `AddEdgePropertyIndex`. -/
def tryAddEdgeIndex (s : State) (key : String) (t : IndexType) : Option (State × Bool) :=
  match AMap.get s.edgeIx key with
  | some _ => some (s, false)
  | none =>
    match s.getEdges with
    | none => none
    | some es =>
      let r := Index.tryAddObjects key s.eProps es (Index.new t)
      some ({ s with edgeIx := AMap.set s.edgeIx key r.1 }, r.2)

end State

/-- One call under `recover`. -/
def tryStep (o : MapOrder) (s : State) : Op → Option (State × Bool)
  | .newNode ls ps => some (s.tryNewNode (newStringSet ls) ps)
  | .newEdge a b l ps => s.tryNewEdge a b l ps
  | .setLabels n ls => some (s.setLabels n ls, false)
  | .setNodeProp n k v => some (s.trySetNodeProp n k v)
  | .removeNodeProp n k => some (s.tryRemoveNodeProp n k)
  | .detach n => s.tryDetachNode o n
  | .detachRemove n => s.tryDetachRemoveNode o n
  | .setEdgeLabel e l => (s.setEdgeLabel e l).map (fun s => (s, false))
  | .setEdgeProp e k v => some (s.trySetEdgeProp e k v)
  | .removeEdgeProp e k => some (s.tryRemoveEdgeProp e k)
  | .removeEdge e => some (s.removeEdge e, false)
  | .addNodeIndex k t => s.tryAddNodeIndex k t
  | .addEdgeIndex k t => s.tryAddEdgeIndex k t

/-- A program that recovers from such panics, from a given state. -/
def tryRunFrom : State → List (MapOrder × Op) → Option State
  | s, [] => some s
  | s, (o, op) :: ops =>
    match tryStep o s op with
    | none => none
    | some (s, _) => tryRunFrom s ops

def tryRun (ops : List Op) : Option State := tryRunFrom State.new (ops.map (fun op => (MapOrder.listed, op)))

end LPG
