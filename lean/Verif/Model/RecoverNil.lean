import Verif.Model.Recover
/-!
# Panics of the edge map of the graph (graph.go, indexes.go, edgemap.go)

`Verif.Model.Recover` ends a program at a nil dereference in the edge map of the graph (see C49). Here such a call, too,
leaves behind what it has done so far, and the program may recover and go on.
-/
namespace LPG
namespace State

/-- The edge map of the graph counts one edge, and its `only` is nil (edgemap.go:26-34). -/
def NilEdge (s : State) : Prop := s.allEdges.n = 1 ∧ s.allEdges.only = none

instance (s : State) : Decidable s.NilEdge := inferInstanceAs (Decidable (_ ∧ _))

/-- graph.go:92-111 `FastNewEdge` up to the panic at edgemap.go:51, `e.label` in `doAdd(em.only)`: an id is used up
(graph.go:106), and `lazyInit` (edgemap.go:36-39, 62) has replaced the lists. The new edge is not reachable from anywhere,
so its fields are left out. -/
def leftNewEdge (s : State) : State :=
  { s with idBase := s.idBase + 1, allEdges := { s.allEdges with lists := [] } }

/-- indexes.go:134-154 `EdgePropertyIndex` up to the panic at line 149, `edge.properties`: the empty index is already
registered (line 145). -/
def leftEdgeIndex (s : State) (key : String) (t : IndexType) : State :=
  { s with edgeIx := AMap.set s.edgeIx key (Index.new t) }

end State

/-- One call under `recover`, whatever it panics with. -/
def recoverStep (o : MapOrder) (s : State) (op : Op) : Option (State × Bool) :=
  match tryStep o s op with
  | some r => some r
  | none =>
    if s.NilEdge then
      match op with
      | .newEdge _ _ _ _ => some (s.leftNewEdge, true)
      | .addEdgeIndex k t => some (s.leftEdgeIndex k t, true)
      | _ => none
    else none

/-- A program that recovers from every panic, from a given state. -/
def recoverRunFrom : State → List (MapOrder × Op) → Option State
  | s, [] => some s
  | s, (o, op) :: ops =>
    match recoverStep o s op with
    | none => none
    | some (s, _) => recoverRunFrom s ops

end LPG
