import Verif.Model.World
/-!
# Copying graphs (clone.go, graph.go:436-448, 491-512, properties.go:226-232)

The functions are partial: `none` is a panic, or no return.
-/
namespace LPG

/-- properties.go:226-232, `clone`. The order of the keys is arbitrary. -/
def cloneProps (f : String → Value → Value) (ps : Props) : Props := ps.map (fun p => (p.1, f p.1 p.2))

namespace World

/-- graph.go:436-448, `cloneNode`: the copy of node `n` in graph `t`. The label set is shared by `StringSet.Clone`; sets
are never modified in place (see C22). -/
def cloneNode (W : World) (t n : Nat) (f : String → Value → Value) : Option (World × Nat) :=
  match (W.view t).newNode (W.heap.nLabels n) (cloneProps f (W.heap.nProps n)) with
  | none => none
  | some s => some ({ W with nodeGraph := upd W.nodeGraph W.heap.idBase (some t) }.store t s, W.heap.idBase)

/-- graph.go:491-512, `cloneEdge`, exported as `CloneEdge` (clone.go:77-79). `none` for a `nil` or foreign node. -/
def cloneEdge (W : World) (t : Nat) (src dst : Option Nat) (e : Nat) (f : String → Value → Value) :
    Option (World × Nat) :=
  match src, dst with
  | some a, some b =>
    if W.nodeGraph a ≠ some t then none
    else if W.nodeGraph b ≠ some t then none
    else
      match (W.view t).newEdge a b (W.heap.eLabel e) (cloneProps f (W.heap.eProps e)) with
      | none => none
      | some s => some ({ W with isEdge := upd W.isEdge W.heap.idBase true }.store t s, W.heap.idBase)
  | _, _ => none

/-- clone.go:67-69, `CopyNode`. -/
def copyNode (W : World) (n t : Nat) (f : String → Value → Value) : Option (World × Nat) := W.cloneNode t n f

/-- clone.go:72-74, `CopyEdge`. -/
def copyEdge (W : World) (e t : Nat) (f : String → Value → Value) (m : AMap Nat Nat) : Option (World × Nat) :=
  W.cloneEdge t (m.get (W.heap.eFrom e)) (m.get (W.heap.eTo e)) e f

/-- clone.go:36-42: the loop over the nodes, from the node that the iterator has read ahead (list.go:132-138). The
iterator reads the next node before the copy is made. -/
def copyNodes (t : Nat) (f : String → Value → Value) (W : World) (nxt : Option Nat) (m : AMap Nat Nat) :
    Option (World × AMap Nat Nat) :=
  match nxt with
  | none => some (W, m)
  | some n => do
    let r ← W.cloneNode t n f
    copyNodes t f r.1 (W.heap.nptr.next n) (m.set n r.2)
partial_fixpoint

/-- clone.go:43-52: the loop over the edges. -/
def copyEdges (t : Nat) (f : String → Value → Value) (m : AMap Nat Nat) : World → List Nat → Option World
  | W, [] => some W
  | W, e :: es =>
    if (m.get (W.heap.eFrom e)).isNone then copyEdges t f m W es
    else if (m.get (W.heap.eTo e)).isNone then copyEdges t f m W es
    else
      match W.copyEdge e t f m with
      | none => none
      | some r => copyEdges t f m r.1 es

/-- clone.go:22-54, `CopyGraph` and `CopyGraphf` with the functions given there. Simplification: the edges of the source
are listed before the loop. `Verif.Model.CloneLive` has the loop with the iterator; it does the same if source and target are
two graphs (`C37_live`). -/
def copyGraph (W : World) (s t : Nat) (f : String → Value → Value) : Option (World × AMap Nat Nat) := do
  let r ← copyNodes t f W (W.root s).allNodes.head []
  let es ← (r.1.view s).getEdges
  let W' ← copyEdges t f r.2 r.1 es
  pure (W', r.2)

/-- clone.go:57-64, `CopySubgraph`. Simplification: the outgoing edges of the node are listed before the loop.
`Verif.Model.CloneLive` has the loop with the iterator; it does the same (`C38_live`). -/
def copySubgraph (t : Nat) (f : String → Value → Value) (st : World × AMap Nat Nat) (n : Nat) :
    Option (World × AMap Nat Nat) :=
  if (st.2.get n).isSome then some st
  else do
    let r ← st.1.copyNode n t f
    let es ← r.1.heap.nodeEdges n .outgoing
    es.foldlM (fun st e => do
      let st ← copySubgraph t f st (st.1.heap.eTo e)
      let r ← st.1.copyEdge e t f st.2
      pure (r.1, st.2)) (r.1, st.2.set n r.2)
partial_fixpoint

end World
end LPG
