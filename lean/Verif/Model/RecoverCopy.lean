import Verif.Model.Clone
import Verif.Model.RecoverNil
/-!
# Panics of copying (clone.go, graph.go:436-448, 491-512)

`Verif.Model.Clone` has `none` for a panic. Here a copy leaves behind what it has done so far, and the program may recover and go
on. The functions are those of `Verif.Model.Clone`; the flag says that the call panicked. `none`: no return. The simplifications
are those of `Verif.Model.Clone`. `clonePropertyFunc` returns.
-/
namespace LPG
namespace World

/-- graph.go:436-448, `cloneNode`. The index panics after the node is in the lists (graph.go:446, 450-453). `o` is the order
in which `addNodeToIndex` (indexes.go:109-119) ranges over the new properties. -/
def tryCloneNode (o : MapOrder) (W : World) (t n : Nat) (f : String → Value → Value) : World × Nat × Bool :=
  let ps := cloneProps f (W.heap.nProps n)
  let r := (W.view t).tryNewNode (W.heap.nLabels n) ps
  let i := Indexes.tryAddAll W.heap.idBase (o.order W.heap.idBase ps) (W.root t).nodeIx
  ({ W with nodeGraph := upd W.nodeGraph W.heap.idBase (some t) }.store t { r.1 with nodeIx := i.1 }, W.heap.idBase, i.2)

/-- graph.go:491-512, `cloneEdge`. A nil or foreign node panics at the start (lines 492-497). If the edge map of the target has a
nil pointer (see C49), line 508 panics. The index panics when the edge is in the lists (line 510). -/
def tryCloneEdge (o : MapOrder) (W : World) (t : Nat) (src dst : Option Nat) (e : Nat) (f : String → Value → Value) :
    Option (World × Nat × Bool) :=
  match src, dst with
  | some a, some b =>
    if W.nodeGraph a ≠ some t then some (W, 0, true)
    else if W.nodeGraph b ≠ some t then some (W, 0, true)
    else
      let ps := cloneProps f (W.heap.eProps e)
      match (W.view t).tryNewEdge a b (W.heap.eLabel e) ps with
      | none => if (W.view t).NilEdge then some (W.store t (W.view t).leftNewEdge, 0, true) else none
      | some r =>
        let i := Indexes.tryAddAll W.heap.idBase (o.order W.heap.idBase ps) (W.root t).edgeIx
        some ({ W with isEdge := upd W.isEdge W.heap.idBase true }.store t { r.1 with edgeIx := i.1 }, W.heap.idBase, i.2)
  | _, _ => some (W, 0, true)

/-- clone.go:72-74, `CopyEdge`. -/
def tryCopyEdge (o : MapOrder) (W : World) (e t : Nat) (f : String → Value → Value) (m : AMap Nat Nat) :
    Option (World × Nat × Bool) :=
  W.tryCloneEdge o t (m.get (W.heap.eFrom e)) (m.get (W.heap.eTo e)) e f

/-- clone.go:36-42: the loop over the nodes. -/
def tryCopyNodes (o : MapOrder) (t : Nat) (f : String → Value → Value) (W : World) (nxt : Option Nat) (m : AMap Nat Nat) :
    Option (World × AMap Nat Nat × Bool) :=
  match nxt with
  | none => some (W, m, false)
  | some n =>
    if (W.tryCloneNode o t n f).2.2 then some ((W.tryCloneNode o t n f).1, m, true)
    else tryCopyNodes o t f (W.tryCloneNode o t n f).1 (W.heap.nptr.next n) (m.set n (W.tryCloneNode o t n f).2.1)
partial_fixpoint

/-- clone.go:43-52: the loop over the edges. -/
def tryCopyEdges (o : MapOrder) (t : Nat) (f : String → Value → Value) (m : AMap Nat Nat) : World → List Nat → Option (World × Bool)
  | W, [] => some (W, false)
  | W, e :: es =>
    if (m.get (W.heap.eFrom e)).isNone then tryCopyEdges o t f m W es
    else if (m.get (W.heap.eTo e)).isNone then tryCopyEdges o t f m W es
    else
      match W.tryCopyEdge o e t f m with
      | none => none
      | some r => if r.2.2 then some (r.1, true) else tryCopyEdges o t f m r.1 es

/-- clone.go:22-54, `CopyGraph`. The map is the one that the call was building. -/
def tryCopyGraph (o : MapOrder) (W : World) (s t : Nat) (f : String → Value → Value) : Option (World × AMap Nat Nat × Bool) :=
  match tryCopyNodes o t f W (W.root s).allNodes.head [] with
  | none => none
  | some (W, m, true) => some (W, m, true)
  | some (W, m, false) =>
    match (W.view s).getEdges with
    | none => none
    | some es =>
      match tryCopyEdges o t f m W es with
      | none => none
      | some (W, b) => some (W, m, b)

/-- clone.go:57-64, `CopySubgraph`. A node whose copy panics does not get into the map. -/
def tryCopySubgraph (o : MapOrder) (t : Nat) (f : String → Value → Value) (st : World × AMap Nat Nat) (n : Nat) :
    Option ((World × AMap Nat Nat) × Bool) :=
  if (st.2.get n).isSome then some (st, false)
  else if (st.1.tryCloneNode o t n f).2.2 then some (((st.1.tryCloneNode o t n f).1, st.2), true)
  else do
    let es ← (st.1.tryCloneNode o t n f).1.heap.nodeEdges n .outgoing
    es.foldlM (fun (a : (World × AMap Nat Nat) × Bool) e =>
      if a.2 then pure a
      else do
        let b ← tryCopySubgraph o t f a.1 (a.1.1.heap.eTo e)
        if b.2 then pure b
        else do
          let r ← b.1.1.tryCopyEdge o e t f b.1.2
          pure ((r.1, b.1.2), r.2.2))
      (((st.1.tryCloneNode o t n f).1, st.2.set n (st.1.tryCloneNode o t n f).2.1), false)
partial_fixpoint

end World
end LPG
