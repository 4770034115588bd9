import Verif.Model.Clone
import Verif.Model.CopyF
/-!
# Copying graphs, with the iterators as they are (clone.go:31-64, edgemap.go:126-143, 188-211)

In `Verif.Model.Clone` and `Verif.Model.CopyF` the edges are listed before the loop that copies them. Here the loops read
the pointers when they come to them, with all the changes that the copies have made by then.
-/
namespace LPG

/-- The iterators of `edgeMap.iterator`: `emptyIterator`; `singleEdgeIterator` (edgemap.go:109-124); `allEdgesItr`
(edgemap.go:188-193). `labelListNext` is the position of the element in the list of lists. Simplification: a position is
the same as an element as long as no list is dropped, which only `edgeMap.remove` does. (`Verif.Model.EdgeHeap` has the
elements.) -/
inductive MapIt where
  | empty
  | single (edge : Option Nat) (done : Bool)
  | all (labelListNext next : Option Nat)

namespace EdgeMap

/-- `(*list.Element).Next` of the element at a position. -/
def listAfter (em : EdgeMap) (i : Nat) : Option Nat := if i + 1 < em.lists.length then some (i + 1) else none

/-- edgemap.go:126-143, `edgeMap.iterator`. -/
def mapIterator (em : EdgeMap) : MapIt :=
  if em.n = 0 then .empty
  else if em.n = 1 then .single em.only false
  else
    match em.lists with
    | [] => .all none none
    | p :: _ => .all (em.listAfter 0) p.2.head

/-- edgemap.go:195-211, `allEdgesItr.Next`, with the edge that it moves to. `none`: more lists than there are. -/
def nextOfAll (P : Slot) (em : EdgeMap) : Nat → Option Nat → Option Nat → Option (Option Nat × MapIt)
  | _, nl, some x => some (some x, .all nl (P x).next)
  | _, none, none => some (none, .all none none)
  | 0, some _, none => none
  | fuel + 1, some i, none =>
    match em.lists[i]? with
    | none => none
    | some p => nextOfAll P em fuel (em.listAfter i) p.2.head

/-- `Next` of an iterator over this edge map, with the edge that it moves to (`none`: it returns false). The pointers are
read as they are now. The outer `none`: it yields a nil edge. -/
def mapNext (P : Slot) (em : EdgeMap) : MapIt → Option (Option Nat × MapIt)
  | .empty => some (none, .empty)
  | .single e done => if done then some (none, .single e true) else e.map (fun x => (some x, .single e true))
  | .all nl nx => em.nextOfAll P em.lists.length nl nx

end EdgeMap

namespace World

mutual

/-- clone.go:57-64, `CopySubgraph`. -/
def copySubgraphLive (t : Nat) (f : String → Value → Value) (st : World × AMap Nat Nat) (n : Nat) :
    Option (World × AMap Nat Nat) :=
  if (st.2.get n).isSome then some st
  else do
    let r ← st.1.copyNode n t f
    copyOutLive t f (r.1, st.2.set n r.2) n (r.1.heap.outgoing n).mapIterator
partial_fixpoint

/-- clone.go:60-63: the loop over the outgoing edges of node `n`, from the iterator `it` on. -/
def copyOutLive (t : Nat) (f : String → Value → Value) (st : World × AMap Nat Nat) (n : Nat) (it : MapIt) :
    Option (World × AMap Nat Nat) := do
  let a ← (st.1.heap.outgoing n).mapNext st.1.heap.slot1 it
  match a.1 with
  | none => some st
  | some e =>
    let st ← copySubgraphLive t f st (st.1.heap.eTo e)
    let r ← st.1.copyEdge e t f st.2
    copyOutLive t f (r.1, st.2) n a.2
partial_fixpoint

end

end World

namespace CopyF
variable {ω : Type}

/-- clone.go:43-52: the loop over the edges, from the iterator `it` on. -/
def edgesLive (src : ω → State) (c : Funcs ω) (m : AMap Nat Nat) (w : ω) (it : MapIt) : Option ω := do
  let a ← (src w).allEdges.mapNext (src w).slot0 it
  match a.1 with
  | none => some w
  | some e =>
    if (m.get ((src w).eFrom e)).isNone then edgesLive src c m w a.2
    else if (m.get ((src w).eTo e)).isNone then edgesLive src c m w a.2
    else do
      let w ← c.edge e m w
      edgesLive src c m w a.2
partial_fixpoint

/-- clone.go:31-54, `CopyGraphf`. -/
def copyGraphfLive (src : ω → State) (c : Funcs ω) (w : ω) : Option (ω × AMap Nat Nat) := do
  let r ← nodes src c w (src w).allNodes.head []
  let w' ← edgesLive src c r.2 r.1 (src r.1).allEdges.mapIterator
  pure (w', r.2)

end CopyF

namespace World

/-- clone.go:22-29, `CopyGraph` with the functions given there. -/
def copyGraphLive (W : World) (s t : Nat) (f : String → Value → Value) : Option (World × AMap Nat Nat) :=
  CopyF.copyGraphfLive (fun W => W.view s) (CopyF.cloneFuncs t f (fun _ => true) (fun _ => true)) W

end World
end LPG
