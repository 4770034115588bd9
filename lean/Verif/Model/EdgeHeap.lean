import Verif.Model.Live
/-!
# Edge maps with references (edgemap.go), and edge iterators that are used while the graph changes

`Verif.Model.Lists` gives an edge map as a value. An iterator keeps pointers to the label lists of the map, though. Here
the label lists are objects with addresses, and the `container/list` and the Go map of an edge map are objects, too:
`lazyInit` makes new ones and the old ones stay as they are.
-/
namespace LPG

/-- edgemap.go:21-34, `edgeMap` with the objects that belong to it. An address is an `edgeLabelList` together with its
`list.Element`; a generation is the pair of a `container/list` and a Go map made by one call of `lazyInit` (0: the two nil
pointers of the zero value). `order g` is the list of generation `g`, `labelMap g` its map; `gen` is the generation that
the edge map uses. `ell` gives the field `edges` of the label lists, `free` the next address. No object belongs to two
edge maps. -/
structure HMap where
  order : Nat → List Nat
  labelMap : Nat → AMap String Nat
  ell : Nat → EList
  gen : Nat
  free : Nat
  only : Option Nat
  n : Int

namespace HMap

/-- The zero value `edgeMap{}`. -/
def empty : HMap :=
  { order := fun _ => [], labelMap := fun _ => [], ell := fun _ => { head := none, tail := none, n := 0 }, gen := 0,
    free := 0, only := none, n := 0 }

/-- edgemap.go:36-39, `lazyInit`. -/
def lazyInit (h : HMap) : HMap :=
  { h with gen := h.gen + 1, order := upd h.order (h.gen + 1) [], labelMap := upd h.labelMap (h.gen + 1) [] }

/-- The assignment of `edgeMap{}` to an edge map that exists (graph.go:482, 488). Objects that the map referred to stay. -/
def clear (h : HMap) : HMap := { h.lazyInit with only := none, n := 0 }

/-- edgemap.go:48-60, the closure `doAdd` for an edge with label `lbl`. -/
def doAdd (P : Slot) (h : HMap) (lbl : String) (e : Nat) : Slot × HMap :=
  match (h.labelMap h.gen).get lbl with
  | none =>
    let r := EList.add P { head := none, tail := none, n := 0 } e
    (r.1, { h with free := h.free + 1,
                   order := upd h.order h.gen (h.order h.gen ++ [h.free]),
                   labelMap := upd h.labelMap h.gen ((h.labelMap h.gen).set lbl h.free),
                   ell := upd h.ell h.free r.2 })
  | some a =>
    let r := (h.ell a).add P e
    (r.1, { h with ell := upd h.ell a r.2 })

/-- edgemap.go:41-71, `edgeMap.add`. `none`: nil pointer dereference in `doAdd(em.only)`. -/
def add (P : Slot) (label : Nat → String) (h : HMap) (e : Nat) : Option (Slot × HMap) :=
  if h.n = 0 then some (P, { h with only := some e, n := 1 })
  else if h.n = 1 then
    match h.only with
    | none => none
    | some o =>
      let r := h.lazyInit.doAdd P (label o) o
      let r := ({ r.2 with only := none }).doAdd r.1 (label e) e
      some (r.1, { r.2 with n := 2 })
  else
    let r := h.doAdd P (label e) e
    some (r.1, { r.2 with n := r.2.n + 1 })

/-- edgemap.go:92-95: a label list without edges leaves the list and the map. -/
def dropEmpty (h : HMap) (lbl : String) (a : Nat) : HMap :=
  if (h.ell a).n = 0 then
    { h with order := upd h.order h.gen ((h.order h.gen).filter (· ≠ a)),
             labelMap := upd h.labelMap h.gen ((h.labelMap h.gen).del lbl) }
  else h

/-- edgemap.go:97-102. The loop over the map assigns the head of the last list visited. -/
def shrink (h : HMap) : HMap :=
  if h.n = 1 then
    (match (h.labelMap h.gen).getLast? with
      | none => h
      | some (_, b) => { h with only := (h.ell b).head }).lazyInit
  else h

/-- edgemap.go:73-103, `edgeMap.remove`. -/
def remove (P : Slot) (label : Nat → String) (h : HMap) (e : Nat) : Slot × HMap :=
  if h.n = 0 then (P, h)
  else if h.n = 1 then
    if some e ≠ h.only then (P, h)
    else (P, { h with only := none, n := 0 })
  else
    match (h.labelMap h.gen).get (label e) with
    | none => (P, h)
    | some a =>
      let r := (h.ell a).remove P e
      let h := ({ h with ell := upd h.ell a r.2 }).dropEmpty (label e) a
      (r.1, ({ h with n := h.n - 1 }).shrink)

/-- edgemap.go:126-143 `edgeMap.iterator` and 188-211 `allEdgesItr`, run to its end at once. -/
def enum (P : Slot) (fuel : Nat) (h : HMap) : Option (List Nat) :=
  if h.n = 0 then some []
  else if h.n = 1 then h.only.map (fun e => [e])
  else concatOpt ((h.order h.gen).map (fun a => walk (fun x => (P x).next) fuel (h.ell a).head))

end HMap

/-- The graph of `Verif.Model.Graph`, with edge maps as in this file. The edge maps in `base` are not used. -/
structure HState where
  base : State
  incoming : Nat → HMap
  outgoing : Nat → HMap
  allEdges : HMap

namespace HState

/-- graph.go:41-46, `NewGraph`. -/
def new : HState :=
  { base := State.new, incoming := fun _ => HMap.empty, outgoing := fun _ => HMap.empty, allEdges := HMap.empty }

/-- graph.go:514-517, `connect`. -/
def connect (h : HState) (e : Nat) : Option HState :=
  match (h.incoming (h.base.eTo e)).add h.base.slot2 h.base.eLabel e with
  | none => none
  | some (p2, im) =>
    let h := { h with base := { h.base with slot2 := p2 }, incoming := upd h.incoming (h.base.eTo e) im }
    match (h.outgoing (h.base.eFrom e)).add h.base.slot1 h.base.eLabel e with
    | none => none
    | some (p1, om) =>
      some { h with base := { h.base with slot1 := p1 }, outgoing := upd h.outgoing (h.base.eFrom e) om }

/-- graph.go:519-522, `disconnect`. -/
def disconnect (h : HState) (e : Nat) : HState :=
  let r2 := (h.incoming (h.base.eTo e)).remove h.base.slot2 h.base.eLabel e
  let h := { h with base := { h.base with slot2 := r2.1 }, incoming := upd h.incoming (h.base.eTo e) r2.2 }
  let r1 := (h.outgoing (h.base.eFrom e)).remove h.base.slot1 h.base.eLabel e
  { h with base := { h.base with slot1 := r1.1 }, outgoing := upd h.outgoing (h.base.eFrom e) r1.2 }

/-- `g.allEdges.remove(edge, 0)` (graph.go:479, 485, 532). -/
def dropEdge (h : HState) (e : Nat) : HState :=
  let r := h.allEdges.remove h.base.slot0 h.base.eLabel e
  { h with base := { h.base with slot0 := r.1 }, allEdges := r.2 }

/-- graph.go:48-73, `NewNode`/`FastNewNode`. -/
def newNode (h : HState) (labels : List String) (props : Props) : Option HState :=
  match h.base.newNode labels props with
  | none => none
  | some b =>
    some { h with base := b, incoming := upd h.incoming h.base.idBase HMap.empty,
                  outgoing := upd h.outgoing h.base.idBase HMap.empty }

/-- graph.go:77-111, `NewEdge`/`FastNewEdge`. -/
def newEdge (h : HState) (src dst : Nat) (label : String) (props : Props) : Option HState :=
  let e := h.base.idBase
  let h := { h with base := { h.base with
    idBase := e + 1,
    eFrom := upd h.base.eFrom e src, eTo := upd h.base.eTo e dst, eLabel := upd h.base.eLabel e label,
    eProps := upd h.base.eProps e props,
    slot0 := upd h.base.slot0 e ⟨none, none⟩, slot1 := upd h.base.slot1 e ⟨none, none⟩,
    slot2 := upd h.base.slot2 e ⟨none, none⟩ } }
  match h.allEdges.add h.base.slot0 h.base.eLabel e with
  | none => none
  | some (p0, m) =>
    let h := { h with base := { h.base with slot0 := p0 }, allEdges := m }
    match h.connect e with
    | none => none
    | some h =>
      match Indexes.addAll e props h.base.edgeIx with
      | none => none
      | some ixs => some { h with base := { h.base with edgeIx := ixs } }

/-- graph.go:478-480 and 484-486. -/
def detachEdge (h : HState) (e : Nat) : Option HState :=
  let h := (h.disconnect e).dropEdge e
  match Indexes.removeAll e (h.base.eProps e) h.base.edgeIx with
  | none => none
  | some ixs => some { h with base := { h.base with edgeIx := ixs } }

/-- The loops of `detachNode` over a slice of edges. -/
def detachEdges : HState → List Nat → Option HState
  | h, [] => some h
  | h, e :: es =>
    match h.detachEdge e with
    | none => none
    | some h => h.detachEdges es

/-- graph.go:476-489, `detachNode`. -/
def detachNode (h : HState) (n : Nat) : Option HState :=
  match (h.incoming n).enum h.base.slot2 h.base.idBase with
  | none => none
  | some es =>
    match h.detachEdges es with
    | none => none
    | some h =>
      let h := { h with incoming := upd h.incoming n (h.incoming n).clear }
      match (h.outgoing n).enum h.base.slot1 h.base.idBase with
      | none => none
      | some es =>
        match h.detachEdges es with
        | none => none
        | some h => some { h with outgoing := upd h.outgoing n (h.outgoing n).clear }

/-- graph.go:470-474, `detachRemoveNode`. -/
def detachRemoveNode (h : HState) (n : Nat) : Option HState :=
  match h.detachNode n with
  | none => none
  | some h =>
    let r := h.base.allNodes.remove h.base.nptr n
    let b := { h.base with nptr := r.1, allNodes := r.2, byLabel := h.base.byLabel.remove n (h.base.nLabels n) }
    match Indexes.removeAll n (b.nProps n) b.nodeIx with
    | none => none
    | some ixs => some { h with base := { b with nodeIx := ixs } }

/-- graph.go:524-528, `setEdgeLabel`. -/
def setEdgeLabel (h : HState) (e : Nat) (label : String) : Option HState :=
  if label = h.base.eLabel e then some h
  else
    let h := h.disconnect e
    let h := { h with base := { h.base with eLabel := upd h.base.eLabel e label } }
    h.connect e

/-- graph.go:530-533, `removeEdge`. -/
def removeEdge (h : HState) (e : Nat) : HState := (h.disconnect e).dropEdge e

/-- graph.go:158-160, `AddEdgePropertyIndex`. -/
def addEdgeIndex (h : HState) (key : String) (t : IndexType) : Option HState :=
  match AMap.get h.base.edgeIx key with
  | some _ => some h
  | none =>
    match h.allEdges.enum h.base.slot0 h.base.idBase with
    | none => none
    | some es =>
      match Index.addObjects key h.base.eProps es (Index.new t) with
      | none => none
      | some ix => some { h with base := { h.base with edgeIx := AMap.set h.base.edgeIx key ix } }

/-- One operation. Those that do not touch an edge map are those of `Verif.Model.Graph`. -/
def step (h : HState) : Op → Option HState
  | .newNode ls ps => h.newNode (newStringSet ls) ps
  | .newEdge a b l ps => h.newEdge a b l ps
  | .detach n => h.detachNode n
  | .detachRemove n => h.detachRemoveNode n
  | .setEdgeLabel e l => h.setEdgeLabel e l
  | .removeEdge e => some (h.removeEdge e)
  | .addEdgeIndex k t => h.addEdgeIndex k t
  | op => (LPG.step h.base op).map (fun b => { h with base := b })

/-- A history, from a given state. -/
def runFrom : HState → List Op → Option HState
  | h, [] => some h
  | h, op :: ops =>
    match h.step op with
    | none => none
    | some h => runFrom h ops

/-- A history, from a new graph. -/
def run (ops : List Op) : Option HState := runFrom HState.new ops

end HState

/-! ## Iterators -/

/-- The iterators of edgemap.go, as objects: `emptyIterator`; `singleEdgeIterator` (109-124); `allEdgesItr` (188-193:
`labelListNext` is an element of the list of generation `g`, `next`); `edgeListIterator` (list.go:60-64, `next`); the
`funcIterator` of `iteratorAnyLabel` (170-184: the copy of the map has the Go map of generation `g`; `strings`; `current`
is an `edgeListIterator`). The fields that only `Value` reads are left out: the item is part of the result of `Next`. -/
inductive EdgeIt where
  | empty
  | single (edge : Option Nat) (done : Bool)
  | all (g : Nat) (labelListNext next : Option Nat)
  | list (next : Option Nat)
  | any (g : Nat) (strings : List String) (current : Option (Option Nat))
deriving DecidableEq

/-- `(*list.Element).Next` of an element of this list; nil for the last one, and for one that was removed from it. -/
def succIn : List Nat → Nat → Option Nat
  | [], _ => none
  | x :: xs, a => if x = a then xs.head? else succIn xs a

namespace HMap

/-- edgemap.go:126-143, `edgeMap.iterator`. -/
def iterator (h : HMap) : EdgeIt :=
  if h.n = 0 then .empty
  else if h.n = 1 then .single h.only false
  else
    match h.order h.gen with
    | [] => .all h.gen none none
    | a :: as => .all h.gen as.head? (h.ell a).head

/-- edgemap.go:145-158, `edgeMap.iteratorLabel`. `none`: nil dereference. -/
def iteratorLabel (h : HMap) (label : Nat → String) (l : String) : Option EdgeIt :=
  let byMap : EdgeIt := match (h.labelMap h.gen).get l with
    | none => .empty
    | some a => .list (h.ell a).head
  if h.n = 0 then some .empty
  else if h.n = 1 then
    match h.only with
    | none => none
    | some o => if l = label o then some (.single h.only false) else some byMap
  else some byMap

/-- edgemap.go:160-186, `edgeMap.iteratorAnyLabel`. -/
def iteratorAnyLabel (h : HMap) (label : Nat → String) (ls : List String) : Option EdgeIt :=
  if h.n = 0 then some .empty
  else if h.n = 1 then
    match h.only with
    | none => none
    | some o => if ls.contains (label o) then some (.single h.only false) else some .empty
  else some (.any h.gen ls none)

/-- edgemap.go:195-211, `allEdgesItr.Next` with the edge that it moves to. `none`: more label lists than the list has. -/
def allNext (P : Slot) (h : HMap) (g : Nat) : Nat → Option Nat → Option Nat → Option (Option Nat × EdgeIt)
  | _, nxt, some x => some (some x, .all g nxt (P x).next)
  | _, none, none => some (none, .all g none none)
  | 0, some _, none => none
  | fuel + 1, some a, none => allNext P h g fuel (succIn (h.order g) a) (h.ell a).head

/-- itr.go:162-174 and edgemap.go:172-183: the rest of the labels. -/
def anyNext (P : Slot) (h : HMap) (g : Nat) : List String → Option Nat × EdgeIt
  | [] => (none, .any g [] none)
  | l :: ls =>
    match (h.labelMap g).get l with
    | none => anyNext P h g ls
    | some a =>
      match (h.ell a).head with
      | none => anyNext P h g ls
      | some x => (some x, .any g ls (some (P x).next))

/-- `Next` of an iterator over this edge map, with the edge that it moves to (`none`: it returns false). The pointers are
read as they are now. The outer `none`: a nil edge is yielded, or `Next` does not return. -/
def adv (P : Slot) (h : HMap) : EdgeIt → Option (Option Nat × EdgeIt)
  | .empty => some (none, .empty)
  | .single e done => if done then some (none, .single e true) else e.map (fun x => (some x, .single e true))
  | .all g nxt next => h.allNext P g ((h.order g).length + 1) nxt next
  | .list (some x) => some (some x, .list (P x).next)
  | .list none => some (none, .list none)
  | .any g ls (some (some x)) => some (some x, .any g ls (some (P x).next))
  | .any g ls _ => some (h.anyNext P g ls)

end HMap

/-- Which edge map: all edges of the graph, or the outgoing or incoming edges of a node. -/
inductive Sel where
  | all
  | out (n : Nat)
  | inc (n : Nat)
deriving DecidableEq

/-- Which edges of the map: all, those with a label, or those with one of the labels. -/
inductive Want where
  | all
  | label (l : String)
  | any (ls : List String)

namespace HState

def sel (h : HState) : Sel → HMap
  | .all => h.allEdges
  | .out n => h.outgoing n
  | .inc n => h.incoming n

/-- The slot of `listElements` that the map uses. -/
def slot (h : HState) : Sel → Slot
  | .all => h.base.slot0
  | .out _ => h.base.slot1
  | .inc _ => h.base.slot2

/-- graph.go:144-146 and 153-155 (`m` is `all`), node.go:59-62, 72-75 and 85-94 for one direction: the iterators. The empty
set of labels means all edges for a node, and none for the graph. -/
def openEdges (m : Sel) (k : Want) (h : HState) : Option EdgeIt :=
  match k with
  | .all => some (h.sel m).iterator
  | .label l => (h.sel m).iteratorLabel h.base.eLabel l
  | .any ls =>
    match m, ls with
    | .all, ls => (h.sel m).iteratorAnyLabel h.base.eLabel ls
    | _, [] => some (h.sel m).iterator
    | _, ls => (h.sel m).iteratorAnyLabel h.base.eLabel ls

def adv (m : Sel) (h : HState) (it : EdgeIt) : Option (Option Nat × EdgeIt) := (h.sel m).adv (h.slot m) it

/-- A program that makes an iterator over the edge map `m`. -/
def liveEdges (m : Sel) (k : Want) (h : HState) (evs : List Event) : Option (List Seen × HState × EdgeIt) :=
  match h.openEdges m k with
  | none => none
  | some it => live HState.step (HState.adv m) h it evs

/-- itr.go:162-195, `MultiIterator`: the iterators that are left, the first of them is `current`. -/
def advMulti (h : HState) : List (Sel × EdgeIt) → Option (Option Nat × List (Sel × EdgeIt))
  | [] => some (none, [])
  | (m, it) :: its =>
    match h.adv m it with
    | none => none
    | some (some x, it) => some (some x, (m, it) :: its)
    | some (none, _) => advMulti h its

/-- node.go:64-66, 77-79 and 96-98: both directions. The two iterators are made before the first is used. -/
def openBoth (n : Nat) (k : Want) (h : HState) : Option (List (Sel × EdgeIt)) :=
  match h.openEdges (.inc n) k with
  | none => none
  | some i1 =>
    match h.openEdges (.out n) k with
    | none => none
    | some i2 => some [(.inc n, i1), (.out n, i2)]

/-- A program that makes an iterator over the edges of a node in both directions. -/
def liveBoth (n : Nat) (k : Want) (h : HState) (evs : List Event) : Option (List Seen × HState × List (Sel × EdgeIt)) :=
  match h.openBoth n k with
  | none => none
  | some its => live HState.step HState.advMulti h its evs

end HState
end LPG
