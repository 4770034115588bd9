import Verif.Model.LiveProps
/-!
# Programs with any number of iterators (nested loops)

`Verif.Model.Live`, `EdgeHeap`, `LabelHeap` and `LiveProps` have programs with one iterator each, on three models of the graph.
Here one model of the graph has the references of all of them, and a program makes as many iterators as it likes, of all kinds
and at any time, as in

    for nodes := g.GetNodes(); nodes.Next(); {
        for edges := nodes.Node().GetEdges(OutgoingEdge); edges.Next(); { ... }
    }
-/
namespace LPG

/-- What the program does next: make an iterator, call `Next` of the iterator that it made as number `i`, or call an operation. -/
inductive Ev (κ : Type) where
  | make (c : κ)
  | next (i : Nat)
  | op (o : Op)

/-- What happened. -/
inductive Saw where
  | made
  | item (i x : Nat)
  | last (i : Nat)
  | did (o : Op)

/-- A program with iterators. `mk` makes one. `none`: a call panics or does not return, or there is no such iterator. -/
def liveMany {S ι κ : Type} (stp : S → Op → Option S) (mk : S → κ → Option ι) (adv : S → ι → Option (Option Nat × ι)) :
    S → List ι → List (Ev κ) → Option (List Saw × S × List ι)
  | s, its, [] => some ([], s, its)
  | s, its, .make c :: evs =>
    match mk s c with
    | none => none
    | some it =>
      match liveMany stp mk adv s (its ++ [it]) evs with
      | none => none
      | some (log, z) => some (.made :: log, z)
  | s, its, .next i :: evs =>
    match its[i]? with
    | none => none
    | some it =>
      match adv s it with
      | none => none
      | some (r, it) =>
        match liveMany stp mk adv s (its.set i it) evs with
        | none => none
        | some (log, z) =>
          some ((match r with
            | some x => Saw.item i x
            | none => Saw.last i) :: log, z)
  | s, its, .op o :: evs =>
    match stp s o with
    | none => none
    | some s =>
      match liveMany stp mk adv s its evs with
      | none => none
      | some (log, z) => some (.did o :: log, z)

/-- The graph with the references of its edge maps (`HState`) and of its label index (`LMap`). -/
structure FState where
  h : HState
  lbl : LMap

/-- The calls that make an iterator: `GetNodes`; `GetNodesWithAllLabels`; the edges of the graph or of a node in one direction
(`Sel`), all of them or by label (`Want`); the edges of a node in both directions; `GetNodesWithProperty` and
`GetEdgesWithProperty`. -/
inductive Source where
  | nodes
  | labels (ls : List String)
  | edges (m : Sel) (w : Want)
  | both (n : Nat) (w : Want)
  | nodeProp (k : String)
  | edgeProp (k : String)

/-- The iterators that they return, with what `Next` looks at beside the graph. -/
inductive AnyIt where
  | nodes (it : NodeIt)
  | labels (ls : List String) (it : LblIt)
  | edges (m : Sel) (it : EdgeIt)
  | both (its : List (Sel × EdgeIt))
  | nodeCells (k : String) (it : Option (Nat × Nat))
  | edgeCells (k : String) (it : Option (Nat × Nat))
  | nodeScan (k : String) (it : NodeIt)
  | edgeScan (k : String) (it : EdgeIt)

namespace FState

/-- graph.go:41-46, `NewGraph`. -/
def new : FState := { h := HState.new, lbl := LMap.empty }

/-- One operation. -/
def step (f : FState) (op : Op) : Option FState :=
  match f.h.step op with
  | none => none
  | some h => some { h := h, lbl := (LState.mk f.h.base f.lbl).lblStep op }

/-- A history, from a given state. -/
def runFrom : FState → List Op → Option FState
  | f, [] => some f
  | f, op :: ops =>
    match f.step op with
    | none => none
    | some f => runFrom f ops

/-- A history, from a new graph. -/
def run (ops : List Op) : Option FState := runFrom FState.new ops

/-- Making an iterator: graph.go:127-129, 132-134, 144-146, 153-155, 173-189, 197-214, node.go:57-99. `none`: the call panics, or
the iterator would be one over a btree index, which is not modelled. -/
def make (f : FState) : Source → Option AnyIt
  | .nodes => some (.nodes f.h.base.openNodes)
  | .labels ls => ((LState.mk f.h.base f.lbl).openLabels ls).map (.labels ls)
  | .edges m w => (f.h.openEdges m w).map (.edges m)
  | .both n w => (f.h.openBoth n w).map .both
  | .nodeProp k =>
    match AMap.get f.h.base.nodeIx k with
    | none => some (.nodeScan k f.h.base.openNodes)
    | some _ => (hashCells f.h.base.nodeIx k).map (fun l => .nodeCells k l.head?)
  | .edgeProp k =>
    match AMap.get f.h.base.edgeIx k with
    | none => (f.h.openEdges .all .all).map (.edgeScan k)
    | some _ => (hashCells f.h.base.edgeIx k).map (fun l => .edgeCells k l.head?)

/-- `Next` of these iterators, in the graph as it is now. -/
def adv (f : FState) : AnyIt → Option (Option Nat × AnyIt)
  | .nodes it => (NodeIt.adv f.h.base it).map (fun r => (r.1, .nodes r.2))
  | .labels ls it => (LState.advLabels ls (LState.mk f.h.base f.lbl) it).map (fun r => (r.1, .labels ls r.2))
  | .edges m it => (f.h.adv m it).map (fun r => (r.1, .edges m r.2))
  | .both its => (f.h.advMulti its).map (fun r => (r.1, .both r.2))
  | .nodeCells k it => (advCells State.nodeIx k f.h.base it).map (fun r => (r.1, .nodeCells k r.2))
  | .edgeCells k it => (advCells State.edgeIx k f.h.base it).map (fun r => (r.1, .edgeCells k r.2))
  | .nodeScan k it => (scanNodes k f.h.base (f.h.base.idBase + 1) it).map (fun r => (r.1, .nodeScan k r.2))
  | .edgeScan k it => (scanEdges k f.h (scanFuel f.h it) it).map (fun r => (r.1, .edgeScan k r.2))

/-- A program that starts with a new graph. -/
def program (evs : List (Ev Source)) : Option (List Saw × FState × List AnyIt) :=
  liveMany FState.step FState.make FState.adv FState.new [] evs

end FState
end LPG
