import Verif.Model.RecoverCopy
import Verif.Model.RecoverWorld
import Verif.Spec.RecoverNil
import Verif.Spec.World
/-!
# Programs with several graphs that recover from every panic

Apart from the property indexes, what such a program has done amounts to calls on its graphs, some of which were lost
(`Verif.Spec.RecoverNil`). Ids are unique in the whole program, so a lost call moves the next id of every graph.
-/
namespace LPG

namespace WSpec

/-- A call on graph `g`, or a lost call. -/
def stepLost (ω : WSpec) (g : Nat) : Option Op → WSpec
  | none => fun h => { ω h with next := (ω h).next + 1 }
  | some op => ω.step g op

def runLostFrom : WSpec → List (Nat × Option Op) → WSpec
  | ω, [] => ω
  | ω, (g, a) :: hist => runLostFrom (ω.stepLost g a) hist

def runLost (hist : List (Nat × Option Op)) : WSpec := runLostFrom new hist

def listingLostFrom (k : Nat) : WSpec → Listing → List (Nat × Option Op) → Listing
  | _, v, [] => v
  | ω, v, (g, none) :: hist => listingLostFrom k (ω.stepLost g none) v hist
  | ω, v, (g, some op) :: hist => listingLostFrom k (ω.step g op) (if g = k then v.step (ω g) op else v) hist

/-- what the enumeration of all nodes of graph `k` shows -/
def listingLost (k : Nat) (hist : List (Nat × Option Op)) : Listing := listingLostFrom k new Listing.empty hist

end WSpec

namespace World

/-- The same in the model, without recovering from other panics. -/
def stepLost (W : World) (g : Nat) : Option Op → Option World
  | none => some (W.store g (W.view g).leftNewEdge)
  | some op => (W.step g op).map Prod.fst

def runLostFrom : World → List (Nat × Option Op) → Option World
  | W, [] => some W
  | W, (g, a) :: hist => (W.stepLost g a).bind (fun W => runLostFrom W hist)

def runLost (hist : List (Nat × Option Op)) : Option World := runLostFrom World.new hist

/-- All graphs of `W` without their indexes are the graphs of `W0`. -/
structure Bared (W0 W : World) : Prop where
  nodes : W0.nodeGraph = W.nodeGraph
  edges : W0.isEdge = W.isEdge
  view : ∀ g, W0.view g = (W.view g).bare

end World

/-- A program that recovers from every panic has reached the world `W`, and what it did amounts to `hist`. Every call is on nodes
and edges of its graph. `cloneNode` and `cloneEdge` are the steps of `CopyGraph` and `CopySubgraph`, which take a node or an edge of any
graph, listed or not, and panic or return. An edge is lost if `GetEdges` of the target would yield a nil edge. -/
inductive SurvivedAll : World → List (Nat × Option Op) → Prop
  | new : SurvivedAll World.new []
  | call {W W' W0 : World} {hist : List (Nat × Option Op)} {eff : List (Option Op)} {g : Nat} {op : Op} {b : Bool} {o : MapOrder} :
      SurvivedAll W hist → (WSpec.runLost hist g).Valid op → W.recoverStep o g op = some (W', b) →
      (WSpec.runLost hist g).AmountsLost op b eff →
      (eff = [none] ↔ (W.view g).getEdges = none ∧ ∃ x y l ps, op = .newEdge x y l ps) →
      World.runLost (hist ++ eff.map (fun a => (g, a))) = some W0 → World.Bared W0 W' →
      SurvivedAll W' (hist ++ eff.map (fun a => (g, a)))
  | cloneNode {W : World} {hist : List (Nat × Option Op)} {s t n : Nat} {o : MapOrder} {f : String → Value → Value} :
      SurvivedAll W hist → W.nodeGraph n = some s →
      SurvivedAll (W.tryCloneNode o t n f).1 (hist ++ [(t, some (.newNode (W.heap.nLabels n) (cloneProps f (W.heap.nProps n))))])
  | cloneEdge {W W' : World} {hist : List (Nat × Option Op)} {s t e x y i : Nat} {b : Bool} {o : MapOrder} {f : String → Value → Value} :
      SurvivedAll W hist → W.edgeGraph e = some s → x ∈ (WSpec.runLost hist t).nodes → y ∈ (WSpec.runLost hist t).nodes →
      W.tryCloneEdge o t (some x) (some y) e f = some (W', i, b) →
      SurvivedAll W' (hist ++ [(t, if (W.view t).getEdges = none then none
        else some (.newEdge x y (W.heap.eLabel e) (cloneProps f (W.heap.eProps e))))])

end LPG
