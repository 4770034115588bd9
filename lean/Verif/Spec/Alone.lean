import Verif.Model.World
/-!
# A graph among others and the same graph alone

The ids of a graph that is alone are 0, 1, 2, … in the order of creation, as `Graph.idBase` (graph.go:69-70, 103-106) counts
them per graph. In a `World` the objects of all graphs share one supply of addresses. A renaming `ρ` takes the id of an
object to its address.
-/
namespace LPG

/-- The handles of a call renamed. -/
def Op.ren (ρ : Nat → Nat) : Op → Op
  | .newNode ls ps => .newNode ls ps
  | .newEdge a b l ps => .newEdge (ρ a) (ρ b) l ps
  | .setLabels n ls => .setLabels (ρ n) ls
  | .setNodeProp n k v => .setNodeProp (ρ n) k v
  | .removeNodeProp n k => .removeNodeProp (ρ n) k
  | .detach n => .detach (ρ n)
  | .detachRemove n => .detachRemove (ρ n)
  | .setEdgeLabel e l => .setEdgeLabel (ρ e) l
  | .setEdgeProp e k v => .setEdgeProp (ρ e) k v
  | .removeEdgeProp e k => .removeEdgeProp (ρ e) k
  | .removeEdge e => .removeEdge (ρ e)
  | .addNodeIndex k t => .addNodeIndex k t
  | .addEdgeIndex k t => .addEdgeIndex k t

/-- Every query of `s'` answers with the renamed answer of `s`. -/
structure RenAnswers (N E : Nat → Prop) (ρ : Nat → Nat) (s s' : State) : Prop where
  getNodes : s'.getNodes = s.getNodes.map (List.map ρ)
  getEdges : s'.getEdges = s.getEdges.map (List.map ρ)
  numNodes : s'.numNodes = s.numNodes
  numEdges : s'.numEdges = s.numEdges
  withAnyLabel : ∀ ls, s'.getEdgesWithAnyLabel ls = (s.getEdgesWithAnyLabel ls).map (List.map ρ)
  withAllLabels : ∀ ls, s'.getNodesWithAllLabels ls = (s.getNodesWithAllLabels ls).map (List.map ρ)
  nodesWithProperty : ∀ k, s'.getNodesWithProperty k = (s.getNodesWithProperty k).map (List.map ρ)
  edgesWithProperty : ∀ k, s'.getEdgesWithProperty k = (s.getEdgesWithProperty k).map (List.map ρ)
  findNodes : ∀ ls ps, s'.findNodes ls ps = (s.findNodes ls ps).map (List.map ρ)
  findEdges : ∀ ls ps, s'.findEdges ls ps = (s.findEdges ls ps).map (List.map ρ)
  labels : ∀ n, N (ρ n) → s'.nodeGetLabels (ρ n) = s.nodeGetLabels n
  nodeProperty : ∀ n, N (ρ n) → ∀ k, s'.nodeProperty (ρ n) k = s.nodeProperty n k
  nodeEdges : ∀ n, N (ρ n) → ∀ d, s'.nodeEdges (ρ n) d = (s.nodeEdges n d).map (List.map ρ)
  nodeEdgesWithLabel : ∀ n, N (ρ n) → ∀ l d, s'.nodeEdgesWithLabel (ρ n) l d = (s.nodeEdgesWithLabel n l d).map (List.map ρ)
  nodeEdgesWithAnyLabel : ∀ n, N (ρ n) → ∀ ls d, s'.nodeEdgesWithAnyLabel (ρ n) ls d = (s.nodeEdgesWithAnyLabel n ls d).map (List.map ρ)
  ends : ∀ e, E (ρ e) → s'.edgeGetFrom (ρ e) = ρ (s.edgeGetFrom e) ∧ s'.edgeGetTo (ρ e) = ρ (s.edgeGetTo e)
  edgeLabel : ∀ e, E (ρ e) → s'.edgeGetLabel (ρ e) = s.edgeGetLabel e
  edgeProperty : ∀ e, E (ρ e) → ∀ k, s'.edgeProperty (ρ e) k = s.edgeProperty e k

namespace World

/-- The calls of a program that act on graph `g`, in their order: the calls whose receiver belongs to `g` and which do not
panic with a foreign node. -/
def callsOn (g : Nat) : World → List (Nat × Op) → List Op
  | _, [] => []
  | W, (k, op) :: ops =>
    match W.step k op with
    | none => []
    | some (W', b) => if W.target k op = some g ∧ b = false then op :: callsOn g W' ops else callsOn g W' ops

/-- a node or an edge of graph `g` -/
def Owned (W : World) (g x : Nat) : Prop := W.nodeGraph x = some g ∨ W.edgeGraph x = some g

end World
end LPG
