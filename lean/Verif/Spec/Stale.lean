import Verif.Spec.IndexConditions
import Verif.Model.Queries
/-!
# Calls on nodes and edges that were removed

A program may keep the handle of a removed node or edge and call its methods. Some of these calls are harmless: the graph
behaves as if they had not been made.
-/
namespace LPG

/-- the key of the node property index that is created -/
def Op.nodeIndexKey : Op → List String
  | .addNodeIndex k _ => [k]
  | _ => []

/-- the keys that get a node property index in the history -/
def nodeIndexKeys (ops : List Op) : List String := ops.flatMap Op.nodeIndexKey

/-- the keys that get an edge property index in the history -/
def edgeIndexKeys (ops : List Op) : List String := ops.flatMap Op.edgeIndexKey

/-- What may be called on a handle of a removed object: `Detach`, `SetLabels` with no labels, and `SetProperty` and
`RemoveProperty` with a key that has no index (`kn`, `ke`: the keys with a node or edge property index). -/
def Spec.Harmless (σ : Spec) (kn ke : List String) : Op → Prop
  | .detach n => n ∉ σ.nodes
  | .setLabels n ls => n ∉ σ.nodes ∧ ls = []
  | .setNodeProp n k _ => n ∉ σ.nodes ∧ k ∉ kn
  | .removeNodeProp n k => n ∉ σ.nodes ∧ k ∉ kn
  | .setEdgeProp e k _ => e ∉ σ.edges ∧ k ∉ ke
  | .removeEdgeProp e k => e ∉ σ.edges ∧ k ∉ ke
  | _ => False

instance (σ : Spec) (kn ke : List String) (op : Op) : Decidable (σ.Harmless kn ke op) := by
  cases op <;> unfold Spec.Harmless <;> infer_instance

/-- Every call is valid or harmless when it is made. -/
def Spec.TolerableFrom (kn ke : List String) : Spec → List Op → Prop
  | _, [] => True
  | σ, op :: ops =>
    if σ.Valid op then TolerableFrom kn ke (σ.step op) ops
    else σ.Harmless kn ke op ∧ TolerableFrom kn ke σ ops

instance Spec.decTolerable (kn ke : List String) : ∀ (σ : Spec) (ops : List Op), Decidable (σ.TolerableFrom kn ke ops)
  | _, [] => isTrue trivial
  | σ, op :: ops =>
    have := Spec.decTolerable kn ke (σ.step op) ops
    have := Spec.decTolerable kn ke σ ops
    inferInstanceAs (Decidable (if σ.Valid op then _ else _))

/-- A history whose calls on removed objects are all harmless. -/
def Tolerable (ops : List Op) : Prop := Spec.new.TolerableFrom (nodeIndexKeys ops) (edgeIndexKeys ops) ops

instance (ops : List Op) : Decidable (Tolerable ops) := inferInstanceAs (Decidable (Spec.TolerableFrom _ _ _ _))

/-- The history without the calls on removed objects. -/
def Spec.liveFrom : Spec → List Op → List Op
  | _, [] => []
  | σ, op :: ops => if σ.Valid op then op :: liveFrom (σ.step op) ops else liveFrom σ ops

def liveCalls (ops : List Op) : List Op := Spec.new.liveFrom ops

/-- The queries about the whole graph and about the live nodes and edges of `σ` that do not read properties of objects
found by a scan answer the same in two states. -/
structure EqAnswers (σ : Spec) (s s' : State) : Prop where
  getNodes : s'.getNodes = s.getNodes
  getEdges : s'.getEdges = s.getEdges
  numNodes : s'.numNodes = s.numNodes
  numEdges : s'.numEdges = s.numEdges
  withAnyLabel : ∀ ls, s'.getEdgesWithAnyLabel ls = s.getEdgesWithAnyLabel ls
  withAllLabels : ∀ ls, s'.getNodesWithAllLabels ls = s.getNodesWithAllLabels ls
  sources : s'.sources = s.sources
  sinks : s'.sinks = s.sinks
  labels : ∀ n ∈ σ.nodes, s'.nodeGetLabels n = s.nodeGetLabels n
  nodeProperty : ∀ n ∈ σ.nodes, ∀ k, s'.nodeProperty n k = s.nodeProperty n k
  nodeEdges : ∀ n d, s'.nodeEdges n d = s.nodeEdges n d
  nodeEdgesWithLabel : ∀ n l d, s'.nodeEdgesWithLabel n l d = s.nodeEdgesWithLabel n l d
  nodeEdgesWithAnyLabel : ∀ n ls d, s'.nodeEdgesWithAnyLabel n ls d = s.nodeEdgesWithAnyLabel n ls d
  ends : ∀ e, s'.edgeGetFrom e = s.edgeGetFrom e ∧ s'.edgeGetTo e = s.edgeGetTo e
  edgeLabel : ∀ e, s'.edgeGetLabel e = s.edgeGetLabel e
  edgeProperty : ∀ e ∈ σ.edges, ∀ k, s'.edgeProperty e k = s.edgeProperty e k

end LPG
