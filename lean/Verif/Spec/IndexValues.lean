import Verif.Spec.IndexConditions
/-!
# Which values may be indexed
-/
namespace LPG

/-- the node properties that an operation writes -/
def Op.nodeVals : Op → Props
  | .newNode _ ps => ps
  | .setNodeProp _ k v => [(k, v)]
  | _ => []

/-- the edge properties that an operation writes -/
def Op.edgeVals : Op → Props
  | .newEdge _ _ _ ps => ps
  | .setEdgeProp _ k v => [(k, v)]
  | _ => []

/-- `v` is given to property `k` of some node in the history -/
def NodeValue (ops : List Op) (k : String) (v : Value) : Prop := ∃ op ∈ ops, (k, v) ∈ op.nodeVals

/-- `v` is given to property `k` of some edge in the history -/
def EdgeValue (ops : List Op) (k : String) (v : Value) : Prop := ∃ op ∈ ops, (k, v) ∈ op.edgeVals

/-- The values suit the type of index: a btree index needs values that are comparable with each other, a hash index
values whose (unwrapped) type is a possible map key. -/
def Indexable (P : Value → Prop) : IndexType → Prop
  | .btree => ∀ v w, P v → P w → cmp v w ≠ none
  | .hash => ∀ v, P v → hkey (unwrap1 v) ≠ none

/-- The values given to indexed properties suit the index. -/
def IndexableValues (ops : List Op) : Prop :=
  (∀ k t, Op.addNodeIndex k t ∈ ops → Indexable (NodeValue ops k) t) ∧
  (∀ k t, Op.addEdgeIndex k t ∈ ops → Indexable (EdgeValue ops k) t)

end LPG
