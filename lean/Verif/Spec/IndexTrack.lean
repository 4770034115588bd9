import Verif.Spec.IndexConditions
/-!
# The nodes an index has, after every history

An index starts with the nodes that `GetNodes` yielded when it was created and that had the property. From then on it
follows the property, whatever happens to the list of nodes.
-/
namespace LPG

/-- The type of the first index created for the property. -/
def nodeIndexType : List Op → String → Option IndexType
  | [], _ => none
  | .addNodeIndex k' t :: ops, k => if k' = k then some t else nodeIndexType ops k
  | _ :: ops, k => nodeIndexType ops k

def edgeIndexType : List Op → String → Option IndexType
  | [], _ => none
  | .addEdgeIndex k' t :: ops, k => if k' = k then some t else edgeIndexType ops k
  | _ :: ops, k => edgeIndexType ops k

/-- The nodes that an index on `k` has after an operation, if it had `T` before. -/
def Op.tracks (σ : Spec) (k : String) (T : List Nat) : Op → List Nat
  | .newNode _ ps => if (AMap.get ps k).isSome then T ++ [σ.next] else T
  | .setNodeProp n k' _ => if k' = k ∧ n ∉ T then T ++ [n] else T
  | .removeNodeProp n k' => if k' = k then T.filter (fun x => x ≠ n) else T
  | .detachRemove n => T.filter (fun x => x ≠ n)
  | _ => T

def Spec.tracksFrom : Spec → String → List Nat → List Op → List Nat
  | _, _, T, [] => T
  | σ, k, T, op :: ops => (σ.step op).tracksFrom k (op.tracks σ k T) ops

end LPG
