import Verif.Spec.Graph
/-!
# What an index of edges holds

A description of the index on a property of edges from the call that creates it on. It does not speak about the
enumeration of the edges, which can be wrong when the index is created (C04).
-/
namespace LPG

/-- The edges that an index on `k` has after an operation, if it had `T` before. `Edge.Remove` leaves the edge in it. -/
def Op.etracks (σ : Spec) (k : String) (T : List Nat) : Op → List Nat
  | .newEdge _ _ _ ps => if (AMap.get ps k).isSome then T ++ [σ.next] else T
  | .setEdgeProp e k' _ => if k' = k ∧ e ∉ T then T ++ [e] else T
  | .removeEdgeProp e k' => if k' = k then T.filter (fun x => x ≠ e) else T
  | .detach n => T.filter (fun e => ¬ (e ∈ σ.edges ∧ (σ.src e = n ∨ σ.dst e = n)))
  | .detachRemove n => T.filter (fun e => ¬ (e ∈ σ.edges ∧ (σ.src e = n ∨ σ.dst e = n)))
  | _ => T

def Spec.etracksFrom : Spec → String → List Nat → List Op → List Nat
  | _, _, T, [] => T
  | σ, k, T, op :: ops => (σ.step op).etracksFrom k (op.etracks σ k T) ops

end LPG
