import Verif.Spec.IndexConditions
/-!
# What is in the property indexes, and when

The conditions under which indexes are exact, and the edges that `Edge.Remove` leaves behind in an index.
-/
namespace LPG

/-- Edge property indexes are created only while no edge was removed that was filed under a label it no longer
had (`b`: none was). -/
def Spec.EdgeIndexSafe : Spec → (Nat → String) → Bool → List Op → Prop
  | _, _, _, [] => True
  | σ, g, b, op :: ops =>
    (op.edgeIndexKey ≠ [] → b = true) ∧
    EdgeIndexSafe (σ.step op) (σ.filed g op) (b && decide (σ.FiledSafe g op)) ops

def EdgeIndexSafe (ops : List Op) : Prop := Spec.new.EdgeIndexSafe (fun _ => "") true ops

instance Spec.decEdgeIndexSafe : ∀ (σ : Spec) (g : Nat → String) (b : Bool) (ops : List Op),
    Decidable (σ.EdgeIndexSafe g b ops)
  | _, _, _, [] => isTrue trivial
  | σ, g, b, op :: ops =>
    have := Spec.decEdgeIndexSafe (σ.step op) (σ.filed g op) (b && decide (σ.FiledSafe g op)) ops
    inferInstanceAs (Decidable ((op.edgeIndexKey ≠ [] → b = true) ∧ _))

instance (ops : List Op) : Decidable (EdgeIndexSafe ops) := inferInstanceAs (Decidable (Spec.EdgeIndexSafe _ _ _ _))

/-- the edge that an operation leaves behind in the index of `k` (`K`: the keys with an index) -/
def Op.leaves (σ : Spec) (K : List String) (k : String) : Op → List Nat
  | .removeEdge e => if k ∈ K ∧ (σ.eprop e k).isSome then [e] else []
  | _ => []

def Spec.leftFrom : Spec → List String → String → List Op → List Nat
  | _, _, _, [] => []
  | σ, K, k, op :: ops => op.leaves σ K k ++ leftFrom (σ.step op) (op.edgeIndexKey ++ K) k ops

/-- The edges removed by `Edge.Remove` that had the property `k` when there was an index on it. -/
def leftInIndex (ops : List Op) (k : String) : List Nat := Spec.new.leftFrom [] k ops

end LPG
