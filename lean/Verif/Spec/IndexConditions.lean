import Verif.Spec.ListOk
import Verif.Spec.Filed
/-!
# Conditions on histories for the property indexes
-/
namespace LPG

/-- the operation creates a node property index -/
def Op.indexesNodes : Op → Bool
  | .addNodeIndex _ _ => true
  | _ => false

/-- Node property indexes are created only while all operations were safe for the enumeration of the nodes
(`b`: they were). -/
def Spec.NodeIndexSafe : Spec → ListFlags → Bool → List Op → Prop
  | _, _, _, [] => True
  | σ, f, b, op :: ops =>
    (op.indexesNodes = true → b = true) ∧
    NodeIndexSafe (σ.step op) (σ.listFlags f op) (b && decide (σ.ListSafe f op)) ops

def NodeIndexSafe (ops : List Op) : Prop := Spec.new.NodeIndexSafe { gone := false, restart := none } true ops

instance Spec.decNodeIndexSafe : ∀ (σ : Spec) (f : ListFlags) (b : Bool) (ops : List Op),
    Decidable (σ.NodeIndexSafe f b ops)
  | _, _, _, [] => isTrue trivial
  | σ, f, b, op :: ops =>
    have := Spec.decNodeIndexSafe (σ.step op) (σ.listFlags f op) (b && decide (σ.ListSafe f op)) ops
    inferInstanceAs (Decidable ((op.indexesNodes = true → b = true) ∧ _))

instance (ops : List Op) : Decidable (NodeIndexSafe ops) := inferInstanceAs (Decidable (Spec.NodeIndexSafe _ _ _ _))

/-- the edge removed by `Edge.Remove` -/
def Op.removesEdge : Op → List Nat
  | .removeEdge e => [e]
  | _ => []

/-- the key of the edge property index that is created -/
def Op.edgeIndexKey : Op → List String
  | .addEdgeIndex k _ => [k]
  | _ => []

/-- No edge that has an indexed property (`K`: the keys indexed so far) is removed by `Edge.Remove`, and edge
property indexes are created only while no edge was removed that was filed under a label it no longer had (`b`: none
was). -/
def Spec.EdgeIndexIntact : Spec → (Nat → String) → Bool → List String → List Op → Prop
  | _, _, _, _, [] => True
  | σ, g, b, K, op :: ops =>
    (∀ e ∈ op.removesEdge, ∀ k ∈ K, σ.eprop e k = none) ∧
    (op.edgeIndexKey ≠ [] → b = true) ∧
    EdgeIndexIntact (σ.step op) (σ.filed g op) (b && decide (σ.FiledSafe g op)) (op.edgeIndexKey ++ K) ops

def EdgeIndexIntact (ops : List Op) : Prop := Spec.new.EdgeIndexIntact (fun _ => "") true [] ops

instance optNone {α : Type} (o : Option α) : Decidable (o = none) :=
  match o with
  | none => isTrue rfl
  | some _ => isFalse (by simp)

instance Spec.decEdgeIndexIntact : ∀ (σ : Spec) (g : Nat → String) (b : Bool) (K : List String) (ops : List Op),
    Decidable (σ.EdgeIndexIntact g b K ops)
  | _, _, _, _, [] => isTrue trivial
  | σ, g, b, K, op :: ops =>
    have := Spec.decEdgeIndexIntact (σ.step op) (σ.filed g op) (b && decide (σ.FiledSafe g op)) (op.edgeIndexKey ++ K) ops
    inferInstanceAs (Decidable ((∀ e ∈ op.removesEdge, ∀ k ∈ K, σ.eprop e k = none) ∧
      (op.edgeIndexKey ≠ [] → b = true) ∧ _))

instance (ops : List Op) : Decidable (EdgeIndexIntact ops) := inferInstanceAs (Decidable (Spec.EdgeIndexIntact _ _ _ _ _))

end LPG
