import Verif.Spec.LiveLabels
import Verif.Spec.IndexConditions
/-!
# What a loop over the nodes or edges with a property should do when the body changes the graph
-/
namespace LPG

/-- The node exists and has the property. -/
def Spec.NHas (σ : Spec) (k : String) (n : Nat) : Prop := n ∈ σ.nodes ∧ σ.nprop n k ≠ none

/-- The edge exists and has the property. -/
def Spec.EHas (σ : Spec) (k : String) (e : Nat) : Prop := e ∈ σ.edges ∧ σ.eprop e k ≠ none

instance (σ : Spec) (k : String) (n : Nat) : Decidable (σ.NHas k n) := by unfold Spec.NHas; infer_instance
instance (σ : Spec) (k : String) (n : Nat) : Decidable (σ.EHas k n) := by unfold Spec.EHas; infer_instance

/-- What the log of the loop should be, for an iterator made after the history `ops` over the objects that have `H`: every
object at most once; only objects that have `H` when they are yielded; when the iteration ends, every object that had `H` when
the iterator was made. -/
structure VisitsHaving (H : Spec → Nat → Prop) (ops : List Op) (log : List Seen) : Prop where
  once : (Seen.visited log).Nodup
  alive : ∀ p x r, log = p ++ .item x :: r → H (Spec.run (ops ++ Seen.ops p)) x
  all : ∀ p r, log = p ++ .last :: r → ∀ n, H (Spec.run ops) n → n ∈ Seen.visited p

/-- What a call may do when the nodes `Y` were visited: a node gets the property only if it does not have it and was not
visited; a node that has the property loses it, or is removed, only if it was visited. -/
def Spec.GentleNProp (σ : Spec) (k : String) (Y : List Nat) : Op → Prop
  | .setNodeProp n k' _ => k' = k → n ∉ Y ∧ σ.nprop n k = none
  | .removeNodeProp n k' => k' = k → n ∈ Y ∨ σ.nprop n k = none
  | .detachRemove n => n ∈ Y ∨ σ.nprop n k = none
  | _ => True

/-- The same for edges. -/
def Spec.GentleEProp (σ : Spec) (k : String) (Y : List Nat) : Op → Prop
  | .setEdgeProp e k' _ => k' = k → e ∉ Y ∧ σ.eprop e k = none
  | .removeEdgeProp e k' => k' = k → e ∈ Y ∨ σ.eprop e k = none
  | .removeEdge e => e ∈ Y ∨ σ.eprop e k = none
  | .detach n => ∀ e ∈ σ.edges, σ.src e = n ∨ σ.dst e = n → e ∈ Y ∨ σ.eprop e k = none
  | .detachRemove n => ∀ e ∈ σ.edges, σ.src e = n ∨ σ.dst e = n → e ∈ Y ∨ σ.eprop e k = none
  | _ => True

instance (σ : Spec) (k : String) (Y : List Nat) (op : Op) : Decidable (σ.GentleNProp k Y op) := by
  cases op <;> unfold Spec.GentleNProp <;> infer_instance

instance (σ : Spec) (k : String) (Y : List Nat) (op : Op) : Decidable (σ.GentleEProp k Y op) := by
  cases op <;> unfold Spec.GentleEProp <;> infer_instance

/-- The body of a loop over the nodes with the property, after the history `ops`. -/
def GentleNPropLoop (k : String) (ops : List Op) (log : List Seen) : Prop :=
  (Spec.run ops).AllowsFrom (fun σ Y op => σ.GentleNProp k Y op) [] log

/-- The body of a loop over the edges with the property, after the history `ops`. -/
def GentleEPropLoop (k : String) (ops : List Op) (log : List Seen) : Prop :=
  (Spec.run ops).AllowsFrom (fun σ Y op => σ.GentleEProp k Y op) [] log

instance (k : String) (ops : List Op) (log : List Seen) : Decidable (GentleNPropLoop k ops log) :=
  inferInstanceAs (Decidable (Spec.AllowsFrom _ _ _ _))

instance (k : String) (ops : List Op) (log : List Seen) : Decidable (GentleEPropLoop k ops log) :=
  inferInstanceAs (Decidable (Spec.AllowsFrom _ _ _ _))

/-- What the log of a loop over the nodes with the property should be if the body may also give the property to nodes and
take it from them: every node at most once and in the order of creation; only nodes that have the property when they are
yielded; when the iteration ends, every node that had the property all the time since the iterator was made. -/
structure VisitsKeeping (k : String) (ops : List Op) (log : List Seen) : Prop where
  order : (Seen.visited log).Pairwise (· < ·)
  alive : ∀ p x r, log = p ++ .item x :: r → (Spec.run (ops ++ Seen.ops p)).NHas k x
  all : ∀ p r, log = p ++ .last :: r → ∀ n, (∀ q t, p = q ++ t → (Spec.run (ops ++ Seen.ops q)).NHas k n) →
    n ∈ Seen.visited p

/-- The same for edges, without the order. -/
structure VisitsKeepingEdges (k : String) (ops : List Op) (log : List Seen) : Prop where
  once : (Seen.visited log).Nodup
  alive : ∀ p x r, log = p ++ .item x :: r → (Spec.run (ops ++ Seen.ops p)).EHas k x
  all : ∀ p r, log = p ++ .last :: r → ∀ e, (∀ q t, p = q ++ t → (Spec.run (ops ++ Seen.ops q)).EHas k e) →
    e ∈ Seen.visited p

end LPG
