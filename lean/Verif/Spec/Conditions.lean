import Verif.Spec.Graph
/-!
# Conditions on histories

The conditions under which the partial theorems hold. All of them speak about the operations and the abstract
graph only.
-/
namespace LPG

/-- the operation creates a node -/
def Op.creates : Op → Bool
  | .newNode _ _ => true
  | _ => false

/-- Has the newest live node been removed at some time (`d`: it had been before this operation)? -/
def Spec.TailGone (σ : Spec) (d : Bool) : Op → Bool
  | .detachRemove n => d || (σ.nodes.getLast? = some n)
  | _ => d

/-- No node is created once the newest live node has been removed (`d`: it has happened already). -/
def Spec.NoCreateAfterTail : Spec → Bool → List Op → Prop
  | _, _, [] => True
  | σ, d, op :: ops =>
    (op.creates = true → d = false) ∧ NoCreateAfterTail (σ.step op) (σ.TailGone d op) ops

/-- No node is created after the newest live node was removed. -/
def NoCreateAfterTailRemoval (ops : List Op) : Prop := Spec.new.NoCreateAfterTail false ops

/-- The edges whose label was changed by `SetLabel` (`R`: those before this operation). -/
def Spec.Relabeled (σ : Spec) (R : List Nat) : Op → List Nat
  | .setEdgeLabel e l => if l = σ.label e then R else e :: R
  | _ => R

/-- No edge whose label was changed is removed later, neither by itself nor by detaching one of its ends. -/
def Spec.KeepRelabeled : Spec → List Nat → List Op → Prop
  | _, _, [] => True
  | σ, R, op :: ops =>
    (∀ e ∈ R, e ∈ σ.edges → e ∈ (σ.step op).edges) ∧ KeepRelabeled (σ.step op) (σ.Relabeled R op) ops

def NoRelabeledRemoval (ops : List Op) : Prop := Spec.new.KeepRelabeled [] ops

/-- The label of an existing edge is never changed. -/
def NoRelabel (ops : List Op) : Prop :=
  Spec.new.AlwaysFrom (fun σ op => σ.Relabeled [] op = []) ops

instance Spec.decNoCreateAfterTail : ∀ (σ : Spec) (d : Bool) (ops : List Op), Decidable (σ.NoCreateAfterTail d ops)
  | _, _, [] => isTrue trivial
  | σ, d, op :: ops =>
    have := Spec.decNoCreateAfterTail (σ.step op) (σ.TailGone d op) ops
    inferInstanceAs (Decidable ((op.creates = true → d = false) ∧ _))

instance (ops : List Op) : Decidable (NoCreateAfterTailRemoval ops) :=
  inferInstanceAs (Decidable (Spec.NoCreateAfterTail _ _ _))

instance Spec.decKeepRelabeled : ∀ (σ : Spec) (R : List Nat) (ops : List Op), Decidable (σ.KeepRelabeled R ops)
  | _, _, [] => isTrue trivial
  | σ, R, op :: ops =>
    have := Spec.decKeepRelabeled (σ.step op) (σ.Relabeled R op) ops
    inferInstanceAs (Decidable ((∀ e ∈ R, e ∈ σ.edges → e ∈ (σ.step op).edges) ∧ _))

instance (ops : List Op) : Decidable (NoRelabeledRemoval ops) :=
  inferInstanceAs (Decidable (Spec.KeepRelabeled _ _ _))

instance Spec.decAlwaysFrom (C : Spec → Op → Prop) [∀ σ op, Decidable (C σ op)] :
    ∀ (σ : Spec) (ops : List Op), Decidable (σ.AlwaysFrom C ops)
  | _, [] => isTrue trivial
  | σ, op :: ops =>
    have := Spec.decAlwaysFrom C (σ.step op) ops
    inferInstanceAs (Decidable (C σ op ∧ _))

instance (ops : List Op) : Decidable (NoRelabel ops) := inferInstanceAs (Decidable (Spec.AlwaysFrom _ _ _))

end LPG
