import Verif.Spec.Conditions
/-!
# Condition on histories for NodeMap.Iterator
-/
namespace LPG

/-- Labels are never cleared: no `SetLabels` with the empty set on a node that has labels. -/
def Spec.KeepsLabels (σ : Spec) : Op → Prop
  | .setLabels n ls => ls = [] → σ.labels n = []
  | _ => True

instance (σ : Spec) (op : Op) : Decidable (σ.KeepsLabels op) := by
  cases op <;> unfold Spec.KeepsLabels <;> infer_instance

def NoLabelClearing (ops : List Op) : Prop := Spec.new.AlwaysFrom Spec.KeepsLabels ops

instance (ops : List Op) : Decidable (NoLabelClearing ops) := inferInstanceAs (Decidable (Spec.AlwaysFrom _ _ _))

end LPG
