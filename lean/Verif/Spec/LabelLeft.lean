import Verif.Spec.Graph
/-!
# Labels under which a node is still filed

`SetLabels` with the empty set leaves the node in the sets of the labels that it had.
-/
namespace LPG

/-- The labels under which each node is filed without having them, after an operation. -/
def Op.leftLabels (σ : Spec) (left : Nat → List String) : Op → Nat → List String
  | .setLabels n ls => upd left n (if ls = [] then (left n ++ σ.labels n).eraseDups else (left n).filter (fun l => l ∉ ls))
  | _ => left

def Spec.labelsLeftFrom : Spec → (Nat → List String) → List Op → Nat → List String
  | _, left, [] => left
  | σ, left, op :: ops => (σ.step op).labelsLeftFrom (op.leftLabels σ left) ops

/-- The labels that were cleared and not given again. -/
def leftLabels (ops : List Op) : Nat → List String := Spec.new.labelsLeftFrom (fun _ => []) ops

end LPG
