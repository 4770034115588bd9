import Verif.Model.StringSet
/-!
# Sets of strings

Each variable holds a set; an operation changes the variable it is applied to and nothing else.
-/
namespace LPG

/-- variable ↦ set -/
abbrev SSSpec := Nat → String → Prop

def SSSpec.step (σ : SSSpec) : SSOp → SSSpec
  | .new v xs => upd σ v (fun x => x ∈ xs)
  | .clone v w => upd σ v (σ w)
  | .copy v w => upd σ v (σ w)
  | .add v xs => upd σ v (fun x => σ v x ∨ x ∈ xs)
  | .addSet v w => upd σ v (fun x => σ v x ∨ σ w x)
  | .remove v xs => upd σ v (fun x => σ v x ∧ x ∉ xs)

def SSSpec.run (ops : List SSOp) : SSSpec := ops.foldl SSSpec.step (fun _ _ => False)

end LPG
