import Verif.Spec.RecoverNil
import Verif.Spec.Ordinary
/-!
# A part of a program that recovers from every panic
-/
namespace LPG

/-- From the graph `s`, where what was done amounts to `hist`, the calls `cs` lead to `s'` and `hist'`. The flag of a call says
that it panicked. -/
inductive Calls (s : State) (hist : List (Option Op)) : List (Op × Bool) → State → List (Option Op) → Prop
  | start : Survived s hist → Calls s hist [] s hist
  | call {cs : List (Op × Bool)} {s1 s2 : State} {hist1 eff : List (Option Op)} {op : Op} {b : Bool} {o : MapOrder} :
      Calls s hist cs s1 hist1 → (Spec.runLost hist1).Valid op → recoverStep o s1 op = some (s2, b) →
      (Spec.runLost hist1).AmountsLost op b eff → Survived s2 (hist1 ++ eff) → Calls s hist (cs ++ [(op, b)]) s2 (hist1 ++ eff)

/-- The nodes and edges of `σ` are those of `τ` still, and they are unchanged. -/
structure Spec.Keeps (σ τ : Spec) : Prop where
  nodes : ∀ n ∈ σ.nodes, n ∈ τ.nodes ∧ τ.labels n = σ.labels n ∧ ∀ k, τ.nprop n k = σ.nprop n k
  edges : ∀ e ∈ σ.edges, e ∈ τ.edges ∧ τ.src e = σ.src e ∧ τ.dst e = σ.dst e ∧ τ.label e = σ.label e ∧ ∀ k, τ.eprop e k = σ.eprop e k

end LPG
