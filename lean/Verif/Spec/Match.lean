import Verif.Spec.Graph
/-!
# What a search by labels and properties should find
-/
namespace LPG

/-- The required properties are there, with values that compare equal (`ComparePropertyValue` = 0). -/
def PropsMatch (have_ : String → Option Value) (req : AMap String Value) : Prop :=
  ∀ k v, (k, v) ∈ req → ∃ w, have_ k = some w ∧ cmp v w = some 0

/-- The node carries all the labels and the properties. -/
def Spec.NodeMatches (σ : Spec) (ls : List String) (req : AMap String Value) (n : Nat) : Prop :=
  (∀ l ∈ ls, l ∈ σ.labels n) ∧ PropsMatch (σ.nprop n) req

/-- The edge has one of the labels (any label if there are none) and the properties. -/
def Spec.EdgeMatches (σ : Spec) (ls : List String) (req : AMap String Value) (e : Nat) : Prop :=
  (ls = [] ∨ σ.label e ∈ ls) ∧ PropsMatch (σ.eprop e) req

/-- `xs` lists the members of a collection that satisfy a predicate, each once. -/
def Lists (xs : List Nat) (all : List Nat) (P : Nat → Prop) : Prop :=
  xs.Nodup ∧ ∀ x, x ∈ xs ↔ x ∈ all ∧ P x

/-- the key has a node property index -/
def NodeIndexed (ops : List Op) (k : String) : Prop := ∃ t, Op.addNodeIndex k t ∈ ops

/-- the key has an edge property index -/
def EdgeIndexed (ops : List Op) (k : String) : Prop := ∃ t, Op.addEdgeIndex k t ∈ ops

end LPG
