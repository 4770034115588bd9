import Verif.Spec.Graph
/-!
# Isomorphism of abstract graphs
-/
namespace LPG

/-- `f` maps `xs` one to one onto `ys`. -/
def BijOn (f : Nat → Nat) (xs ys : List Nat) : Prop :=
  (∀ x ∈ xs, f x ∈ ys) ∧ (∀ x ∈ xs, ∀ y ∈ xs, f x = f y → x = y) ∧ ∀ y ∈ ys, ∃ x ∈ xs, f x = y

/-- The graphs are isomorphic with respect to the equivalences. -/
def Isomorphic (σ₁ σ₂ : Spec) (nodeEq edgeEq : Nat → Nat → Bool) : Prop :=
  ∃ f h : Nat → Nat, BijOn f σ₁.nodes σ₂.nodes ∧ BijOn h σ₁.edges σ₂.edges ∧
    (∀ n ∈ σ₁.nodes, nodeEq n (f n) = true) ∧ (∀ e ∈ σ₁.edges, edgeEq e (h e) = true) ∧
    ∀ e ∈ σ₁.edges, σ₂.src (h e) = f (σ₁.src e) ∧ σ₂.dst (h e) = f (σ₁.dst e)

/-- the edges that leave a node -/
def Spec.outEdges (σ : Spec) (n : Nat) : List Nat := σ.edges.filter (fun e => σ.src e = n)

/-- What CheckIsomorphism decides: the node map need not be one to one, and two edges may have the same partner. -/
def WeaklyIsomorphic (σ₁ σ₂ : Spec) (nodeEq edgeEq : Nat → Nat → Bool) : Prop :=
  σ₁.nodes.length = σ₂.nodes.length ∧ σ₁.edges.length = σ₂.edges.length ∧
  ∃ f : Nat → Nat, ∀ n ∈ σ₁.nodes, f n ∈ σ₂.nodes ∧ nodeEq n (f n) = true ∧
    (σ₁.outEdges n).length = (σ₂.outEdges (f n)).length ∧
    ∀ e₁ ∈ σ₁.outEdges n, ∃ e₂ ∈ σ₂.outEdges (f n), σ₂.dst e₂ = f (σ₁.dst e₁) ∧ edgeEq e₁ e₂ = true

end LPG
