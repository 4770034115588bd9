import Verif.Spec.Graph
import Verif.Model.Queries
import Verif.Spec.ListOk
import Verif.Spec.Filed
import Verif.Spec.Listing
/-!
# Programs with several graphs

One abstract graph for each name. Ids are unique in the whole program, so each call moves the next id of every graph.
A method of a node or edge is written with the graph that the node or edge belongs to.
-/
namespace LPG

abbrev WSpec := Nat → Spec

namespace WSpec

def new : WSpec := fun _ => Spec.new

def step (ω : WSpec) (g : Nat) (op : Op) : WSpec :=
  fun h => if h = g then (ω g).step op else { ω h with next := ((ω g).step op).next }

def runFrom : WSpec → List (Nat × Op) → WSpec
  | ω, [] => ω
  | ω, (g, op) :: ops => runFrom (ω.step g op) ops

def run (ops : List (Nat × Op)) : WSpec := runFrom new ops

/-- Every call uses live handles of its graph. -/
def ValidFrom : WSpec → List (Nat × Op) → Prop
  | _, [] => True
  | ω, (g, op) :: ops => (ω g).Valid op ∧ ValidFrom (ω.step g op) ops

def ValidHistory (ops : List (Nat × Op)) : Prop := ValidFrom new ops

instance decValidFrom : ∀ (ω : WSpec) (ops : List (Nat × Op)), Decidable (ValidFrom ω ops)
  | _, [] => isTrue trivial
  | ω, (g, op) :: ops =>
    have := decValidFrom (ω.step g op) ops
    inferInstanceAs (Decidable ((ω g).Valid op ∧ ValidFrom (ω.step g op) ops))

instance (ops : List (Nat × Op)) : Decidable (ValidHistory ops) := inferInstanceAs (Decidable (ValidFrom _ _))

/-- In graph `k`, every operation is safe for the enumeration of the nodes (`Spec.ListSafe`) and removes no edge that is
filed under a label it no longer has (`Spec.FiledSafe`). What is done to other graphs does not matter. -/
def CleanFrom (k : Nat) : WSpec → ListFlags → (Nat → String) → List (Nat × Op) → Prop
  | _, _, _, [] => True
  | ω, d, R, (g, op) :: ops =>
    (g = k → (ω g).ListSafe d op ∧ (ω g).FiledSafe R op) ∧
    CleanFrom k (ω.step g op) (if g = k then (ω g).listFlags d op else d) (if g = k then (ω g).filed R op else R) ops

def Clean (k : Nat) (ops : List (Nat × Op)) : Prop := CleanFrom k new { gone := false, restart := none } (fun _ => "") ops

instance decCleanFrom (k : Nat) : ∀ (ω : WSpec) (d : ListFlags) (R : Nat → String) (ops : List (Nat × Op)),
    Decidable (CleanFrom k ω d R ops)
  | _, _, _, [] => isTrue trivial
  | ω, d, R, (g, op) :: ops =>
    have := decCleanFrom k (ω.step g op) (if g = k then (ω g).listFlags d op else d)
      (if g = k then (ω g).filed R op else R) ops
    inferInstanceAs (Decidable ((g = k → (ω g).ListSafe d op ∧ (ω g).FiledSafe R op) ∧ _))

instance (k : Nat) (ops : List (Nat × Op)) : Decidable (Clean k ops) := inferInstanceAs (Decidable (CleanFrom _ _ _ _ _))

/-- what the enumeration of all nodes of graph `k` depends on (C01); calls on other graphs do not matter -/
def listingFrom (k : Nat) : WSpec → Listing → List (Nat × Op) → Listing
  | _, v, [] => v
  | ω, v, (g, op) :: ops => listingFrom k (ω.step g op) (if g = k then v.step (ω g) op else v) ops

/-- what the enumeration of all nodes of graph `k` shows after a program -/
def listing (k : Nat) (ops : List (Nat × Op)) : Listing := listingFrom k new Listing.empty ops

end WSpec

/-- The graph in state `s` holds the abstract graph `σ`: the answers to the queries of the API, except for the enumerations
of all nodes and of all edges, and the number of edges. -/
structure Holds (s : State) (σ : Spec) : Prop where
  numNodes : s.numNodes = σ.nodes.length
  labels : ∀ n ∈ σ.nodes, (s.nodeGetLabels n).Nodup ∧ ∀ l, l ∈ s.nodeGetLabels n ↔ l ∈ σ.labels n
  nprop : ∀ n ∈ σ.nodes, ∀ k, s.nodeProperty n k = σ.nprop n k
  ends : ∀ e ∈ σ.edges, s.edgeGetFrom e = σ.src e ∧ s.edgeGetTo e = σ.dst e
  label : ∀ e ∈ σ.edges, s.edgeGetLabel e = σ.label e
  eprop : ∀ e ∈ σ.edges, ∀ k, s.edgeProperty e k = σ.eprop e k
  outgoing : ∀ n ∈ σ.nodes, ∃ es, s.nodeEdges n .outgoing = some es ∧ es.Perm (σ.edges.filter (fun e => σ.src e = n))
  incoming : ∀ n ∈ σ.nodes, ∃ es, s.nodeEdges n .incoming = some es ∧ es.Perm (σ.edges.filter (fun e => σ.dst e = n))
  /-- identities are unique -/
  distinct : σ.nodes.Nodup ∧ σ.edges.Nodup
  /-- the ends of the edges are nodes -/
  closed : ∀ e ∈ σ.edges, σ.src e ∈ σ.nodes ∧ σ.dst e ∈ σ.nodes

/-- The graph in state `s` shows the abstract graph `σ`: the answers to the queries of the API. -/
structure Shows (s : State) (σ : Spec) : Prop where
  nodes : s.getNodes = some σ.nodes
  edges : ∃ es, s.getEdges = some es ∧ es.Perm σ.edges
  numNodes : s.numNodes = σ.nodes.length
  numEdges : s.numEdges = σ.edges.length
  labels : ∀ n ∈ σ.nodes, (s.nodeGetLabels n).Nodup ∧ ∀ l, l ∈ s.nodeGetLabels n ↔ l ∈ σ.labels n
  nprop : ∀ n ∈ σ.nodes, ∀ k, s.nodeProperty n k = σ.nprop n k
  ends : ∀ e ∈ σ.edges, s.edgeGetFrom e = σ.src e ∧ s.edgeGetTo e = σ.dst e
  label : ∀ e ∈ σ.edges, s.edgeGetLabel e = σ.label e
  eprop : ∀ e ∈ σ.edges, ∀ k, s.edgeProperty e k = σ.eprop e k
  outgoing : ∀ n ∈ σ.nodes, ∃ es, s.nodeEdges n .outgoing = some es ∧ es.Perm (σ.edges.filter (fun e => σ.src e = n))
  incoming : ∀ n ∈ σ.nodes, ∃ es, s.nodeEdges n .incoming = some es ∧ es.Perm (σ.edges.filter (fun e => σ.dst e = n))
  /-- identities are unique -/
  distinct : σ.nodes.Nodup ∧ σ.edges.Nodup
  /-- the ends of the edges are nodes -/
  closed : ∀ e ∈ σ.edges, σ.src e ∈ σ.nodes ∧ σ.dst e ∈ σ.nodes

end LPG
