import Verif.Spec.Iso
import Verif.Spec.Pattern
import Verif.Model.Graph
/-!
# Graphs that are the same up to the names of nodes and edges (C73)

`f` maps the nodes of one graph to those of the other, `h` the edges.
-/
namespace LPG
open Pat

/-- The graphs have the same nodes and edges, with the same labels, properties and ends, up to the maps. -/
structure Spec.SameAs (σ σ' : Spec) (f h : Nat → Nat) : Prop where
  nodes : BijOn f σ.nodes σ'.nodes
  edges : BijOn h σ.edges σ'.edges
  labels : ∀ n ∈ σ.nodes, ∀ l, l ∈ σ'.labels (f n) ↔ l ∈ σ.labels n
  nprop : ∀ n ∈ σ.nodes, ∀ k, σ'.nprop (f n) k = σ.nprop n k
  src : ∀ e ∈ σ.edges, σ'.src (h e) = f (σ.src e)
  dst : ∀ e ∈ σ.edges, σ'.dst (h e) = f (σ.dst e)
  label : ∀ e ∈ σ.edges, σ'.label (h e) = σ.label e
  eprop : ∀ e ∈ σ.edges, ∀ k, σ'.eprop (h e) k = σ.eprop e k

/-- Both calls return, and what they list is the same up to the map and the order, with the same repetitions. -/
def Renamed (f : Nat → Nat) (a b : Option (List Nat)) : Prop :=
  ∃ xs ys, a = some xs ∧ b = some ys ∧ (xs.map f).Perm ys

/-- If both calls return, what they list is the same up to the map and the order. -/
def BothRenamed (f : Nat → Nat) (a b : Option (List Nat)) : Prop :=
  ∀ xs ys, a = some xs → b = some ys → (xs.map f).Perm ys

/-- The value of an item of a match in the other graph. -/
def Val.rename (f h : Nat → Nat) : Val → Val
  | .node n => .node (f n)
  | .trail es => .trail (es.map h)

/-- The match in the other graph. -/
def Match.rename (f h : Nat → Nat) (M : Match) : Match := M.map (Val.rename f h)

/-- The nodes and edges that names are bound to, in the other graph. -/
def renameSym (f h : Nat → Nat) (sym : Sym) : Sym := { nodes := sym.nodes.map (·.map f), edges := sym.edges.map (·.map h) }

/-- The bound names for a search in the other graph. -/
def renameSymbols (f h : Nat → Nat) (symbols : Symbols) : Symbols := symbols.map (fun kv => (kv.1, renameSym f h kv.2))

/-- The questions that are answered by a live node or edge alone have the same answers. -/
structure AnswersAlike (σ : Spec) (f h : Nat → Nat) (s s' : State) : Prop where
  numNodes : s'.numNodes = s.numNodes
  labels : ∀ n ∈ σ.nodes, ∀ l, l ∈ s'.nodeGetLabels (f n) ↔ l ∈ s.nodeGetLabels n
  nprop : ∀ n ∈ σ.nodes, ∀ k, s'.nodeProperty (f n) k = s.nodeProperty n k
  ends : ∀ e ∈ σ.edges, s'.edgeGetFrom (h e) = f (s.edgeGetFrom e) ∧ s'.edgeGetTo (h e) = f (s.edgeGetTo e)
  label : ∀ e ∈ σ.edges, s'.edgeGetLabel (h e) = s.edgeGetLabel e
  eprop : ∀ e ∈ σ.edges, ∀ k, s'.edgeProperty (h e) k = s.edgeProperty e k
  incident : ∀ n ∈ σ.nodes, ∀ d, Renamed h (s.nodeEdges n d) (s'.nodeEdges (f n) d)
  incidentLabel : ∀ n ∈ σ.nodes, ∀ ls : List String, ls.Nodup → ∀ d,
    Renamed h (s.nodeEdgesWithAnyLabel n ls d) (s'.nodeEdgesWithAnyLabel (f n) ls d)
  between : ∀ a ∈ σ.nodes, ∀ b ∈ σ.nodes, Renamed h (s.edgesBetween a b) (s'.edgesBetween (f a) (f b))
  next : ∀ n ∈ σ.nodes, ∀ l, Renamed f (s.nextNodesWith n l) (s'.nextNodesWith (f n) l)
  prev : ∀ n ∈ σ.nodes, ∀ l, Renamed f (s.prevNodesWith n l) (s'.prevNodesWith (f n) l)
  allLabels : ∀ ls : List String, ls ≠ [] → Renamed f (s.getNodesWithAllLabels ls) (s'.getNodesWithAllLabels ls)

/-- So do the questions about the whole graph. -/
structure ListsAlike (f h : Nat → Nat) (s s' : State) : Prop where
  nodes : Renamed f s.getNodes s'.getNodes
  edges : Renamed h s.getEdges s'.getEdges
  numEdges : s'.numEdges = s.numEdges
  sources : Renamed f s.sources s'.sources
  sinks : Renamed f s.sinks s'.sinks

end LPG
