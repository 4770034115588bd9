import Verif.Model.Json
import Verif.Spec.World
import Verif.Spec.IndexValues
/-!
# What a JSON document says about a graph

A document that `encoding/json` can read gives nodes (`DocNode`) and edges (`FullEdge`); an edge refers to its ends by
their numbers. `Loaded` says what it means that they have been added to a graph.
-/
namespace LPG.Json

/-- The properties `read` are those of the list `raw`, seen through the unmarshaler. An empty key is skipped. -/
structure PropsRead (unm : String → JVal → Option (String × Value)) (raw : List (String × JVal))
    (read : String → Option Value) : Prop where
  origin : ∀ k v, read k = some v → k ≠ "" ∧ ∃ k' j, (k', j) ∈ raw ∧ unm k' j = some (k, v)
  all : ∀ k' j k v, (k', j) ∈ raw → unm k' j = some (k, v) → k ≠ "" → read k ≠ none

/-- `σ'` is `σ` with the nodes and edges of a document: `P` pairs the nodes of the document with the new nodes, `Q` the
edges of the document with the new edges. -/
structure Loaded (unm : String → JVal → Option (String × Value)) (σ σ' : Spec) (P : List (DocNode × Nat))
    (Q : List (FullEdge × Nat)) : Prop where
  nodes : σ'.nodes = σ.nodes ++ P.map Prod.snd
  edges : σ'.edges = σ.edges ++ Q.map Prod.snd
  labels : ∀ p ∈ P, ∀ l, l ∈ σ'.labels p.2 ↔ l ∈ p.1.labels
  nprop : ∀ p ∈ P, PropsRead unm p.1.properties (σ'.nprop p.2)
  src : ∀ q ∈ Q, ∃ p ∈ P, p.1.n = q.1.from ∧ p.2 = σ'.src q.2
  dst : ∀ q ∈ Q, ∃ p ∈ P, p.1.n = q.1.to ∧ p.2 = σ'.dst q.2
  label : ∀ q ∈ Q, σ'.label q.2 = q.1.label
  eprop : ∀ q ∈ Q, PropsRead unm q.1.properties (σ'.eprop q.2)
  /-- the old content is as it was -/
  oldNode : ∀ n ∈ σ.nodes, σ'.labels n = σ.labels n ∧ σ'.nprop n = σ.nprop n
  oldEdge : ∀ e ∈ σ.edges, σ'.src e = σ.src e ∧ σ'.dst e = σ.dst e ∧ σ'.label e = σ.label e ∧ σ'.eprop e = σ.eprop e

/-- The edges in the nodes of the document, each with the number of its node. -/
def embedded (N : List DocNode) : List FullEdge :=
  N.flatMap (fun n => n.edges.map (fun e => { «from» := n.n, to := e.to, label := e.label, properties := e.properties }))

mutual
/-- The number of keys and of values without parts in a value. -/
def leaves : JVal → Nat
  | .arr l => leavesElems l
  | .obj m => leavesMembers m
  | _ => 1

def leavesElems : List JVal → Nat
  | [] => 0
  | v :: vs => leaves v + leavesElems vs

def leavesMembers : List (String × JVal) → Nat
  | [] => 0
  | (_, v) :: ms => 1 + leaves v + leavesMembers ms
end

/-- A text is met where the depth is `D`. -/
def skimText (D : Nat) (s : String) : Option Nat :=
  if D = 0 then (if s = "nodes" ∨ s = "edges" then none else some 1) else some (D - 1)

mutual
/-- `Decode` walks through the value of an unknown key counting: a bracket that opens counts up, everything else counts down,
and where the count is 0 it reads as if it were between the members of the document: a text is a new key, a brace ends the
document, and other things are passed over. `skim D v`: the count after `v` if it was `D` before; `none` if on the way the
document seems to end or to have a key `nodes` or `edges`. -/
def skim (D : Nat) : JVal → Option Nat
  | .str s => skimText D s
  | .arr vs => (skimElems (if D = 0 then 0 else D + 1) vs).map (· - 1)
  | .obj ms => (skimMembers (if D = 0 then 0 else D + 1) ms).bind (fun D => if D = 0 then none else some (D - 1))
  | _ => some (D - 1)

def skimElems (D : Nat) : List JVal → Option Nat
  | [] => some D
  | v :: vs => (skim D v).bind (fun D => skimElems D vs)

def skimMembers (D : Nat) : List (String × JVal) → Option Nat
  | [] => some D
  | (k, v) :: ms => (skimText D k).bind (fun D => (skim D v).bind (fun D => skimMembers D ms))
end

/-- After the value `v` of an unknown key the count is right again. It is for values with exactly one key or value without parts
in them (`skips_leaves`), so for all values without parts, and for lists of them that are not empty (`skips_list`). -/
def Skips (v : JVal) : Prop := skim 1 v = some 0

instance (v : JVal) : Decidable (Skips v) := inferInstanceAs (Decidable (_ = _))

/-- `Decode` counts right through the values of unknown keys. -/
def Plain (ms : List (String × JVal)) : Prop := ∀ p ∈ ms, p.1 ≠ "nodes" → p.1 ≠ "edges" → Skips p.2

instance (ms : List (String × JVal)) : Decidable (Plain ms) := inferInstanceAs (Decidable (∀ p ∈ ms, _))

/-- The members of a document that `encoding/json` reads as the nodes `N` and, outside of the nodes, the edges `E`. Every
other member has a value through which `Decode` counts right. -/
inductive Document : List (String × JVal) → List DocNode → List FullEdge → Prop
  | nil : Document [] [] []
  | nodes {v : JVal} {ns N : List DocNode} {E : List FullEdge} {ms : List (String × JVal)} :
      toSlice toNode v = some ns → Document ms N E → Document (("nodes", v) :: ms) (ns ++ N) E
  | edges {v : JVal} {es : List FullEdge} {N : List DocNode} {E : List FullEdge} {ms : List (String × JVal)} :
      toSlice toFullEdge v = some es → Document ms N E → Document (("edges", v) :: ms) N (es ++ E)
  | other {k : String} {v : JVal} {N : List DocNode} {E : List FullEdge} {ms : List (String × JVal)} :
      k ≠ "nodes" → k ≠ "edges" → Skips v → Document ms N E → Document ((k, v) :: ms) N E

/-- The unmarshaler accepts all properties. -/
def PropsFine (unm : String → JVal → Option (String × Value)) (N : List DocNode) (E : List FullEdge) : Prop :=
  (∀ n ∈ N, ∀ p ∈ n.properties, unm p.1 p.2 ≠ none) ∧ (∀ e ∈ E, ∀ p ∈ e.properties, unm p.1 p.2 ≠ none)

/-- All edges refer to nodes of the document. -/
def RefsFine (N : List DocNode) (E : List FullEdge) : Prop :=
  ∀ e ∈ E, (∃ n ∈ N, n.n = e.from) ∧ ∃ n ∈ N, n.n = e.to

/-- The error `x` tells what is wrong with a document with the nodes `N` and the edges `E`. -/
def Wrong (unm : String → JVal → Option (String × Value)) (N : List DocNode) (E : List FullEdge) (x : Err) : Prop :=
  (x = .property ∧ ¬ PropsFine unm N E) ∨
  (∃ e ∈ E, x = .invalidFrom e.from ∧ ∀ n ∈ N, n.n ≠ e.from) ∨
  (∃ e ∈ E, x = .invalidTo e.to ∧ ∀ n ∈ N, n.n ≠ e.to)

/-- The unmarshaler gives back the properties `read` that went through the marshaler: each comes back, and no two of them
are written under the same key. -/
structure Inverse (mar : String → Value → Option (String × JVal)) (unm : String → JVal → Option (String × Value))
    (read : String → Option Value) : Prop where
  back : ∀ k v, read k = some v → k ≠ "" ∧ ∃ k' j, k' ≠ "" ∧ mar k v = some (k', j) ∧ unm k' j = some (k, v)
  inj : ∀ k₁ v₁ k₂ v₂ k' j₁ j₂, read k₁ = some v₁ → read k₂ = some v₂ → mar k₁ v₁ = some (k', j₁) →
    mar k₂ v₂ = some (k', j₂) → k₁ = k₂

/-- The values that the graph and the document give to indexed properties suit the index. -/
def LoadIndexable (unm : String → JVal → Option (String × Value)) (ops : List Op) : Prop :=
  (∀ k t, Op.addNodeIndex k t ∈ ops → Indexable (fun v => NodeValue ops k v ∨ ∃ k' j, unm k' j = some (k, v)) t) ∧
  (∀ k t, Op.addEdgeIndex k t ∈ ops → Indexable (fun v => EdgeValue ops k v ∨ ∃ k' j, unm k' j = some (k, v)) t)

end LPG.Json
