import Verif.Spec.World
import Verif.Spec.IndexValues
import Batteries.Data.List.Basic
/-!
# What a copy is
-/
namespace LPG

/-- Edge `e'` of `σ'` is the copy of edge `e` of `σs`, where `m` pairs nodes with their copies and `m0` pairs nodes with the nodes
given for them. It leaves a copy. -/
structure EdgeCopy (m0 : List (Nat × Nat)) (f : String → Value → Value) (σs σ' : Spec) (m : List (Nat × Nat)) (e e' : Nat) :
    Prop where
  src : (σs.src e, σ'.src e') ∈ m
  dst : (σs.dst e, σ'.dst e') ∈ m0 ++ m
  label : σ'.label e' = σs.label e
  eprop : ∀ k, σ'.eprop e' k = (σs.eprop e k).map (f k)

/-- `σ'` is `σ` with copies of nodes and edges of `σs`: `m` pairs the copied nodes with their copies, `es` lists the copied
edges, and `m0` pairs nodes that are not copied with nodes that stand for them. -/
structure CopyInto (m0 : List (Nat × Nat)) (f : String → Value → Value) (σs σ σ' : Spec) (m : List (Nat × Nat)) (es : List Nat) :
    Prop where
  /-- the nodes are the old ones and the copies -/
  nodes : σ'.nodes = σ.nodes ++ m.map Prod.snd
  labels : ∀ p ∈ m, ∀ l, l ∈ σ'.labels p.2 ↔ l ∈ σs.labels p.1
  nprop : ∀ p ∈ m, ∀ k, σ'.nprop p.2 k = (σs.nprop p.1 k).map (f k)
  /-- the edges are the old ones and one copy of each edge of `es` -/
  edges : ∃ es', σ'.edges = σ.edges ++ es' ∧ List.Forall₂ (EdgeCopy m0 f σs σ' m) es es'
  /-- the old content is as it was -/
  oldNode : ∀ n ∈ σ.nodes, σ'.labels n = σ.labels n ∧ σ'.nprop n = σ.nprop n
  oldEdge : ∀ e ∈ σ.edges, σ'.src e = σ.src e ∧ σ'.dst e = σ.dst e ∧ σ'.label e = σ.label e ∧ σ'.eprop e = σ.eprop e

/-- `σ'` is `σ` with copies of nodes and edges of `σs`: `m` pairs the copied nodes with their copies, `es` lists the copied
edges, and the ends of these were copied. -/
abbrev CopyOf (f : String → Value → Value) (σs σ σ' : Spec) (m : List (Nat × Nat)) (es : List Nat) : Prop :=
  CopyInto [] f σs σ σ' m es

/-- `v` is given to property `k` of some node in the program -/
def WSpec.NodeValue (ops : List (Nat × Op)) (k : String) (v : Value) : Prop := ∃ p ∈ ops, (k, v) ∈ p.2.nodeVals

/-- `v` is given to property `k` of some edge in the program -/
def WSpec.EdgeValue (ops : List (Nat × Op)) (k : String) (v : Value) : Prop := ∃ p ∈ ops, (k, v) ∈ p.2.edgeVals

/-- The values that the program and copies of the nodes `ns` and edges `es` of graph `s` give to the properties with an index
in graph `t` suit the index. -/
def CopyIndexableOn (ns es : List Nat) (s t : Nat) (f : String → Value → Value) (ops : List (Nat × Op)) : Prop :=
  (∀ k ty, (t, Op.addNodeIndex k ty) ∈ ops → Indexable (fun v => WSpec.NodeValue ops k v ∨
    ∃ n ∈ ns, ∃ w, (WSpec.run ops s).nprop n k = some w ∧ v = f k w) ty) ∧
  (∀ k ty, (t, Op.addEdgeIndex k ty) ∈ ops → Indexable (fun v => WSpec.EdgeValue ops k v ∨
    ∃ e ∈ es, ∃ w, (WSpec.run ops s).eprop e k = some w ∧ v = f k w) ty)

/-- The values that the program and a copy of graph `s` give to the properties with an index in graph `t` suit the index. -/
def CopyIndexable (s t : Nat) (f : String → Value → Value) (ops : List (Nat × Op)) : Prop :=
  CopyIndexableOn (WSpec.run ops s).nodes (WSpec.run ops s).edges s t f ops

/-- `b` can be reached from `a` over edges in their direction. -/
inductive Spec.Reach (σ : Spec) (a : Nat) : Nat → Prop
  | refl : Reach σ a a
  | tail {b : Nat} {e : Nat} : Reach σ a b → e ∈ σ.edges → σ.src e = b → Reach σ a (σ.dst e)

/-- `b` can be reached from `a` over edges in their direction and nodes that are not in `stop`, to which `a` and `b` belong. -/
inductive Spec.ReachOff (σ : Spec) (stop : List Nat) (a : Nat) : Nat → Prop
  | refl : a ∉ stop → ReachOff σ stop a a
  | tail {b : Nat} {e : Nat} : ReachOff σ stop a b → e ∈ σ.edges → σ.src e = b → σ.dst e ∉ stop → ReachOff σ stop a (σ.dst e)

end LPG
