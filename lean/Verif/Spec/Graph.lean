import Verif.Model.Graph
/-!
# What a labeled property graph is

The abstract graph: which nodes and edges are alive, and their attributes. It knows nothing about linked
lists, label lists or indexes. `Spec.step` says what each public operation is meant to do.
-/
namespace LPG

structure Spec where
  /-- the next unused id -/
  next : Nat
  /-- live nodes, oldest first -/
  nodes : List Nat
  /-- live edges, oldest first -/
  edges : List Nat
  labels : Nat → List String
  nprop : Nat → String → Option Value
  src : Nat → Nat
  dst : Nat → Nat
  label : Nat → String
  eprop : Nat → String → Option Value

namespace Spec

def new : Spec :=
  { next := 0, nodes := [], edges := [], labels := fun _ => [], nprop := fun _ _ => none,
    src := fun _ => 0, dst := fun _ => 0, label := fun _ => "", eprop := fun _ _ => none }

/-- delete one edge -/
def dropEdge (σ : Spec) (e : Nat) : Spec := { σ with edges := σ.edges.filter (· ≠ e) }

/-- delete the edges touching `n` -/
def detach (σ : Spec) (n : Nat) : Spec :=
  { σ with edges := σ.edges.filter (fun e => σ.src e ≠ n ∧ σ.dst e ≠ n) }

/-- The intended effect of each operation. -/
def step (σ : Spec) : Op → Spec
  | .newNode ls ps =>
    { σ with next := σ.next + 1, nodes := σ.nodes ++ [σ.next],
             labels := upd σ.labels σ.next ls, nprop := upd σ.nprop σ.next (fun k => ps.get k) }
  | .newEdge a b l ps =>
    { σ with next := σ.next + 1, edges := σ.edges ++ [σ.next],
             src := upd σ.src σ.next a, dst := upd σ.dst σ.next b, label := upd σ.label σ.next l,
             eprop := upd σ.eprop σ.next (fun k => ps.get k) }
  | .setLabels n ls => { σ with labels := upd σ.labels n ls }
  | .setNodeProp n k v => { σ with nprop := upd σ.nprop n (upd (σ.nprop n) k (some v)) }
  | .removeNodeProp n k => { σ with nprop := upd σ.nprop n (upd (σ.nprop n) k none) }
  | .detach n => σ.detach n
  | .detachRemove n => { σ.detach n with nodes := σ.nodes.filter (· ≠ n) }
  | .setEdgeLabel e l => { σ with label := upd σ.label e l }
  | .setEdgeProp e k v => { σ with eprop := upd σ.eprop e (upd (σ.eprop e) k (some v)) }
  | .removeEdgeProp e k => { σ with eprop := upd σ.eprop e (upd (σ.eprop e) k none) }
  | .removeEdge e => σ.dropEdge e
  | .addNodeIndex _ _ => σ
  | .addEdgeIndex _ _ => σ

/-- The caller uses live handles and well-formed arguments: sets without repetitions and maps with distinct
keys (which Go maps are by construction). -/
def Valid (σ : Spec) : Op → Prop
  | .newNode _ ps => (AMap.keys ps).Nodup
  | .newEdge a b _ ps => a ∈ σ.nodes ∧ b ∈ σ.nodes ∧ (AMap.keys ps).Nodup
  | .setLabels n ls => n ∈ σ.nodes ∧ ls.Nodup
  | .setNodeProp n _ _ => n ∈ σ.nodes
  | .removeNodeProp n _ => n ∈ σ.nodes
  | .detach n => n ∈ σ.nodes
  | .detachRemove n => n ∈ σ.nodes
  | .setEdgeLabel e _ => e ∈ σ.edges
  | .setEdgeProp e _ _ => e ∈ σ.edges
  | .removeEdgeProp e _ => e ∈ σ.edges
  | .removeEdge e => e ∈ σ.edges
  | .addNodeIndex _ _ => True
  | .addEdgeIndex _ _ => True

instance (σ : Spec) (op : Op) : Decidable (σ.Valid op) := by
  cases op <;> unfold Valid <;> infer_instance

def runFrom (σ : Spec) (ops : List Op) : Spec := ops.foldl Spec.step σ

/-- The abstract graph after a history. -/
def run (ops : List Op) : Spec := runFrom Spec.new ops

/-- Every operation of the history is valid when it is made. -/
def ValidFrom : Spec → List Op → Prop
  | _, [] => True
  | σ, op :: ops => σ.Valid op ∧ ValidFrom (σ.step op) ops

instance decValidFrom : ∀ (σ : Spec) (ops : List Op), Decidable (ValidFrom σ ops)
  | _, [] => isTrue trivial
  | σ, op :: ops =>
    have := decValidFrom (σ.step op) ops
    inferInstanceAs (Decidable (σ.Valid op ∧ ValidFrom (σ.step op) ops))

def ValidHistory (ops : List Op) : Prop := ValidFrom Spec.new ops

instance (ops : List Op) : Decidable (ValidHistory ops) := inferInstanceAs (Decidable (ValidFrom _ _))

/-- A condition on every operation of a history, evaluated in the abstract state before it. -/
def AlwaysFrom (C : Spec → Op → Prop) : Spec → List Op → Prop
  | _, [] => True
  | σ, op :: ops => C σ op ∧ AlwaysFrom C (σ.step op) ops

end Spec
end LPG
