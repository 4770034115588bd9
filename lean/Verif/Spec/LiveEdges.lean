import Verif.Model.EdgeHeap
import Verif.Spec.Live
/-!
# What a loop over edges should do when the body changes the graph
-/
namespace LPG

/-- The edge is one of those that the loop runs over. -/
def Spec.At (σ : Spec) : Sel → Nat → Prop
  | .all, _ => True
  | .out n, e => σ.src e = n
  | .inc n, e => σ.dst e = n

instance (σ : Spec) (m : Sel) (e : Nat) : Decidable (σ.At m e) := by
  cases m <;> unfold Spec.At <;> infer_instance

/-- The label is sought. -/
def Want.has (m : Sel) : Want → String → Bool
  | .all, _ => true
  | .label l, x => x = l
  | .any ls, x => x ∈ ls ∨ (ls = [] ∧ m ≠ .all)

/-- The edges that a loop made now should visit. -/
def Spec.Sought (σ : Spec) (m : Sel) (k : Want) (e : Nat) : Prop := e ∈ σ.edges ∧ σ.At m e ∧ k.has m (σ.label e) = true

instance (σ : Spec) (m : Sel) (k : Want) (e : Nat) : Decidable (σ.Sought m k e) := by
  unfold Spec.Sought; infer_instance

/-- What the log of a loop over edges should be, for an iterator made after the history `ops`: every edge at most once; only
edges that exist, belong to the node and have a label that is sought when they are yielded; when the iteration ends, every
edge that was sought when the iterator was made. -/
structure VisitsEdges (m : Sel) (k : Want) (ops : List Op) (log : List Seen) : Prop where
  once : (Seen.visited log).Nodup
  alive : ∀ p x r, log = p ++ .item x :: r → (Spec.run (ops ++ Seen.ops p)).Sought m k x
  all : ∀ p r, log = p ++ .last :: r → ∀ e, (Spec.run ops).Sought m k e → e ∈ Seen.visited p

/-- `SetLabel` in a loop over the edges of a node, when the edges `Y` were visited: an edge that is sought was visited before
its label changes, and an edge that was visited does not get a label that is sought. -/
def Spec.LabelsGently (σ : Spec) (m : Sel) (k : Want) (Y : List Nat) : Op → Prop
  | .setEdgeLabel e l => m = .all ∨ l = σ.label e ∨ ¬ σ.At m e ∨
      ((k.has m (σ.label e) = false ∨ e ∈ Y) ∧ (k.has m l = false ∨ e ∉ Y))
  | _ => True

instance (σ : Spec) (m : Sel) (k : Want) (Y : List Nat) (op : Op) : Decidable (σ.LabelsGently m k Y op) := by
  cases op <;> unfold Spec.LabelsGently <;> infer_instance

/-- What a call may do when the edges `Y` were visited: an edge that is sought stays, unless it was visited; and the above. -/
def Spec.Gentle (σ : Spec) (m : Sel) (k : Want) (Y : List Nat) (op : Op) : Prop :=
  (∀ e ∈ σ.edges, σ.Sought m k e → e ∉ (σ.step op).edges → e ∈ Y) ∧ σ.LabelsGently m k Y op

instance (σ : Spec) (m : Sel) (k : Want) (Y : List Nat) (op : Op) : Decidable (σ.Gentle m k Y op) := by
  unfold Spec.Gentle; infer_instance

/-- Every call of the log does that. -/
def Spec.GentleFrom (m : Sel) (k : Want) : Spec → List Nat → List Seen → Prop
  | _, _, [] => True
  | σ, Y, .item x :: log => GentleFrom m k σ (Y ++ [x]) log
  | σ, Y, .last :: log => GentleFrom m k σ Y log
  | σ, Y, .did op :: log => σ.Gentle m k Y op ∧ GentleFrom m k (σ.step op) Y log

instance Spec.decGentleFrom (m : Sel) (k : Want) : ∀ (σ : Spec) (Y : List Nat) (log : List Seen),
    Decidable (σ.GentleFrom m k Y log)
  | _, _, [] => isTrue trivial
  | σ, Y, .item x :: log => Spec.decGentleFrom m k σ (Y ++ [x]) log
  | σ, Y, .last :: log => Spec.decGentleFrom m k σ Y log
  | σ, Y, .did op :: log =>
    have := Spec.decGentleFrom m k (σ.step op) Y log
    inferInstanceAs (Decidable (σ.Gentle m k Y op ∧ _))

/-- The body of a loop over these edges, after the history `ops`. -/
def GentleLoop (m : Sel) (k : Want) (ops : List Op) (log : List Seen) : Prop := (Spec.run ops).GentleFrom m k [] log

instance (m : Sel) (k : Want) (ops : List Op) (log : List Seen) : Decidable (GentleLoop m k ops log) :=
  inferInstanceAs (Decidable (Spec.GentleFrom _ _ _ _ _))

/-! ## Both directions -/

/-- The edges that a loop over both directions should visit. -/
def Spec.SoughtBoth (σ : Spec) (n : Nat) (k : Want) (e : Nat) : Prop := σ.Sought (.inc n) k e ∨ σ.Sought (.out n) k e

instance (σ : Spec) (n : Nat) (k : Want) (e : Nat) : Decidable (σ.SoughtBoth n k e) := by
  unfold Spec.SoughtBoth; infer_instance

structure VisitsBoth (n : Nat) (k : Want) (ops : List Op) (log : List Seen) : Prop where
  once : (Seen.visited log).Nodup
  alive : ∀ p x r, log = p ++ .item x :: r → (Spec.run (ops ++ Seen.ops p)).SoughtBoth n k x
  all : ∀ p r, log = p ++ .last :: r → ∀ e, (Spec.run ops).SoughtBoth n k e → e ∈ Seen.visited p

/-- No edge starts and ends at the node. -/
def Spec.NoSelf (σ : Spec) (n : Nat) : Prop := ∀ e ∈ σ.edges, ¬ (σ.src e = n ∧ σ.dst e = n)

instance (σ : Spec) (n : Nat) : Decidable (σ.NoSelf n) := by unfold Spec.NoSelf; infer_instance

/-- So all the time. -/
def Spec.NoSelfFrom (n : Nat) : Spec → List Op → Prop
  | σ, [] => σ.NoSelf n
  | σ, op :: ops => σ.NoSelf n ∧ NoSelfFrom n (σ.step op) ops

instance Spec.decNoSelfFrom (n : Nat) : ∀ (σ : Spec) (ops : List Op), Decidable (σ.NoSelfFrom n ops)
  | σ, [] => inferInstanceAs (Decidable (σ.NoSelf n))
  | σ, op :: ops =>
    have := Spec.decNoSelfFrom n (σ.step op) ops
    inferInstanceAs (Decidable (σ.NoSelf n ∧ _))

end LPG
