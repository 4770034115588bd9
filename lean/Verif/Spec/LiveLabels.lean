import Verif.Spec.Live
/-!
# What a loop over the nodes with some labels should do when the body changes the graph
-/
namespace LPG

/-- The node exists and has all the labels. -/
def Spec.HasAll (σ : Spec) (ls : List String) (n : Nat) : Prop := n ∈ σ.nodes ∧ ∀ l ∈ ls, l ∈ σ.labels n

instance (σ : Spec) (ls : List String) (n : Nat) : Decidable (σ.HasAll ls n) := by unfold Spec.HasAll; infer_instance

/-- What the log of the loop should be, for an iterator made after the history `ops`: every node at most once; only nodes that
exist and have all the labels when they are yielded; when the iteration ends, every node that had them when the iterator was
made. -/
structure VisitsLabelled (ls : List String) (ops : List Op) (log : List Seen) : Prop where
  once : (Seen.visited log).Nodup
  alive : ∀ p x r, log = p ++ .item x :: r → (Spec.run (ops ++ Seen.ops p)).HasAll ls x
  all : ∀ p r, log = p ++ .last :: r → ∀ n, (Spec.run ops).HasAll ls n → n ∈ Seen.visited p

/-- What a call may do when the nodes `Y` were visited: a node that was visited does not get one of the labels; a node that
was not visited does not lose one of the labels, and is not removed if it has one. -/
def Spec.GentleLabels (σ : Spec) (ls : List String) (Y : List Nat) : Op → Prop
  | .setLabels n new => if n ∈ Y then ∀ l ∈ ls, l ∈ new → l ∈ σ.labels n else ∀ l ∈ ls, l ∈ σ.labels n → l ∈ new
  | .detachRemove n => n ∈ Y ∨ ∀ l ∈ ls, l ∉ σ.labels n
  | _ => True

instance (σ : Spec) (ls : List String) (Y : List Nat) (op : Op) : Decidable (σ.GentleLabels ls Y op) := by
  cases op <;> unfold Spec.GentleLabels <;> infer_instance

/-- Every call of the log does what `G` allows when the items before it were visited. -/
def Spec.AllowsFrom (G : Spec → List Nat → Op → Prop) : Spec → List Nat → List Seen → Prop
  | _, _, [] => True
  | σ, Y, .item x :: log => AllowsFrom G σ (Y ++ [x]) log
  | σ, Y, .last :: log => AllowsFrom G σ Y log
  | σ, Y, .did op :: log => G σ Y op ∧ AllowsFrom G (σ.step op) Y log

instance Spec.decAllowsFrom (G : Spec → List Nat → Op → Prop) [∀ σ Y op, Decidable (G σ Y op)] :
    ∀ (σ : Spec) (Y : List Nat) (log : List Seen), Decidable (σ.AllowsFrom G Y log)
  | _, _, [] => isTrue trivial
  | σ, Y, .item x :: log => Spec.decAllowsFrom G σ (Y ++ [x]) log
  | σ, Y, .last :: log => Spec.decAllowsFrom G σ Y log
  | σ, Y, .did op :: log =>
    have := Spec.decAllowsFrom G (σ.step op) Y log
    inferInstanceAs (Decidable (G σ Y op ∧ _))

/-- The body of a loop over the nodes with these labels, after the history `ops`. -/
def GentleLabelLoop (ls : List String) (ops : List Op) (log : List Seen) : Prop :=
  (Spec.run ops).AllowsFrom (fun σ Y op => σ.GentleLabels ls Y op) [] log

instance (ls : List String) (ops : List Op) (log : List Seen) : Decidable (GentleLabelLoop ls ops log) :=
  inferInstanceAs (Decidable (Spec.AllowsFrom _ _ _ _))

end LPG
