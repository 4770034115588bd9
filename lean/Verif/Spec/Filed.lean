import Verif.Spec.Conditions
/-!
# The label an edge is filed under

`SetLabel` does not move an edge in the graph-wide map of edges. An edge is filed when it is created; while the
graph has a single edge, that edge is not filed under any label, and it is filed when a second one is created.
-/
namespace LPG

/-- The label each edge is filed under (`g`: before the operation). -/
def Spec.filed (σ : Spec) (g : Nat → String) : Op → Nat → String
  | .newEdge a b l ps => if σ.edges.length ≤ 1 then (σ.step (.newEdge a b l ps)).label else upd g σ.next l
  | _ => g

/-- The operation removes no edge that is filed under a label it no longer has, unless it is the only edge. -/
def Spec.FiledSafe (σ : Spec) (g : Nat → String) (op : Op) : Prop :=
  σ.edges.length ≤ 1 ∨ ∀ e ∈ σ.edges, e ∉ (σ.step op).edges → g e = σ.label e

instance (σ : Spec) (g : Nat → String) (op : Op) : Decidable (σ.FiledSafe g op) := by
  unfold Spec.FiledSafe; infer_instance

def Spec.FiledOkFrom : Spec → (Nat → String) → List Op → Prop
  | _, _, [] => True
  | σ, g, op :: ops => σ.FiledSafe g op ∧ FiledOkFrom (σ.step op) (σ.filed g op) ops

/-- No edge is removed while it is filed under a label that it no longer has. -/
def FiledOk (ops : List Op) : Prop := Spec.new.FiledOkFrom (fun _ => "") ops

instance Spec.decFiledOkFrom : ∀ (σ : Spec) (g : Nat → String) (ops : List Op), Decidable (σ.FiledOkFrom g ops)
  | _, _, [] => isTrue trivial
  | σ, g, op :: ops =>
    have := Spec.decFiledOkFrom (σ.step op) (σ.filed g op) ops
    inferInstanceAs (Decidable (σ.FiledSafe g op ∧ _))

instance (ops : List Op) : Decidable (FiledOk ops) := inferInstanceAs (Decidable (Spec.FiledOkFrom _ _ _))

def Spec.filedFrom : Spec → (Nat → String) → List Op → Nat → String
  | _, g, [] => g
  | σ, g, op :: ops => filedFrom (σ.step op) (σ.filed g op) ops

/-- The label under which a query by label finds the edge `e` after a history: the only edge of a graph is found
under its label, the others under the label they are filed under. -/
def foundUnder (ops : List Op) (e : Nat) : String :=
  if (Spec.run ops).edges.length ≤ 1 then (Spec.run ops).label e else Spec.new.filedFrom (fun _ => "") ops e

end LPG
