import Verif.Spec.Conditions
/-!
# When the enumeration of all nodes is right

The exact condition on histories under which `GetNodes` is right after every operation (C01). It follows two
facts along the history: whether the newest live node was removed since the last node was created (`d`), and the
node `g` created when the graph had been emptied.
-/
namespace LPG

/-- what the condition remembers about the past of a history -/
structure ListFlags where
  /-- the newest live node was removed since a node was created -/
  gone : Bool
  /-- the node created first after all nodes had been removed -/
  restart : Option Nat
deriving DecidableEq, Repr

/-- The operation keeps the enumeration right: no node is created after the newest live node was removed, unless
the graph is empty; and the first node created in a graph that had been emptied is never removed. -/
def Spec.ListSafe (σ : Spec) (f : ListFlags) : Op → Prop
  | .newNode _ _ => f.gone = false ∨ σ.nodes = []
  | .detachRemove n => f.restart ≠ some n
  | _ => True

instance (σ : Spec) (f : ListFlags) (op : Op) : Decidable (σ.ListSafe f op) := by
  unfold Spec.ListSafe; split <;> infer_instance

/-- the flags after an operation -/
def Spec.listFlags (σ : Spec) (f : ListFlags) : Op → ListFlags
  | .newNode _ _ => { gone := false, restart := if f.gone then some σ.next else f.restart }
  | .detachRemove n => { f with gone := f.gone || (σ.nodes.getLast? = some n) }
  | _ => f

def Spec.ListOkFrom : Spec → ListFlags → List Op → Prop
  | _, _, [] => True
  | σ, f, op :: ops => σ.ListSafe f op ∧ ListOkFrom (σ.step op) (σ.listFlags f op) ops

/-- Every operation of the history is safe for the enumeration of the nodes. -/
def ListOk (ops : List Op) : Prop := Spec.new.ListOkFrom { gone := false, restart := none } ops

instance Spec.decListOkFrom : ∀ (σ : Spec) (f : ListFlags) (ops : List Op), Decidable (σ.ListOkFrom f ops)
  | _, _, [] => isTrue trivial
  | σ, f, op :: ops =>
    have := Spec.decListOkFrom (σ.step op) (σ.listFlags f op) ops
    inferInstanceAs (Decidable (σ.ListSafe f op ∧ _))

instance (ops : List Op) : Decidable (ListOk ops) := inferInstanceAs (Decidable (Spec.ListOkFrom _ _ _))

def Spec.flagsFrom : Spec → ListFlags → List Op → ListFlags
  | _, f, [] => f
  | σ, f, op :: ops => flagsFrom (σ.step op) (σ.listFlags f op) ops

/-- what a history leaves behind for the next operation -/
def flagsAfter (ops : List Op) : ListFlags := Spec.new.flagsFrom { gone := false, restart := none } ops

end LPG
