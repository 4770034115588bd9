import Verif.Spec.World
import Verif.Spec.Alone
/-!
# The calls of a program on one graph alone

A program over several graphs numbers its objects in the order of their creation, whatever graph they belong to. If one
graph is to be alone, its objects are numbered in the order of their creation in this graph: this is what `GetID` returns.
-/
namespace LPG

/-- The graph of each object in the order of creation, and whether the object is an edge. -/
abbrev Owners := List (Nat × Bool)

/-- The nodes (`false`) and edges (`true`) that a call is given. -/
def Op.handles : Op → List (Nat × Bool)
  | .newNode _ _ => []
  | .newEdge a b _ _ => [(a, false), (b, false)]
  | .setLabels n _ => [(n, false)]
  | .setNodeProp n _ _ => [(n, false)]
  | .removeNodeProp n _ => [(n, false)]
  | .detach n => [(n, false)]
  | .detachRemove n => [(n, false)]
  | .setEdgeLabel e _ => [(e, true)]
  | .setEdgeProp e _ _ => [(e, true)]
  | .removeEdgeProp e _ => [(e, true)]
  | .removeEdge e => [(e, true)]
  | .addNodeIndex _ _ => []
  | .addEdgeIndex _ _ => []

namespace Owners

/-- What a call of graph `g` adds. -/
def after (w : Owners) (g : Nat) : Op → Owners
  | .newNode _ _ => w ++ [(g, false)]
  | .newEdge _ _ _ _ => w ++ [(g, true)]
  | _ => w

/-- The owners after a program. -/
def runFrom : Owners → List (Nat × Op) → Owners
  | w, [] => w
  | w, (g, op) :: ops => runFrom (w.after g op) ops

def run (ops : List (Nat × Op)) : Owners := runFrom [] ops

/-- The number that object `x` has in graph `g`: the objects that other graphs created before it are not counted. -/
def rank (w : Owners) (g : Nat) (x : Nat) : Nat := x - (w.take x).countP (fun p => p.1 ≠ g)

/-- Each call is given nodes and edges of its own graph; they may have been removed. -/
def OkFrom : Owners → List (Nat × Op) → Prop
  | _, [] => True
  | w, (g, op) :: ops => (∀ p ∈ op.handles, w[p.1]? = some (g, p.2)) ∧ OkFrom (w.after g op) ops

/-- The calls on graph `g`, with the numbers that its objects have in this graph. -/
def aloneFrom (g : Nat) : Owners → List (Nat × Op) → List Op
  | _, [] => []
  | w, (h, op) :: ops => (if h = g then [op.ren (w.rank g)] else []) ++ aloneFrom g (w.after h op) ops

instance decOkFrom : ∀ (w : Owners) (ops : List (Nat × Op)), Decidable (OkFrom w ops)
  | _, [] => isTrue trivial
  | w, (g, op) :: ops =>
    have := decOkFrom (w.after g op) ops
    inferInstanceAs (Decidable ((∀ p ∈ op.handles, w[p.1]? = some (g, p.2)) ∧ OkFrom (w.after g op) ops))

end Owners

/-- Each call of the program is given nodes and edges of its own graph; they may have been removed. -/
def OwnHandles (ops : List (Nat × Op)) : Prop := Owners.OkFrom [] ops

instance (ops : List (Nat × Op)) : Decidable (OwnHandles ops) := inferInstanceAs (Decidable (Owners.OkFrom _ _))

/-- The program that consists of the calls on graph `g`. -/
def alone (g : Nat) (ops : List (Nat × Op)) : List Op := Owners.aloneFrom g [] ops

end LPG
