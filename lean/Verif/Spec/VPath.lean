import Verif.Model.VPath
import Verif.Spec.Graph
/-!
# Trails

A trail is a sequence of steps over pairwise distinct edges. The definitions use only the ends of the edges.
-/
namespace LPG

def Spec.ends (σ : Spec) : Ends := ⟨σ.src, σ.dst⟩

/-- The edge `e` leads away from the node `v` when edges are followed in direction `d`. -/
def Leads (g : Ends) (d : State.Dir) (e v : Nat) : Prop :=
  match d with
  | .outgoing => g.src e = v
  | .incoming => g.dst e = v
  | .any => g.src e = v ∨ g.dst e = v

/-- The step is marked as reversed exactly if its edge arrives at `v` from another node. -/
def Oriented (g : Ends) (v : Option Nat) (pe : PathElement) : Prop :=
  pe.reverse = true ↔ g.src pe.edge ≠ g.dst pe.edge ∧ some (g.dst pe.edge) = v

/-- The edge-distinct trails that begin with an edge of `first` seen from `start`, and go on over live edges accepted by
`f` in direction `d`. -/
def IsTrail (g : Ends) (live : List Nat) (f : Nat → Bool) (d : State.Dir) (start : Option Nat) (first : List Nat)
    (es : List PathElement) : Prop :=
  es ≠ [] ∧ (es.map (·.edge)).Nodup ∧ (∀ pe ∈ es.head?, pe.edge ∈ first ∧ Oriented g start pe) ∧
  ∀ i (h : i + 1 < es.length), es[i + 1].edge ∈ live ∧ f es[i + 1].edge = true ∧
    Leads g d es[i + 1].edge (es[i].getTargetNode g) ∧ Oriented g (some (es[i].getTargetNode g)) es[i + 1]

/-- Between `min` and `max` steps, where -1 means no bound. -/
def LengthOk (min max : Int) (n : Nat) : Prop := (min = -1 ∨ min ≤ n) ∧ (max = -1 ∨ (n : Int) ≤ max)

/-- Call the accumulator on the items until it returns false. -/
def runStop {φ α : Type} (acc : φ → α → Bool × φ) : φ → List α → Bool × φ
  | st, [] => (true, st)
  | st, x :: xs => if (acc st x).1 then runStop acc (acc st x).2 xs else (false, (acc st x).2)

end LPG
