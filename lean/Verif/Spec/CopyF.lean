import Verif.Model.CopyF
import Verif.Spec.Graph
/-!
# The calls that `CopyGraphf` makes

Independent of lists and iterators: a graph has nodes and edges, and every edge has two ends.
-/
namespace LPG
namespace CopyF
variable {ω : Type}

/-- Ask for a copy of each node, one after the other, and write down the copies that were made. -/
def askNodes (c : Funcs ω) : List Nat → AMap Nat Nat → ω → Option (ω × AMap Nat Nat)
  | [], m, w => some (w, m)
  | n :: ns, m, w =>
    match c.node n m w with
    | none => none
    | some (w, none) => askNodes c ns m w
    | some (w, some n') => askNodes c ns (m ++ [(n, n')]) w

/-- Ask for a copy of each edge, one after the other. -/
def askEdges (c : Funcs ω) (m : AMap Nat Nat) : List Nat → ω → Option ω
  | [], w => some w
  | e :: es, w =>
    match c.edge e m w with
    | none => none
    | some w => askEdges c m es w

/-- First all nodes, then the edges between nodes that have been copied. -/
def ask (c : Funcs ω) (a b : Nat → Nat) (ns es : List Nat) (w : ω) : Option (ω × AMap Nat Nat) :=
  match askNodes c ns [] w with
  | none => none
  | some (w, m) =>
    match askEdges c m (es.filter (fun e => a e ∈ m.map Prod.fst ∧ b e ∈ m.map Prod.fst)) w with
    | none => none
    | some w => some (w, m)

/-- `s'` has the same list of the nodes `ns`, the same edges and the same ends of the edges `es` as `s`. -/
structure SameSource (ns es : List Nat) (s s' : State) : Prop where
  head : s'.allNodes.head = s.allNodes.head
  next : ∀ n ∈ ns, s'.nptr.next n = s.nptr.next n
  edges : s'.getEdges = s.getEdges
  ends : ∀ e ∈ es, s'.eFrom e = s.eFrom e ∧ s'.eTo e = s.eTo e

/-- The functions leave the source as it is: as long as `I` holds it is like `s` as far as the nodes `ns` and the edges `es` go, and the functions do not end `I`. -/
structure Keeps (I : ω → Prop) (ns es : List Nat) (s : State) (src : ω → State) (c : Funcs ω) : Prop where
  same : ∀ w, I w → SameSource ns es s (src w)
  node : ∀ n m w w' o, I w → c.node n m w = some (w', o) → I w'
  edge : ∀ e m w w', I w → c.edge e m w = some w' → I w'

end CopyF
end LPG
