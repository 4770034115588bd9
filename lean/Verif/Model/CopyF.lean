import Verif.Model.Clone
/-!
# CopyGraphf (clone.go:31-54)

`ω` is everything that the functions given to `CopyGraphf` can change: the graphs of the program, and whatever else.
`src` finds the source graph in it. Simplification: the functions do not change the map they are given.
-/
namespace LPG
namespace CopyF

/-- clone.go:34, the two functions. Their results are what they leave behind and, for a node, the copy (`none`: nil). The
outer `none` is a panic. The result of `copyEdgeFunc` is not used (clone.go:51). -/
structure Funcs (ω : Type) where
  node : Nat → AMap Nat Nat → ω → Option (ω × Option Nat)
  edge : Nat → AMap Nat Nat → ω → Option ω

variable {ω : Type}

/-- clone.go:39-41: the map after a call of `copyNodeFunc`. -/
def enter (m : AMap Nat Nat) (n : Nat) : Option Nat → AMap Nat Nat
  | none => m
  | some n' => m.set n n'

/-- clone.go:36-42: the loop over the nodes, from the node that the iterator has read ahead (list.go:132-138). -/
def nodes (src : ω → State) (c : Funcs ω) (w : ω) (nxt : Option Nat) (m : AMap Nat Nat) : Option (ω × AMap Nat Nat) :=
  match nxt with
  | none => some (w, m)
  | some n => do
    let r ← c.node n m w
    nodes src c r.1 ((src w).nptr.next n) (enter m n r.2)
partial_fixpoint

/-- clone.go:43-52: the loop over the edges. -/
def edges (src : ω → State) (c : Funcs ω) (m : AMap Nat Nat) : ω → List Nat → Option ω
  | w, [] => some w
  | w, e :: es =>
    if (m.get ((src w).eFrom e)).isNone then edges src c m w es
    else if (m.get ((src w).eTo e)).isNone then edges src c m w es
    else
      match c.edge e m w with
      | none => none
      | some w => edges src c m w es

/-- clone.go:31-54, `CopyGraphf`. Simplification: the edges of the source are listed before the loop.
`Verif.Model.CloneLive` has the loop with the iterator; it does the same if the functions do not change the source
(`C64_live`). -/
def copyGraphf (src : ω → State) (c : Funcs ω) (w : ω) : Option (ω × AMap Nat Nat) := do
  let r ← nodes src c w (src w).allNodes.head []
  let es ← (src r.1).getEdges
  let w' ← edges src c r.2 r.1 es
  pure (w', r.2)

/-- clone.go:22-29: functions as those of `CopyGraph`, that leave out the nodes and edges that `keep` and `keepEdge` reject.
The graph `t` is the target. -/
def cloneFuncs (t : Nat) (f : String → Value → Value) (keep keepEdge : Nat → Bool) : Funcs World :=
  { node := fun n _ W => if keep n then (W.cloneNode t n f).map (fun r => (r.1, some r.2)) else some (W, none)
    edge := fun e m W => if keepEdge e then (W.copyEdge e t f m).map Prod.fst else some W }

end CopyF
end LPG
