import Verif.Model.World
import Verif.Model.RecoverNil
/-!
# Panics in a program with several graphs

`Verif.Model.World` ends a program at a panic, except those of graph.go:93-98. Here every call on a node, an edge or a graph leaves
behind what it has done so far, and the program may recover and go on with any of its graphs.
-/
namespace LPG
namespace World

/-- One call under `recover`: the calls of `Verif.Model.Recover` and `Verif.Model.RecoverNil` on the graph that the call is for
(`target`). The flag says that the call panicked. graph.go:93-98: the check of `FastNewEdge` comes before any change. The edge that
is lost when the edge map has a nil pointer (edgemap.go:51) is not reachable from anywhere. `none`: no return, or a call on something
that is not a node or an edge. -/
def recoverStep (o : MapOrder) (W : World) (g : Nat) (op : Op) : Option (World × Bool) :=
  match W.target g op with
  | none => none
  | some t =>
    if W.foreign t op then some (W, true)
    else
      match tryStep o (W.view t) op with
      | some r => some ((W.alloc t op).store t r.1, r.2)
      | none =>
        if (W.view t).NilEdge then
          match op with
          | .newEdge _ _ _ _ => some (W.store t (W.view t).leftNewEdge, true)
          | .addEdgeIndex k ty => some (W.store t ((W.view t).leftEdgeIndex k ty), true)
          | _ => none
        else none

end World
end LPG
