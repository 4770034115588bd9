import Verif.Spec.World
/-!
# Calls that only create

What decoding a document and copying are made of.
-/
namespace LPG

/-- The call is `NewNode` or `NewEdge`. -/
def Op.adds : Op → Bool
  | .newNode _ _ => true
  | .newEdge _ _ _ _ => true
  | _ => false

/-- A history of a program with several graphs followed by calls on graph `t`. -/
def andOn (ops : List (Nat × Op)) (t : Nat) (more : List Op) : List (Nat × Op) := ops ++ more.map (fun op => (t, op))

end LPG
