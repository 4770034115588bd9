import Verif.Model.Sets
/-!
# Insertion ordered sets
-/
namespace LPG

/-- An insertion ordered set is the list of its members. -/
def OSet.step (s : List Ref) : SetOp → List Ref
  | .add x => if x ∈ s then s else s ++ [x]
  | .remove x => s.filter (· ≠ x)

def OSet.run (ops : List SetOp) : List Ref := ops.foldl OSet.step []

end LPG
