import Verif.Spec.Listing
import Verif.Spec.IndexTrack
/-!
# What a lookup of the nodes with a property yields

A description of `GetNodesWithProperty` that is right for every history (C12). Without an index it yields the
enumerated nodes (`Listing`) that have the property. The index starts with these nodes, and follows the changes from
then on (`Op.tracks`).
-/
namespace LPG

/-- the nodes that are enumerated and have the property, whether or not they were removed -/
def Listing.having (v : Listing) (σ : Spec) (k : String) : List Nat := v.nodes.filter (fun n => (σ.nprop n k).isSome)

/-- what the index on `k` has after an operation, if there is one -/
def Op.indexes (σ : Spec) (v : Listing) (k : String) : Option (List Nat) → Op → Option (List Nat)
  | some T, op => some (op.tracks σ k T)
  | none, .addNodeIndex k' _ => if k' = k then some (v.having σ k) else none
  | none, _ => none

def lookupFrom (k : String) : Spec → Listing → Option (List Nat) → List Op → List Nat
  | _, _, some T, [] => T
  | σ, v, none, [] => v.having σ k
  | σ, v, T, op :: ops => lookupFrom k (σ.step op) (v.step σ op) (op.indexes σ v k T) ops

/-- the nodes that the lookup of the property `k` yields after a history -/
def lookupAfter (ops : List Op) (k : String) : List Nat := lookupFrom k Spec.new Listing.empty none ops

end LPG
