import Verif.Spec.Graph
/-!
# What the enumeration of all nodes shows

A description of `GetNodes` that is right for every history (C01). The nodes that are shown are some nodes that
were removed, which stay for ever, followed by live nodes. All other live nodes are lost; they lie in chains, and
what matters is only which nodes are the last of their chains: when the last node of a chain is removed, the nodes
created afterwards go into a new chain behind it.
-/
namespace LPG

/-- what the enumeration of all nodes depends on -/
structure Listing where
  /-- the nodes that are shown although they were removed -/
  removed : List Nat
  /-- the live nodes that are shown, behind those -/
  shown : List Nat
  /-- removing the first live node that is shown takes it off the enumeration -/
  attached : Bool
  /-- the next node that is created is shown -/
  isOpen : Bool
  /-- some node was created -/
  begun : Bool
  /-- the chains of the live nodes that are not shown; if the next node is not shown, it joins the first chain -/
  lost : List (List Nat)
deriving DecidableEq, Repr

namespace Listing

def empty : Listing := { removed := [], shown := [], attached := true, isOpen := true, begun := false, lost := [] }

/-- the nodes that are enumerated -/
def nodes (v : Listing) : List Nat := v.removed ++ v.shown

/-- node `n` is created -/
def create (v : Listing) (n : Nat) : Listing :=
  if v.nodes = [] then { v with shown := [n], attached := !v.begun, isOpen := true, begun := true }
  else if v.isOpen then { v with shown := v.shown ++ [n], attached := v.attached || v.shown.isEmpty }
  else
    match v.lost with
    | [] => { v with lost := [[n]] }
    | c :: cs => { v with lost := (c ++ [n]) :: cs }

/-- the node is shown even after it is removed -/
def keeps (v : Listing) (n : Nat) : Bool := v.shown.head? = some n && !v.attached

/-- node `n` is removed -/
def remove (v : Listing) (n : Nat) : Listing :=
  let rest := v.lost.map (·.filter (· ≠ n))
  if v.shown.getLast? = some n then
    if v.keeps n then { v with removed := v.removed ++ [n], shown := [], isOpen := true }
    else { v with shown := v.shown.filter (· ≠ n), isOpen := false, lost := [] :: v.lost }
  else if n ∈ v.shown then
    { v with removed := if v.keeps n then v.removed ++ [n] else v.removed, shown := v.shown.filter (· ≠ n) }
  else if v.lost.any (·.getLast? = some n) then { v with isOpen := false, lost := [] :: rest }
  else { v with lost := rest }

/-- the enumeration after an operation on the graph `σ` -/
def step (v : Listing) (σ : Spec) : Op → Listing
  | .newNode _ _ => v.create σ.next
  | .detachRemove n => v.remove n
  | _ => v

def from_ (v : Listing) : Spec → List Op → Listing
  | _, [] => v
  | σ, op :: ops => (v.step σ op).from_ (σ.step op) ops

end Listing

/-- what the enumeration of all nodes shows after a history -/
def listingAfter (ops : List Op) : Listing := Listing.empty.from_ Spec.new ops

end LPG
