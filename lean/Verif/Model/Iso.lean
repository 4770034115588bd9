import Verif.Model.Queries
/-!
# CheckIsomorphism (alg.go)

The equivalence functions are functions of the nodes and edges. `cancelled k` is what the `k`-th call of `ctx.Err()`
says. `none` means that the code panics or does not end.
-/
namespace LPG
namespace Iso

/-- What `CheckIsomorphism` returns: the error of the context, or a Boolean. -/
abbrev Result := Except Unit Bool

/-- alg.go:95-108: fill the possible equivalences; `.error r` is an early return. The number of calls of `ctx.Err()` is
counted in `k`. -/
def fill (cancelled : Nat → Bool) (nodeEq : Nat → Nat → Bool) (nodes2 : List Nat) :
    List Nat → Nat → Except Result (List (List Nat))
  | [], _ => .ok []
  | n :: ns, k =>
    let c := nodes2.filter (fun n2 => nodeEq n n2)
    if c.length = 0 then .error (.ok false)
    else if cancelled k then .error (.error ())
    else
      match fill cancelled nodeEq nodes2 ns (k + 1) with
      | .error r => .error r
      | .ok cs => .ok (c :: cs)

/-- alg.go:113-121, `buildNodeEquivalence`. -/
def build (eq : AMap Nat Nat) : List Nat → List (List Nat) → List Nat → Option (AMap Nat Nat)
  | n :: ns, c :: cs, i :: is =>
    match c[i]? with
    | none => none
    | some n2 => build (eq.set n n2) ns cs is
  | [], _, [] => some eq
  | _, _, _ => none

/-- alg.go:124-133, `next`. -/
def next : List (List Nat) → List Nat → List Nat × Bool
  | c :: cs, i :: is => if i + 1 < c.length then ((i + 1) :: is, true) else (0 :: (next cs is).1, (next cs is).2)
  | _, _ => ([], false)

/-- alg.go:145-159: some edge of the other node matches. -/
def found (s1 s2 : State) (edgeEq : Nat → Nat → Bool) (m : AMap Nat Nat) (edges2 : List Nat) (e1 : Nat) : Bool :=
  edges2.any (fun e2 => decide (m.get (s1.eTo e1) = some (s2.eTo e2)) && edgeEq e1 e2)

/-- alg.go:135-163, `isIsomorphism`; the first argument is what is left of the map. -/
def isIsomorphism (s1 s2 : State) (edgeEq : Nat → Nat → Bool) (m : AMap Nat Nat) : AMap Nat Nat → Option Bool
  | [] => some true
  | (n1, n2) :: rest =>
    match s1.nodeEdges n1 .outgoing, s2.nodeEdges n2 .outgoing with
    | some edges1, some edges2 =>
      if edges1.length ≠ edges2.length then some false
      else if edges1.all (found s1 s2 edgeEq m edges2) then isIsomorphism s1 s2 edgeEq m rest
      else some false
    | _, _ => none

/-- alg.go:166-177: the search. -/
def search (cancelled : Nat → Bool) (s1 s2 : State) (edgeEq : Nat → Nat → Bool) (ns : List Nat) (cs : List (List Nat))
    (is : List Nat) (k : Nat) : Option Result :=
  match build [] ns cs is with
  | none => none
  | some m =>
    match isIsomorphism s1 s2 edgeEq m m with
    | none => none
    | some true => some (.ok true)
    | some false =>
      if (next cs is).2 = false then some (.ok false)
      else if cancelled k then some (.error ())
      else search cancelled s1 s2 edgeEq ns cs (next cs is).1 (k + 1)
partial_fixpoint

/-- alg.go:84-177. -/
def checkIsomorphism (cancelled : Nat → Bool) (s1 s2 : State) (nodeEq edgeEq : Nat → Nat → Bool) : Option Result :=
  if s1.numNodes ≠ s2.numNodes ∨ s1.numEdges ≠ s2.numEdges then some (.ok false)
  else
    match s1.getNodes, s2.getNodes with
    | some ns, some nodes2 =>
      match fill cancelled nodeEq nodes2 ns 0 with
      | .error r => some r
      | .ok cs => search cancelled s1 s2 edgeEq ns cs (List.replicate ns.length 0) ns.length
    | _, _ => none

end Iso
end LPG
