import Verif.Model.Path
/-!
# Variable-length paths (vpathitr.go)

The callbacks do not change the graph, and `edgeFilter` gives the same answer whenever it is asked about an edge. The
accumulator may have variables (of type `φ`).
-/
namespace LPG
namespace VPath

/-- vpathitr.go:77-82 and 95-100: the path element of an edge found at the node `at`. -/
def orient (g : Ends) («at» : Option Nat) (e : Nat) : PathElement :=
  { edge := e, reverse := if g.src e ≠ g.dst e then (if some (g.dst e) = «at» then true else false) else false }

/-- vpathitr.go:24-55, `isLoop`. -/
def isLoop : List PathElement → PathElement → Bool
  | [], _ => false
  | p :: path, next => if next.edge = p.edge then true else isLoop path next

/-- itr.go:138-153, `makeUniqueIterator`, on the list of items. -/
def uniqueItems (seen : List Nat) : List Nat → List Nat
  | [] => []
  | x :: xs => if seen.contains x then uniqueItems seen xs else x :: uniqueItems (x :: seen) xs

/-- The arguments of `CollectAllPaths`. -/
structure Query (φ : Type) where
  s : State
  filter : Nat → Bool
  dir : State.Dir
  min : Int
  max : Int
  acc : φ → Path → Bool × φ

variable {φ : Type}

/-- vpathitr.go:67-74: the edges over which a path goes on. `none`: panic or a walk that does not end. -/
def candidates (q : Query φ) (p : Path) : Option (List Nat) :=
  match p.last q.s.ends with
  | none => none
  | some n =>
    match q.s.nodeEdges n q.dir with
    | none => none
    | some es => some (uniqueItems [] (es.filter q.filter))

/-- vpathitr.go:57. -/
def inRange (q : Query φ) (p : Path) : Bool :=
  (q.min = -1 || (p.numEdges : Int) ≥ q.min) && (q.max = -1 || (p.numEdges : Int) ≤ q.max)

mutual
/-- vpathitr.go:63-89: after the report. -/
def descend (q : Query φ) (p : Path) (st : φ) : Option (Bool × φ) :=
  if q.max ≠ -1 ∧ (p.numEdges : Int) ≥ q.max then some (true, st)
  else
    match candidates q p with
    | none => none
    | some es => loop q p es st
partial_fixpoint

/-- vpathitr.go:75-89: the loop over the edges. -/
def loop (q : Query φ) (p : Path) (es : List Nat) (st : φ) : Option (Bool × φ) :=
  match es with
  | [] => some (true, st)
  | e :: es =>
    let pe := orient q.s.ends (p.last q.s.ends) e
    if isLoop p.path pe then loop q p es st
    else
      match p.clone.append q.s.ends [pe] with
      | .error _ => none
      | .ok p' =>
        (recurse q p' st) >>= (fun r => if r.1 then loop q p es r.2 else some (false, r.2))
partial_fixpoint

/-- vpathitr.go:56-90, `recurse`. -/
def recurse (q : Query φ) (p : Path) (st : φ) : Option (Bool × φ) :=
  if inRange q p then
    match q.acc st p.clone with
    | (false, st) => some (false, st)
    | (true, st) => descend q p st
  else descend q p st
partial_fixpoint
end

/-- vpathitr.go:93-104: the loop over the first leg. The result is what the accumulator left behind. -/
def firstLoop (q : Query φ) (fromNode : Option Nat) : List Nat → φ → Option φ
  | [], st => some st
  | e :: es, st =>
    match recurse q { only := none, path := [orient q.s.ends fromNode e] } st with
    | none => none
    | some (true, st) => firstLoop q fromNode es st
    | some (false, st) => some st

/-- vpathitr.go:22-105, `CollectAllPaths`; `firstLeg` are the items of the iterator. -/
def collectAllPaths (q : Query φ) (fromNode : Option Nat) (firstLeg : List Nat) (st : φ) : Option φ :=
  firstLoop q fromNode (uniqueItems [] firstLeg) st

end VPath
end LPG
