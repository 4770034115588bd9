import Verif.Model.Iter
/-!
# Paths and cursors (path.go, cursor.go)

A path is a value: its field `only` and the content of its slice `path`. Simplification: two paths never share a
slice. In Go `NewPathFromElements(s...)` keeps the slice of the caller; all other functions that return a new path copy.
-/
namespace LPG

/-- path.go:28-31, `PathElement`. -/
structure PathElement where
  edge : Nat
  reverse : Bool
deriving DecidableEq, Repr

/-- path.go:23-26, `Path`. The zero value is the empty path. -/
structure Path where
  only : Option Nat := none
  path : List PathElement := []
deriving DecidableEq, Repr

/-- The ends of the edges, `Edge.GetFrom` and `Edge.GetTo` (edge.go:35-41). -/
structure Ends where
  src : Nat → Nat
  dst : Nat → Nat

def State.ends (s : State) : Ends := ⟨s.eFrom, s.eTo⟩

/-- path.go:101-106. -/
def PathElement.getSourceNode (g : Ends) (p : PathElement) : Nat := if p.reverse then g.dst p.edge else g.src p.edge

/-- path.go:108-113. -/
def PathElement.getTargetNode (g : Ends) (p : PathElement) : Nat := if p.reverse then g.src p.edge else g.dst p.edge

namespace Path

/-- path.go:33-35. -/
def newPathFromElements (es : List PathElement) : Path := { only := none, path := es }

/-- path.go:37-43. -/
def newPathElementsFromEdges (es : List Nat) : List PathElement := es.map (fun e => { edge := e, reverse := false })

/-- path.go:46-53. `none` as argument is the nil node, the result `none` is the panic. -/
def pathFromNode : Option Nat → Option Path
  | none => none
  | some n => some { only := some n, path := [] }

/-- path.go:56-63. -/
def clone (p : Path) : Path := { only := p.only, path := p.path }

/-- path.go:66-70. -/
def setOnlyNode (_ : Path) (n : Option Nat) : Path := { only := n, path := [] }

/-- path.go:73-77. -/
def clear (_ : Path) : Path := { only := none, path := [] }

/-- path.go:321-323. -/
def numEdges (p : Path) : Nat := p.path.length

/-- path.go:325-334. -/
def numNodes (p : Path) : Nat :=
  match p.only with
  | some _ => 1
  | none => if p.numEdges = 0 then 0 else p.numEdges + 1

/-- path.go:336-338. -/
def isEmpty (p : Path) : Bool := p.only.isNone && p.path.length == 0

/-- path.go:80-88. `none`: nil. -/
def last (g : Ends) (p : Path) : Option Nat :=
  match p.only with
  | some n => some n
  | none => (p.path.getLast?).map (fun e => e.getTargetNode g)

/-- path.go:91-99. -/
def first (g : Ends) (p : Path) : Option Nat :=
  match p.only with
  | some n => some n
  | none => (p.path.head?).map (fun e => e.getSourceNode g)

/-- path.go:135-140: the loop over the appended elements. -/
def linked (g : Ends) : Option Nat → List PathElement → Bool
  | _, [] => true
  | last, pe :: es => if some (pe.getSourceNode g) ≠ last then false else linked g (some (pe.getTargetNode g)) es

/-- path.go:116-143, `Append`. `error p'`: it panics, and the receiver is then `p'`. -/
def append (g : Ends) (p : Path) (es : List PathElement) : Except Path Path :=
  match es with
  | [] => .ok p
  | e :: es' =>
    if p.numNodes = 0 then .ok { p with path := e :: es' }
    else if (p.last g).isSome ∧ p.last g ≠ some (e.getSourceNode g) then .error p
    else if linked g (p.last g) (e :: es') then .ok { only := none, path := p.path ++ (e :: es') }
    else .error { p with only := none }

/-- path.go:147-167, `AppendPath`: the receiver and the argument afterwards; `error`: the receiver and the argument
when it panics. The argument is another object than the receiver. -/
def appendPath (g : Ends) (p q : Path) : Except (Path × Path) (Path × Path) :=
  let app (p q : Path) : Except (Path × Path) (Path × Path) :=
    match p.append g q.path with
    | .ok p => .ok (p, q)
    | .error p => .error (p, q)
  if p.numNodes = 0 then .ok ({ p with path := q.path }, q)
  else if p.numNodes = 1 then app { p with only := none } q
  else if q.numNodes = 0 then .ok (p, q)
  else if q.numNodes = 1 then app p { q with only := none }
  else app p q

/-- path.go:170-178. Outer `none`: index out of range. Inner `none`: nil. -/
def getEdge (p : Path) (n : Int) : Option (Option Nat) :=
  match p.only with
  | some _ => some none
  | none =>
    if n < p.path.length then
      if n < 0 then none else some ((p.path[n.toNat]?).map (·.edge))
    else some none

/-- path.go:181-193. `none`: panic. -/
def getNode (g : Ends) (p : Path) (n : Int) : Option Nat :=
  if n = 0 then p.first g
  else if n - 1 < 0 then none
  else (p.path[(n - 1).toNat]?).map (fun e => e.getTargetNode g)

/-- path.go:224-228: the loop. `p` is at least as long. -/
def prefixLoop : List PathElement → List PathElement → Bool
  | [], _ => true
  | _ :: _, [] => true
  | e1 :: es1, e :: es => if e1 ≠ e then false else prefixLoop es1 es

/-- path.go:214-230. -/
def hasPrefix (p : Path) (p1 : List PathElement) : Bool :=
  if p.numNodes < 2 then false
  else if p1.length = 0 then true
  else if p1.length > p.numEdges then false
  else prefixLoop p1 p.path

/-- path.go:233-256. -/
def hasPrefixPath (g : Ends) (p p1 : Path) : Bool :=
  if p.numNodes = 0 then p1.numNodes = 0
  else if p.numNodes = 1 then
    if p1.numNodes = 0 then true
    else if p1.numNodes = 1 then p.only = p1.only
    else false
  else if p1.numNodes = 0 then true
  else if p1.numNodes = 1 then p.first g = p1.first g
  else p.hasPrefix p1.path

/-- path.go:259-290. `none`: panic (an explicit one or an index out of range). -/
def slice (g : Ends) (p : Path) (s e : Int) : Option Path :=
  if p.numNodes = 0 then none
  else if s = 0 ∧ e = 0 then some { only := p.first g, path := [] }
  else if s > p.numNodes then none
  else
    let e : Int := if e > p.numNodes ∨ e = -1 then p.numNodes else e
    if e < s then none
    else if s = e then
      if s < 0 then none
      else (p.path[s.toNat]?).map (fun x => { only := some (x.getSourceNode g), path := [] })
    else if s = p.numNodes - 1 then some { only := p.last g, path := [] }
    else if s < 0 ∨ e - 1 > p.path.length then none
    else some { only := none, path := (p.path.drop s.toNat).take (e - s - 1).toNat }

/-- path.go:295-305, `RemoveLast`: line 301 removes the edge from the graph. -/
def removeLast (s : State) (p : Path) : State × Path :=
  match p.only with
  | some _ => (s, { p with only := none })
  | none =>
    match p.path.getLast? with
    | none => (s, p)
    | some e => (s.removeEdge e.edge, { p with path := p.path.dropLast })

/-- path.go:309-319, `RemoveFirst`: line 315 removes the edge from the graph. -/
def removeFirst (s : State) (p : Path) : State × Path :=
  match p.only with
  | some _ => (s, { p with only := none })
  | none =>
    match p.path with
    | [] => (s, p)
    | e :: es => (s.removeEdge e.edge, { p with path := es })

end Path

/-- cursor.go:18-21, `Cursor`; `none` is nil. -/
structure Cursor where
  node : Option Nat := none
  path : Option Path := none

namespace Cursor

/-- cursor.go:24-27. -/
def set (c : Cursor) (n : Option Nat) : Cursor := { c with node := n }

/-- cursor.go:30-33. -/
def startPath (c : Cursor) : Option Cursor := (Path.pathFromNode c.node).map (fun p => { c with path := some p })

/-- cursor.go:38-44. `none`: panic of `Append`, or there is no path. -/
def pushToPath (g : Ends) (c : Cursor) (e : Nat) : Option Cursor :=
  match c.path with
  | none => none
  | some p =>
    match p.append g [{ edge := e, reverse := false }] with
    | .error _ => none
    | .ok p => some { node := some (g.dst e), path := some p }

/-- cursor.go:53-56. `none`: there is no path. -/
def popFromPath (s : State) (c : Cursor) : Option (State × Cursor) :=
  match c.path with
  | none => none
  | some p => some ((p.removeLast s).1, { c with path := some (p.removeLast s).2 })

/-- cursor.go:60-65 `Edges`. -/
def edges (s : State) (c : Cursor) (d : State.Dir) : Itr Nat :=
  match c.node with
  | none => .empty
  | some n => s.nodeEdgesItr n d

/-- cursor.go:70-75 `EdgesWith`. -/
def edgesWith (s : State) (c : Cursor) (d : State.Dir) (l : String) : Option (Itr Nat) :=
  match c.node with
  | none => some .empty
  | some n => s.nodeEdgesWithLabelItr n l d

/-- itr.go:283-289, `nodesFromEdgesIterator.Node`. -/
def endOf (g : Ends) : State.Dir → Nat → Nat
  | .incoming => g.src
  | _ => g.dst

/-- itr.go:260-266, `newNodesFromEdges`. -/
def nodesFromEdges (g : Ends) (i : Itr Nat) (d : State.Dir) : Itr Nat :=
  ⟨_, i.m.nodesFromEdges (endOf g d), { itr := i.s, env := [], current := none }⟩

/-- cursor.go:80-85 `Nodes`. -/
def nodes (s : State) (c : Cursor) (d : State.Dir) : Itr Nat :=
  match c.node with
  | none => .empty
  | some n => nodesFromEdges s.ends (s.nodeEdgesItr n d) d

/-- cursor.go:90-95 `NodesWith`. -/
def nodesWith (s : State) (c : Cursor) (d : State.Dir) (l : String) : Option (Itr Nat) :=
  match c.node with
  | none => some .empty
  | some n => (s.nodeEdgesWithLabelItr n l d).map (fun i => nodesFromEdges s.ends i d)

/-- cursor.go:48-50, `GetPath`. -/
def getPath (c : Cursor) : Option Path := c.path

/-- cursor.go:99, `Forward`. -/
def forward (s : State) (c : Cursor) : Itr Nat := c.edges s .outgoing

/-- cursor.go:103, `Backward`. -/
def backward (s : State) (c : Cursor) : Itr Nat := c.edges s .incoming

/-- cursor.go:107, `ForwardWith`. -/
def forwardWith (s : State) (c : Cursor) (l : String) : Option (Itr Nat) := c.edgesWith s .outgoing l

/-- cursor.go:112, `BackwardWith`. -/
def backwardWith (s : State) (c : Cursor) (l : String) : Option (Itr Nat) := c.edgesWith s .incoming l

/-- cursor.go:116, `NextNodes`. -/
def nextNodes (s : State) (c : Cursor) : Itr Nat := c.nodes s .outgoing

/-- cursor.go:120, `NextNodesWith`. -/
def nextNodesWith (s : State) (c : Cursor) (l : String) : Option (Itr Nat) := c.nodesWith s .outgoing l

/-- cursor.go:124, `PrevNodes`. -/
def prevNodes (s : State) (c : Cursor) : Itr Nat := c.nodes s .incoming

/-- cursor.go:128, `PrevNodesWith`. -/
def prevNodesWith (s : State) (c : Cursor) (l : String) : Option (Itr Nat) := c.nodesWith s .incoming l

end Cursor
end LPG
