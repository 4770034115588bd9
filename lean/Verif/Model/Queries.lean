import Verif.Model.Graph
/-!
# Attribute access and simple queries (node.go, edge.go, alg.go, itr.go, graph.go)
-/
namespace LPG
namespace State

/-- node.go:35-37 `Node.GetProperty`, properties.go:26-32. -/
def nodeProperty (s : State) (n : Nat) (k : String) : Option Value := (s.nProps n).get k

/-- node.go:47 `Node.GetLabels`: the labels in an arbitrary order. -/
def nodeGetLabels (s : State) (n : Nat) : List String := s.nLabels n

/-- node.go:50 `Node.HasLabel`. -/
def nodeHasLabel (s : State) (n : Nat) (l : String) : Bool := (s.nLabels n).contains l

/-- edge.go:79-81 `Edge.GetProperty`. -/
def edgeProperty (s : State) (e : Nat) (k : String) : Option Value := (s.eProps e).get k

/-- edge.go:53 `Edge.GetLabel`. -/
def edgeGetLabel (s : State) (e : Nat) : String := s.eLabel e

/-- edge.go:56 `Edge.GetFrom`. -/
def edgeGetFrom (s : State) (e : Nat) : Nat := s.eFrom e

/-- edge.go:59 `Edge.GetTo`. -/
def edgeGetTo (s : State) (e : Nat) : Nat := s.eTo e

/-- The id given to the object created by an operation (graph.go:69-70 and 103-106): `GetID()` of the node or
edge that the call returns. -/
def newId (s : State) : Op → Option Nat
  | .newNode _ _ => some s.idBase
  | .newEdge _ _ _ _ => some s.idBase
  | _ => none

/-- itr.go:106-115, `filterIterator` with a filter that may fail (`none`: the filter panics), run to its
end. -/
def filterOpt (f : Nat → Option Bool) : List Nat → Option (List Nat)
  | [] => some []
  | x :: xs =>
    match f x with
    | none => none
    | some b =>
      match filterOpt f xs with
      | none => none
      | some ys => some (if b then x :: ys else ys)

/-- alg.go:22-40, `Sources`. -/
def sources (s : State) : Option (List Nat) :=
  match s.getNodes with
  | none => none
  | some ns => filterOpt (fun n => (s.nodeEdges n .incoming).map List.isEmpty) ns

/-- alg.go:43-61, `Sinks`. -/
def sinks (s : State) : Option (List Nat) :=
  match s.getNodes with
  | none => none
  | some ns => filterOpt (fun n => (s.nodeEdges n .outgoing).map List.isEmpty) ns

/-- alg.go:64-73, `EdgesBetweenNodes`. -/
def edgesBetween (s : State) (a b : Nat) : Option (List Nat) :=
  (s.nodeEdges a .outgoing).map (fun es => es.filter (fun e => s.eTo e = b))

/-- itr.go:68-78, `TargetNodes`: the keys of a map, in an arbitrary order. -/
def targetNodes (s : State) (es : List Nat) : List Nat := (es.map s.eTo).eraseDups

/-- itr.go:81-91, `SourceNodes`. -/
def sourceNodes (s : State) (es : List Nat) : List Nat := (es.map s.eFrom).eraseDups

/-- node.go:140-142, `NextNodesWith`. -/
def nextNodesWith (s : State) (n : Nat) (l : String) : Option (List Nat) :=
  (s.nodeEdgesWithLabel n l .outgoing).map s.targetNodes

/-- node.go:145-147, `PrevNodesWith`. -/
def prevNodesWith (s : State) (n : Nat) (l : String) : Option (List Nat) :=
  (s.nodeEdgesWithLabel n l .incoming).map s.sourceNodes

/-- alg.go:181-188, the loop of `ForEachNode`: returns the nodes on which the predicate was called and the
result. -/
def forEachLoop (p : Nat → Bool) : List Nat → List Nat × Bool
  | [] => ([], true)
  | x :: xs => if p x then
      let r := forEachLoop p xs
      (x :: r.1, r.2)
    else ([x], false)

/-- alg.go:181-188, `ForEachNode`. -/
def forEachNode (s : State) (p : Nat → Bool) : Option (List Nat × Bool) :=
  s.getNodes.map (forEachLoop p)

/-- properties.go:36-46 (node.go:39-41), the loop of `ForEachProperty`: the properties on which `f` was called, and the
result. -/
def forEachProp (f : String → Value → Bool) : Props → List (String × Value) × Bool
  | [] => ([], true)
  | (k, v) :: ps => if f k v then
      let r := forEachProp f ps
      ((k, v) :: r.1, r.2)
    else ([(k, v)], false)

/-- graph.go:173-189, `GetNodesWithProperty`, run to its end. -/
def getNodesWithProperty (s : State) (k : String) : Option (List Nat) :=
  match AMap.get s.nodeIx k with
  | some ix => some ix.valueItr
  | none => s.getNodes.map (fun ns => ns.filter (fun n => (s.nodeProperty n k).isSome))

/-- graph.go:197-214, `GetEdgesWithProperty`, run to its end. -/
def getEdgesWithProperty (s : State) (k : String) : Option (List Nat) :=
  match AMap.get s.edgeIx k with
  | some ix => some ix.valueItr
  | none => s.getEdges.map (fun es => es.filter (fun e => (s.edgeProperty e k).isSome))

/-- graph.go:233-241 and 302-310: the property iterators with their sizes. `none`: `find` panics. -/
def propIters (ixs : Indexes) : AMap String Value → Option (List (List Nat × Int))
  | [] => some []
  | (k, v) :: ps =>
    match AMap.get ixs k with
    | none => propIters ixs ps
    | some ix =>
      match ix.find v, propIters ixs ps with
      | some r, some rs => some (r :: rs)
      | _, _ => none

/-- graph.go:242-253 and 311-322: the smallest property iterator, in an arbitrary order. -/
def minIter : List (List Nat × Int) → Option (List Nat × Int) → Option (List Nat × Int)
  | [], best => best
  | r :: rs, best =>
    if r.2 = -1 then minIter rs best
    else match best with
      | none => minIter rs (some r)
      | some b => minIter rs (some (if b.2 > r.2 then r else b))

/-- graph.go:256-281 and 325-350: choose the iterator. `byLabel` is the iterator over the label index with its
size, `all` the iterator over all objects. -/
def choose (byLabel : List Nat × Int) (best : Option (List Nat × Int)) (filter : Nat → Bool)
    (all : Option (List Nat)) : Option (List Nat) :=
  let useLabel : Bool := byLabel.2 ≠ -1 && (match best with
    | none => true
    | some b => b.2 > byLabel.2)
  if useLabel then some (byLabel.1.filter filter)
  else match best with
    | some b => some (b.1.filter filter)
    | none => all

/-- graph.go:220-282, `FindNodes`, run to its end. With no labels and some properties `nodesByLabelItr` is nil
and line 231 panics. -/
def findNodes (s : State) (labels : List String) (props : AMap String Value) : Option (List Nat) :=
  if labels.length = 0 ∧ props.length = 0 then s.getNodes
  else if labels.length = 0 then none
  else
    match s.byLabel.allLabels s.nLabels labels, propIters s.nodeIx props with
    | some byLabel, some its =>
      choose byLabel (minIter its none) (fun n => nodeFilter labels props (s.nLabels n) (s.nProps n)) s.getNodes
    | _, _ => none

/-- graph.go:289-351, `FindEdges`, run to its end. With no labels and some properties `edgesByLabelItr` is nil
and line 300 panics. -/
def findEdges (s : State) (labels : List String) (props : AMap String Value) : Option (List Nat) :=
  if labels.length = 0 ∧ props.length = 0 then s.getEdges
  else if labels.length = 0 then none
  else
    match s.getEdgesWithAnyLabel labels, propIters s.edgeIx props with
    | some es, some its =>
      choose (es, s.allEdges.anySize s.eLabel labels) (minIter its none)
        (fun e => edgeFilter labels props (s.eLabel e) (s.eProps e)) s.getEdges
    | _, _ => none

end State
end LPG
