import Verif.Model.VPath
/-!
# Patterns (pattern.go, planprocessors.go)

Simplifications. The nodes and edges in the symbols belong to the graph that is searched (or belonged to it before they
were removed), so that an id denotes one object. `StoreResult` of the accumulator records its arguments and does not change
the graph or the symbols. A plan is run once, as by `Pattern.Run`; `PlanRuns.lean` has plans that are run again. `logf` does
nothing. A result `none` is a panic or a call that does not return.
-/
namespace LPG
namespace Pat

/-- pattern.go:40-55, `PatternItem`. A nil set of labels and a nil map are empty. -/
structure Item where
  labels : List String := []
  props : Props := []
  min : Int := 1
  max : Int := 1
  toLeft : Bool := false
  undirected : Bool := false
  name : String := ""

/-- pattern.go:32, `Pattern`. -/
abbrev Pattern := List Item

/-- pattern.go:35-38, `PatternSymbol`; `none` is a nil set. A set is the list of its items in the order of insertion. -/
structure Sym where
  nodes : Option (List Nat) := none
  edges : Option (List Nat) := none

/-- The type of `MatchContext.Symbols` and `MatchContext.LocalSymbols`. -/
abbrev Symbols := AMap String Sym

/-- What `GetResult` of a step returns, and the values of the map given to `StoreResult`. -/
inductive Res where
  | node (n : Nat)
  | path (p : Path)
deriving DecidableEq, Repr

/-- pattern.go:17-27. -/
inductive Err where
  | nodeVariableExpected (name : String)
  | edgeVariableExpected (name : String)
deriving DecidableEq, Repr

/-- `p[i]`, where `i` is in range. -/
def itemAt (p : Pattern) (i : Nat) : Item := p.getD i {}

/-- pattern.go:57-59. -/
def Item.edgeOk (s : State) (p : Item) (e : Nat) : Bool := edgeFilter p.labels p.props (s.eLabel e) (s.eProps e)

/-- pattern.go:61-63. -/
def Item.nodeOk (s : State) (p : Item) (n : Nat) : Bool := nodeFilter p.labels p.props (s.nLabels n) (s.nProps n)

/-- pattern.go:67-87, `isConstrainedNodes`. Its counterpart `isConstrainedEdges` (pattern.go:91-111) is not used. -/
def Item.isConstrainedNodes (symbols locals : Symbols) (p : Item) : Except Err (Option (List Nat)) :=
  let ofSym (sym : Sym) : Except Err (Option (List Nat)) :=
    if sym.edges.isSome then .error (.nodeVariableExpected p.name) else .ok sym.nodes
  if p.name.length = 0 then .ok none
  else
    match AMap.get locals p.name with
    | some sym => ofSym sym
    | none =>
      match AMap.get symbols p.name with
      | some sym => ofSym sym
      | none => .ok none

/-- pattern.go:123-138: the smaller of the best iterator so far and the iterators of the property indexes; and 184-199, where
`best` is `none` if no size is known. -/
abbrev Best := Option (Option (List Nat) × Int)

/-- pattern.go:123-138, the loop over the property iterators. -/
def pickSmaller : List (List Nat × Int) → Best → Best
  | [], best => best
  | r :: rs, best =>
    if r.2 = -1 then pickSmaller rs best
    else match best with
      | none => pickSmaller rs (some (some r.1, r.2))
      | some b => pickSmaller rs (if r.2 < b.2 then some (some r.1, r.2) else some b)

/-- pattern.go:184-199, the loop over the property iterators: no size is less than -1. -/
def pickSmallerEdges : List (List Nat × Int) → Best → Best
  | [], best => best
  | r :: rs, best =>
    if r.2 = -1 then pickSmallerEdges rs best
    else match best with
      | none => pickSmallerEdges rs (if r.2 < -1 then some (some r.1, r.2) else none)
      | some b => pickSmallerEdges rs (if r.2 < b.2 then some (some r.1, r.2) else some b)

/-- pattern.go:139-150 and 200-211: the nodes or edges of the symbol, `set`. -/
def pickSymbol (symbols : Symbols) (name : String) (set : Sym → Option (List Nat)) (best : Best) : Best :=
  if name.length > 0 then
    match AMap.get symbols name with
    | none => best
    | some sym =>
      match set sym with
      | none => some (some [], 0)
      | some xs =>
        match best with
        | none => some (some xs, xs.length)
        | some b => if (xs.length : Int) < b.2 then some (some xs, xs.length) else some b
  else best

/-- pattern.go:113-158, `estimateNodeSize`: the items of the iterator (`none`: the iteration fails) and its size. -/
def Item.estimateNodeSize (s : State) (symbols : Symbols) (p : Item) : Option (Option (List Nat) × Int) :=
  let byLabel : Option Best :=
    if p.labels.length > 0 then
      match s.byLabel.allLabels s.nLabels p.labels with
      | none => none
      | some r => some (if r.2 ≠ -1 then some (some r.1, r.2) else none)
    else some none
  match byLabel, State.propIters s.nodeIx p.props with
  | some best, some its =>
    match pickSymbol symbols p.name Sym.nodes (pickSmaller its best) with
    | some b => some b
    | none => some (s.getNodes, s.numNodes)
  | _, _ => none

/-- pattern.go:160-216, `estimateEdgeSize`. The size of `GetEdges` is the number of edges (edgemap.go:126-143);
`GetEdgesWithAnyLabel` panics if `only` is nil (edgemap.go:165). -/
def Item.estimateEdgeSize (s : State) (symbols : Symbols) (p : Item) : Option (Option (List Nat) × Int) :=
  if p.min > 1 ∨ p.max > 1 ∨ p.min = -1 ∨ p.max = -1 then some (s.getEdges, -1)
  else if p.labels.length > 0 ∧ s.allEdges.n = 1 ∧ s.allEdges.only = none then none
  else
    let best : Best :=
      if p.labels.length > 0 then
        if s.allEdges.anySize s.eLabel p.labels ≠ -1 then
          some (s.getEdgesWithAnyLabel p.labels, s.allEdges.anySize s.eLabel p.labels)
        else none
      else none
    match State.propIters s.edgeIx p.props with
    | none => none
    | some its =>
      match pickSymbol symbols p.name Sym.edges (pickSmallerEdges its best) with
      | some b => some b
      | none => some (s.getEdges, s.numEdges)

/-- pattern.go:350-371, the loop of `getFastestElement`, from index `i` on. -/
def fastest (s : State) (symbols : Symbols) : List Item → Nat → Option (Option (List Nat) × Int × Nat) →
    Option (Option (Option (List Nat) × Int × Nat))
  | [], _, best => some best
  | p :: ps, i, best =>
    match (if i % 2 = 0 then p.estimateNodeSize s symbols else p.estimateEdgeSize s symbols) with
    | none => none
    | some (itr, sz) =>
      if sz ≠ -1 then
        match best with
        | none => fastest s symbols ps (i + 1) (some (itr, sz, i))
        | some b => fastest s symbols ps (i + 1) (if sz < b.2.1 then some (itr, sz, i) else best)
      else fastest s symbols ps (i + 1) best

/-- pattern.go:350-371, `getFastestElement`. If no size is known, the iterator is nil, and pattern.go:390 panics. -/
def getFastestElement (s : State) (symbols : Symbols) (p : Pattern) : Option (Option (List Nat) × Nat) :=
  match fastest s symbols p 0 none with
  | some (some (itr, _, i)) => some (itr, i)
  | _ => none

/-- planprocessors.go:199-201. -/
inductive Use where
  | fromNode | anyNode | toNode
deriving DecidableEq, Repr

/-- The plan processors (planprocessors.go:21-26, 78-83, 122-143, 203-223). A processor is referred to by the index of its
item in the pattern, which is how `GetPatternItem` and `GetResult` (planprocessors.go:74-76, 118-120, 195-197, 276-278) find
them; the functions `logf` (planprocessors.go:17-19) and `init` (140-143) do nothing; `prevOrNext` is `none` if it is a nil interface. -/
inductive Proc where
  | nodes (itr : Option (List Nat))
  | edges (itr : Option (List Nat))
  | connEdges (source : Nat) (dir : State.Dir)
  | connNodes (source : Nat) (use : Use) (prevOrNext : Option Nat)

/-- A plan processor of the item at index `ix`. -/
structure Step where
  ix : Nat
  item : Item
  proc : Proc

/-- pattern.go:269-272, `MatchPlan`. -/
structure Plan where
  steps : List Step
  nForward : Nat

/-- pattern.go:393-423 and 456-480: the processor at `i` when going forward from `index`. `processors[i-2]` is nil if it
is before the start. -/
def forwardStep (p : Pattern) (index i : Nat) : Step :=
  { ix := i, item := itemAt p i,
    proc :=
      if i % 2 = 1 then
        if (itemAt p i).toLeft then .connEdges (i - 1) .incoming
        else if !(itemAt p i).undirected then .connEdges (i - 1) .outgoing
        else .connEdges (i - 1) .any
      else if (itemAt p (i - 1)).toLeft then .connNodes (i - 1) .fromNode none
      else if !(itemAt p (i - 1)).undirected then .connNodes (i - 1) .toNode none
      else .connNodes (i - 1) .anyNode (if index ≤ i - 2 then some (i - 2) else none) }

/-- pattern.go:425-450 and 482-505: the processor at `i` when going backwards. `none`: `processors[i+2]` is out of range. -/
def backwardStep (p : Pattern) (i : Nat) : Option Step :=
  let mk (proc : Proc) : Option Step := some { ix := i, item := itemAt p i, proc := proc }
  if i % 2 = 1 then
    if (itemAt p i).toLeft then mk (.connEdges (i + 1) .outgoing)
    else if !(itemAt p i).undirected then mk (.connEdges (i + 1) .incoming)
    else mk (.connEdges (i + 1) .any)
  else if (itemAt p (i + 1)).toLeft then mk (.connNodes (i + 1) .toNode none)
  else if !(itemAt p (i + 1)).undirected then mk (.connNodes (i + 1) .fromNode none)
  else if i + 2 < p.length then mk (.connNodes (i + 1) .anyNode (some (i + 2)))
  else none

/-- pattern.go:425-450 and 482-505: the steps at `i-1`, …, `0`. -/
def backwardSteps (p : Pattern) : Nat → Option (List Step)
  | 0 => some []
  | i + 1 =>
    match backwardStep p i, backwardSteps p i with
    | some st, some rest => some (st :: rest)
    | _, _ => none

/-- pattern.go:384-508, `GetPlan`, for the iterator and the index chosen by `getFastestElement`. -/
def planFrom (p : Pattern) (itr : Option (List Nat)) (index : Nat) : Option Plan :=
  match backwardSteps p index with
  | none => none
  | some back =>
    let start : Step :=
      { ix := index, item := itemAt p index, proc := if index % 2 = 0 then .nodes itr else .edges itr }
    let forward := (List.range' (index + 1) (p.length - (index + 1))).map (forwardStep p index)
    some { steps := start :: (forward ++ back), nForward := forward.length }

/-- The changing parts of a run: the results of the steps (by the index of the item), `LocalSymbols` and
`variablePathNode` of `MatchContext` (pattern.go:287-296), and what `StoreResult` was called with. -/
structure Run where
  result : Nat → Option Res := fun _ => none
  locals : Symbols := []
  vnode : Option Nat := none
  out : List (Path × AMap String Res) := []

/-- The outcome of a step: the error that it returns, if any. `none`: panic. -/
abbrev Out := Option (Option Err × Run)

/-- pattern.go:218-249: `Add` on a new `PatternSymbol`. -/
def Sym.ofRes : Option Res → Sym
  | none => {}
  | some (.node n) => { nodes := some [n] }
  | some (.path p) => { edges := some (p.path.map (·.edge)).eraseDups }

/-- pattern.go:299-310, `recordStepResult`. -/
def record (symbols : Symbols) (st : Step) (r : Run) : Run :=
  if st.item.name.length = 0 then r
  else if (AMap.get symbols st.item.name).isSome then r
  else { r with locals := AMap.set r.locals st.item.name (Sym.ofRes (r.result st.ix)) }

/-- pattern.go:313-322, `resetStepResult`. -/
def reset (symbols : Symbols) (st : Step) (r : Run) : Run :=
  if st.item.name.length = 0 then r
  else if (AMap.get symbols st.item.name).isSome then r
  else { r with locals := AMap.del r.locals st.item.name }

/-- A loop over the items of an iterator, that ends with the first error. -/
def forEach {α : Type} (body : α → Run → Out) : List α → Run → Out
  | [], r => some (none, r)
  | x :: xs, r =>
    match body x r with
    | none => none
    | some (some e, r) => some (some e, r)
    | some (none, r) => forEach body xs r

/-- planprocessors.go:63-69, 108-113, 167-173, 265-271: set the result, record it, go on, forget it. -/
def visit (symbols : Symbols) (st : Step) (next : Run → Out) (v : Res) (r : Run) : Out :=
  match next (record symbols st { r with result := upd r.result st.ix (some v) }) with
  | none => none
  | some (some e, r) => some (some e, r)
  | some (none, r) => some (none, reset symbols st r)

/-- planprocessors.go:180-190: the function given to `CollectAllPaths`. Its state is the outcome so far. -/
def visitVar (s : State) (symbols : Symbols) (st : Step) (next : Run → Out) (o : Out) (p : Path) : Bool × Out :=
  match o with
  | none => (false, none)
  | some (_, r) =>
    match next { record symbols st { r with result := upd r.result st.ix (some (.path p)) } with
                 vnode := p.last s.ends } with
    | none => (false, none)
    | some (some e, r) => (false, some (some e, r))
    | some (none, r) => (true, some (none, reset symbols st { r with vnode := none }))

/-- planprocessors.go:43-52: the filter by the nodes of the symbol; nil: no filter. -/
def allows (c : Option (List Nat)) (n : Nat) : Bool :=
  match c with
  | none => true
  | some xs => xs.contains n

/-- planprocessors.go:58-72, `iterateNodes.Run`. -/
def runNodes (s : State) (symbols : Symbols) (st : Step) (itr : Option (List Nat)) (next : Run → Out) (r : Run) : Out :=
  match st.item.isConstrainedNodes symbols r.locals with
  | .error e => some (some e, r)
  | .ok c =>
    match itr with
    | none => none
    | some ns => forEach (fun n r => visit symbols st next (.node n) r)
        ((ns.filter (st.item.nodeOk s)).filter (allows c)) r

/-- planprocessors.go:100-116, `iterateEdges.Run`. -/
def runEdges (s : State) (symbols : Symbols) (st : Step) (itr : Option (List Nat)) (next : Run → Out) (r : Run) : Out :=
  match itr with
  | none => none
  | some es => forEach (fun e r => visit symbols st next (.path { path := [⟨e, false⟩] }) r) (es.filter (st.item.edgeOk s)) r

/-- planprocessors.go:145-193, `iterateConnectedEdges.Run`. -/
def runConnEdges (s : State) (symbols : Symbols) (st : Step) (source : Nat) (dir : State.Dir) (next : Run → Out) (r : Run) :
    Out :=
  match r.result source with
  | some (.node n) =>
    match s.nodeEdgesWithAnyLabel n st.item.labels dir with
    | none => none
    | some es =>
      if st.item.min = 1 ∧ st.item.max = 1 then
        forEach (fun e r => visit symbols st next (.path { path := [VPath.orient s.ends (some n) e] }) r)
          (es.filter (st.item.edgeOk s)) r
      else
        match VPath.collectAllPaths ⟨s, st.item.edgeOk s, dir, st.item.min, st.item.max, visitVar s symbols st next⟩
            (some n) (es.filter (st.item.edgeOk s)) (some (none, r)) with
        | none => none
        | some o => o
  | _ => none

/-- planprocessors.go:239-252: the node if `variablePathNode` is not set. `none`: panic. -/
def endNode (s : State) (use : Use) (prevOrNext : Option Nat) (r : Run) (e : Nat) : Option Nat :=
  match use with
  | .toNode => some (s.eTo e)
  | .fromNode => some (s.eFrom e)
  | .anyNode =>
    match prevOrNext with
    | none => none
    | some j =>
      match r.result j with
      | some (.node n) => some (if s.eTo e = n then s.eFrom e else s.eTo e)
      | _ => none

/-- planprocessors.go:254-273. -/
def checkNode (s : State) (symbols : Symbols) (st : Step) (next : Run → Out) (n : Nat) (r : Run) : Out :=
  if st.item.nodeOk s n then
    match st.item.isConstrainedNodes symbols r.locals with
    | .error e => some (some e, r)
    | .ok (some xs) => if xs.contains n then visit symbols st next (.node n) r else some (none, r)
    | .ok none => visit symbols st next (.node n) r
  else some (none, r)

/-- planprocessors.go:225-274, `iterateConnectedNodes.Run`. -/
def runConnNodes (s : State) (symbols : Symbols) (st : Step) (source : Nat) (use : Use) (prevOrNext : Option Nat)
    (next : Run → Out) (r : Run) : Out :=
  match r.result source with
  | some (.path p) =>
    match p.getEdge ((p.numEdges : Int) - 1) with
    | none => none
    | some edge =>
      match r.vnode with
      | some n =>
        match checkNode s symbols st next n { r with vnode := none } with
        | none => none
        | some (e, r) => some (e, { r with vnode := some n })
      | none =>
        match edge with
        | none => none
        | some e =>
          match endNode s use prevOrNext r e with
          | none => none
          | some n => checkNode s symbols st next n r
  | _ => none

/-- The method `Run` of a plan processor. -/
def runStep (s : State) (symbols : Symbols) (st : Step) (next : Run → Out) (r : Run) : Out :=
  match st.proc with
  | .nodes itr => runNodes s symbols st itr next r
  | .edges itr => runEdges s symbols st itr next r
  | .connEdges source dir => runConnEdges s symbols st source dir next r
  | .connNodes source use pn => runConnNodes s symbols st source use pn next r

/-- pattern.go:543-550: append the paths of the steps to `out`. `none`: panic. -/
def appendPaths (g : Ends) : List (Option Res) → Path → Option Path
  | [], out => some out
  | some (.path p) :: rs, out =>
    match out.appendPath g p with
    | .error _ => none
    | .ok (out, _) => appendPaths g rs out
  | _ :: rs, out => appendPaths g rs out

/-- pattern.go:552-557: append the first elements of the paths, reversed. `none`: panic. -/
def appendReversed (g : Ends) : List (Option Res) → Path → Option Path
  | [], out => some out
  | some (.path p) :: rs, out =>
    match p.path with
    | [] => none
    | pe :: _ =>
      match out.append g [⟨pe.edge, !pe.reverse⟩] with
      | .error _ => none
      | .ok out => appendReversed g rs out
  | _ :: rs, out => appendReversed g rs out

/-- pattern.go:535-559, `GetCurrentPath`. `none`: panic. -/
def currentPath (g : Ends) (plan : Plan) (result : Nat → Option Res) : Option Path :=
  let rs := plan.steps.map (fun st => result st.ix)
  match rs with
  | [some (.path p)] => some p
  | [some (.node n)] => some { only := some n }
  | [none] => none
  | _ =>
    match appendPaths g (rs.take (plan.nForward + 1)) {}, appendReversed g (rs.drop plan.nForward).reverse {} with
    | some out, some rev =>
      match rev.appendPath g out with
      | .error _ => none
      | .ok (p, _) => some p
    | _, _ => none

/-- pattern.go:562-572, `CaptureSymbolValues`. -/
def captureSymbols (result : Nat → Option Res) : List Step → AMap String Res → AMap String Res
  | [], ret => ret
  | st :: sts, ret =>
    if st.item.name.length > 0 then
      match AMap.get ret st.item.name, result st.ix with
      | none, some v => captureSymbols result sts (AMap.set ret st.item.name v)
      | _, _ => captureSymbols result sts ret
    else captureSymbols result sts ret

/-- pattern.go:529-532, `resultAccumulator.Run`. -/
def storeResult (s : State) (plan : Plan) (r : Run) : Out :=
  match currentPath s.ends plan r.result with
  | none => none
  | some p => some (none, { r with out := r.out ++ [(p, captureSymbols r.result plan.steps [])] })

/-- pattern.go:514-521 and 629-636: run the steps, each with the next ones as its continuation. -/
def runSteps (s : State) (symbols : Symbols) (plan : Plan) : List Step → Run → Out
  | [], r => storeResult s plan r
  | st :: sts, r => runStep s symbols st (runSteps s symbols plan sts) r

/-- pattern.go:620-637, `MatchPlan.Run`: the error, if any, and the calls of `StoreResult`. -/
def Plan.run (s : State) (symbols : Symbols) (plan : Plan) : Option (Option Err × List (Path × AMap String Res)) :=
  match runSteps s symbols plan plan.steps {} with
  | none => none
  | some (e, r) => some (e, r.out)

/-- `GetPlan` and `MatchPlan.Run`, for a start chosen by the caller. -/
def runFrom (s : State) (symbols : Symbols) (p : Pattern) (itr : Option (List Nat)) (index : Nat) :
    Option (Option Err × List (Path × AMap String Res)) :=
  match planFrom p itr index with
  | none => none
  | some plan => plan.run s symbols

/-- pattern.go:324-331, `Pattern.Run`. -/
def Pattern.run (s : State) (symbols : Symbols) (p : Pattern) : Option (Option Err × List (Path × AMap String Res)) :=
  match getFastestElement s symbols p with
  | none => none
  | some (itr, index) => runFrom s symbols p itr index

end Pat
end LPG
