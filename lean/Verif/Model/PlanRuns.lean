import Verif.Model.Pattern
/-!
# A plan that is run several times (pattern.go:274-285, 620-637, planprocessors.go:28-57, 85-98)

`GetPlan` returns a value with pointers to its processors. The first processor holds the iterator of the start, which
its first run wraps with filters and which every run drives on; all processors keep their last results. Simplification:
the graph may change between two runs, but not the items that the iterator of the start still has to yield, nor the set of
nodes that a node start was filtered by.
-/
namespace LPG
namespace Pat

/-- What a plan holds between two runs. -/
structure PlanObj where
  plan : Plan
  /-- the items that the iterator of the first processor has not yielded yet, before the filters; `none`: it fails -/
  rest : Option (List Nat)
  /-- planprocessors.go:25 and 82, `initialized`, with the nodes of the symbol of a node start at that time -/
  filtered : Option (Option (List Nat))
  /-- the fields `result` of the processors -/
  result : Nat → Option Res

/-- pattern.go:384-508, `GetPlan`, for the iterator and the index chosen by `getFastestElement`: the plan as it is
returned. -/
def PlanObj.make (p : Pattern) (itr : Option (List Nat)) (index : Nat) : Option PlanObj :=
  match planFrom p itr index with
  | none => none
  | some plan => some { plan := plan, rest := itr, filtered := none, result := fun _ => none }

/-- pattern.go:384-509, `GetPlan`; `none` is a panic. -/
def getPlan (s : State) (symbols : Symbols) (p : Pattern) : Option PlanObj :=
  match getFastestElement s symbols p with
  | none => none
  | some (itr, index) => PlanObj.make p itr index

/-- planprocessors.go:62-70 and 102-114: the loop over the iterator. The result has the items that are left. -/
def forEachLeft (ok : Nat → Bool) (body : Nat → Run → Out) : List Nat → Run → Option (Option Err × Run × List Nat)
  | [], r => some (none, r, [])
  | x :: xs, r =>
    if ok x then
      match body x r with
      | none => none
      | some (some e, r) => some (some e, r, xs)
      | some (none, r) => forEachLeft ok body xs r
    else forEachLeft ok body xs r

/-- pattern.go:620-637, `MatchPlan.Run` on a plan that may have been run before: the error, if any, the calls of
`StoreResult`, and the plan afterwards. planprocessors.go:28-52, 58-61 and 85-101: the first processor is prepared by the
first run that succeeds in it. -/
def PlanObj.run (s : State) (symbols : Symbols) (o : PlanObj) :
    Option (Option Err × List (Path × AMap String Res) × PlanObj) :=
  match o.plan.steps with
  | [] => none
  | st :: sts =>
    let next := runSteps s symbols o.plan sts
    let go (ok : Nat → Bool) (value : Nat → Res) (filtered : Option (List Nat)) :
        Option (Option Err × List (Path × AMap String Res) × PlanObj) :=
      match o.rest with
      | none => none
      | some xs =>
        match forEachLeft ok (fun x r => visit symbols st next (value x) r) xs { result := o.result } with
        | none => none
        | some (e, r, ys) => some (e, r.out, { o with rest := some ys, filtered := some filtered, result := r.result })
    match st.proc with
    | .nodes _ =>
      match o.filtered with
      | some c => go (fun n => st.item.nodeOk s n && allows c n) .node c
      | none =>
        match st.item.isConstrainedNodes symbols [] with
        | .error e => some (some e, [], o)
        | .ok c => go (fun n => st.item.nodeOk s n && allows c n) .node c
    | .edges _ => go (st.item.edgeOk s) (fun e => .path { path := [⟨e, false⟩] }) none
    | _ => none

/-- Any number of runs of one plan, each with its own graph state and symbols: what they return. -/
def PlanObj.runs : PlanObj → List (State × Symbols) → Option (List (Option Err × List (Path × AMap String Res)) × PlanObj)
  | o, [] => some ([], o)
  | o, (s, symbols) :: more =>
    match o.run s symbols with
    | none => none
    | some (e, out, o) =>
      match o.runs more with
      | none => none
      | some (rs, o) => some ((e, out) :: rs, o)

end Pat
end LPG
