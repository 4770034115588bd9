import Verif.Model.Base
import Verif.Model.Value
/-!
# Filter functions (graph.go:353-411)
-/
namespace LPG

/-- stringset.go:75-82, `StringSet.HasAllSet`: `have.HasAllSet(want)`. A set of strings is a list; the
position is the arbitrary iteration order. -/
def hasAllSet (has want : List String) : Bool := want.all (fun x => has.contains x)

/-- stringset.go:43-46, `StringSet.Has`. -/
def strHas (s : List String) (x : String) : Bool := s.contains x

/-- Is the interface value nil? -/
def Value.isNil : Value → Bool
  | .nil => true
  | _ => false

/-- graph.go:368-378 and 397-407: the loop over the required properties, in an arbitrary order.
`none` is a panic raised by `ComparePropertyValue`. -/
def propLoop : AMap String Value → AMap String Value → Option Bool
  | [], _ => some true
  | (k, v) :: req, props =>
    match props.get k with
    | none =>
      if !v.isNil then some false
      else match cmp v .nil with
        | none => none
        | some c => if c ≠ 0 then some false else propLoop req props
    | some pv =>
      match cmp v pv with
      | none => none
      | some c => if c ≠ 0 then some false else propLoop req props

/-- graph.go:356-382, `GetNodeFilterFunc(labels, properties)` applied to a node with labels `nlabels`
and properties `nprops`. The deferred `recover` turns a panic of the loop into `false`. -/
def nodeFilter (labels : List String) (req : AMap String Value)
    (nlabels : List String) (nprops : AMap String Value) : Bool :=
  if labels.length > 0 && !hasAllSet nlabels labels then false
  else match propLoop req nprops with
    | none => false
    | some b => b

/-- graph.go:387-411, `GetEdgeFilterFunc(labels, properties)` applied to an edge. -/
def edgeFilter (labels : List String) (req : AMap String Value)
    (elabel : String) (eprops : AMap String Value) : Bool :=
  if labels.length > 0 && !strHas labels elabel then false
  else match propLoop req eprops with
    | none => false
    | some b => b

end LPG
