import Verif.Model.Queries
/-!
# Lookups in an index by value (indexes.go)
-/
namespace LPG
namespace State

/-- indexes.go:77-87, `GetIteratorForNodeProperty`, run to its end, with its `MaxSize`. `none`: the lookup panics.
`some none`: there is no index and the iterator is nil. indexes.go:69-71, `isNodePropertyIndexed`, is the test. -/
def nodesByValue (s : State) (k : String) (v : Value) : Option (Option (List Nat × Int)) :=
  match AMap.get s.nodeIx k with
  | none => some none
  | some ix => (ix.find v).map some

/-- indexes.go:176-186, `GetIteratorForEdgeProperty`; indexes.go:73-75, `isEdgePropertyIndexed`. -/
def edgesByValue (s : State) (k : String) (v : Value) : Option (Option (List Nat × Int)) :=
  match AMap.get s.edgeIx k with
  | none => some none
  | some ix => (ix.find v).map some

end State
end LPG
