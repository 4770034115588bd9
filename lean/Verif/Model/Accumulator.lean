import Verif.Model.Pattern
/-!
# What callers get from a pattern (pattern.go)

The paths and symbols that `DefaultMatchAccumulator` has collected are the list that `Pattern.run` returns (pattern.go:574-592).
-/
namespace LPG
namespace Pat

/-- A key put into a map that is used as a set. -/
def addKey {α : Type} [DecidableEq α] (ret : List α) (x : α) : List α := if x ∈ ret then ret else ret ++ [x]

/-- pattern.go:595-605, `GetHeadNodes`. The order is that of the map. `none`: panic. -/
def getHeadNodes (g : Ends) : List Path → List Nat → Option (List Nat)
  | [], ret => some ret
  | x :: xs, ret =>
    match x.getNode g 0 with
    | none => none
    | some n => getHeadNodes g xs (addKey ret n)

/-- pattern.go:608-618, `GetTailNodes`. -/
def getTailNodes (g : Ends) : List Path → List Nat → Option (List Nat)
  | [], ret => some ret
  | x :: xs, ret =>
    match x.getNode g ((x.numNodes : Int) - 1) with
    | none => none
    | some n => getTailNodes g xs (addKey ret n)

/-- pattern.go:333-339, `FindPaths`: the error, and what has been collected until then. -/
def Pattern.findPaths (s : State) (symbols : Symbols) (p : Pattern) : Option (Option Err × List (Path × AMap String Res)) :=
  p.run s symbols

/-- pattern.go:342-348, `FindNodes`. With an error, the nodes are nil. -/
def Pattern.findNodes (s : State) (symbols : Symbols) (p : Pattern) : Option (Option Err × List Nat) :=
  match p.run s symbols with
  | none => none
  | some (some err, _) => some (some err, [])
  | some (none, out) => (getHeadNodes s.ends (out.map (·.1)) []).map (fun ns => (none, ns))

/-- pattern.go:373-381, `GetSymbolNames`. -/
def Pattern.getSymbolNames (p : Pattern) : List String :=
  p.foldl (fun ret q => if q.name.length > 0 then addKey ret q.name else ret) []

/-- pattern.go:251-256, `NodeSlice`; `none` is nil. -/
def Sym.nodeSlice (p : Sym) : Option (List Nat) := p.nodes

/-- pattern.go:258-267, `EdgeSlice`. -/
def Sym.edgeSlice (p : Sym) : Option Path := p.edges.map (fun es => { path := es.map (fun e => ⟨e, false⟩) })

/-- pattern.go:235-240, `AddNode`. -/
def Sym.addNode (p : Sym) (n : Nat) : Sym := { p with nodes := some (addKey (p.nodes.getD []) n) }

/-- pattern.go:242-249, `AddPath`. A nil set becomes an empty one even if the path has no edges. -/
def Sym.addPath (p : Sym) (path : Path) : Sym :=
  { p with edges := some (path.path.foldl (fun es x => addKey es x.edge) (p.edges.getD [])) }

/-- The dynamic types that `Add` looks at; any other value is ignored. -/
inductive SymItem where
  | node (n : Nat)
  | edge (e : Nat)
  | path (p : Path)
  | other

/-- pattern.go:218-233, `Add` on a symbol that may have items. It always returns true. -/
def Sym.add (p : Sym) : SymItem → Sym
  | .node n => p.addNode n
  | .edge e => { p with edges := some (addKey (p.edges.getD []) e) }
  | .path q => p.addPath q
  | .other => p

end Pat
end LPG
