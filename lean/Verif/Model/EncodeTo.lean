import Verif.Model.Json
/-!
# Encode with a writer that may fail (json.go:176-386)

`Verif.Model.Json` has what `Encode` writes if every `Write` succeeds. Here each `out.Write` is a call, as in the code, and
the function returns at the first error. `bytes` is the text of a token. `ω` is everything that `Write` can change; it does
not change the graph.
-/
namespace LPG
namespace Json

/-- `io.Writer`: the state after `Write`, and the error. -/
abbrev Writer (ω ε : Type) := ω → List UInt8 → ω × Option ε

/-- The errors of `Encode`: one of the writer, or one of a property. -/
inductive Fail (ε : Type) where
  | write (e : ε)
  | property
deriving DecidableEq, Repr

/-- A piece of `Encode`. `none`: an iteration does not end. -/
abbrev Piece (ω ε : Type) := ω → Option (ω × Option (Fail ε))

section
variable {ω ε : Type}

/-- `if err != nil { return err }` -/
def Piece.andThen (p q : Piece ω ε) : Piece ω ε := fun w =>
  match p w with
  | none => none
  | some (w, some e) => some (w, some e)
  | some (w, none) => q w

def skip : Piece ω ε := fun w => some (w, none)

def fail : Piece ω ε := fun w => some (w, some .property)

/-- One call of `out.Write`. -/
def put (bytes : Tok → List UInt8) (out : Writer ω ε) (ts : List Tok) : Piece ω ε := fun w =>
  match out w (ts.flatMap bytes) with
  | (w, none) => some (w, none)
  | (w, some e) => some (w, some (.write e))

variable (bytes : Tok → List UInt8) (out : Writer ω ε) (c : Codec) (s : State) (nodeMap : AMap Nat Nat)

/-- json.go:198-230, `encodeEdge`. -/
def encodeEdgeTo (writeFrom : Bool) (e : Nat) : Piece ω ε :=
  match edgeValue c s nodeMap writeFrom e with
  | none => fail
  | some v => put bytes out (text v)

/-- json.go:314-340. -/
def writeOutgoingTo (first : Bool) : List Nat → Piece ω ε
  | [] => if first then skip else put bytes out [.rbrack]
  | e :: es =>
    Piece.andThen
      (if first then
        (put bytes out [.comma]).andThen ((put bytes out [.str "edges", .colon]).andThen (put bytes out [.lbrack]))
        else put bytes out [.comma])
      (Piece.andThen (encodeEdgeTo bytes out c s nodeMap false e) (writeOutgoingTo false es))

/-- json.go:277-287: the labels. -/
def writeLabelsTo (n : Nat) : Piece ω ε :=
  if (s.nLabels n).length > 0 then
    (put bytes out [.comma]).andThen ((put bytes out [.str "labels", .colon]).andThen
      (put bytes out (text (.arr ((s.nLabels n).map .str)))))
  else skip

/-- json.go:288-310: the properties. -/
def writePropsTo (n : Nat) : Piece ω ε :=
  if (s.nProps n).length > 0 then
    (put bytes out [.comma]).andThen ((put bytes out [.str "properties", .colon]).andThen
      (match marshalProperties c (s.nProps n) [] with
      | none => fail
      | some m => put bytes out (text (.obj m))))
  else skip

/-- json.go:312-345: the end of a node, with its edges. -/
def writeTailTo (n : Nat) : Piece ω ε :=
  if c.separately then put bytes out [.rbrace]
  else fun w =>
    match s.nodeEdges n .outgoing with
    | none => none
    | some es => (Piece.andThen (writeOutgoingTo bytes out c s nodeMap true es) (put bytes out [.rbrace])) w

/-- json.go:261-345: one node. -/
def writeNodeTo (n ix : Nat) : Piece ω ε :=
  (put bytes out [.lbrace]).andThen ((put bytes out [.str "n", .colon]).andThen ((put bytes out [.num ix]).andThen
    ((writeLabelsTo bytes out s n).andThen ((writePropsTo bytes out c s n).andThen (writeTailTo bytes out c s nodeMap n)))))

/-- json.go:251-345: the nodes, in the order in which the runtime goes through the map. -/
def writeNodesTo (first : Bool) : AMap Nat Nat → Piece ω ε
  | [] => skip
  | (n, ix) :: rest =>
    Piece.andThen (if first then skip else put bytes out [.comma])
      (Piece.andThen (writeNodeTo bytes out c s nodeMap n ix) (writeNodesTo false rest))

/-- json.go:362-375: the edges, if they are written separately. -/
def writeEdgesTo (first : Bool) : List Nat → Piece ω ε
  | [] => skip
  | e :: es =>
    Piece.andThen (if first then skip else put bytes out [.comma])
      (Piece.andThen (encodeEdgeTo bytes out c s nodeMap true e) (writeEdgesTo false es))

/-- json.go:243-346: the array of nodes. -/
def writeNodeArrayTo (order : AMap Nat Nat → AMap Nat Nat) : Piece ω ε :=
  if nodeMap.length > 0 then
    (put bytes out [.str "nodes", .colon]).andThen ((put bytes out [.lbrack]).andThen
      (Piece.andThen (writeNodesTo bytes out c s nodeMap true (order nodeMap)) (put bytes out [.rbrack])))
  else skip

/-- json.go:352-379: the array of edges. -/
def writeEdgeArrayTo : Piece ω ε :=
  if c.separately then
    (put bytes out [.comma]).andThen ((put bytes out [.str "edges", .colon]).andThen ((put bytes out [.lbrack]).andThen
      (fun w =>
        match s.getEdges with
        | none => none
        | some es => (Piece.andThen (writeEdgesTo bytes out c s nodeMap true es) (put bytes out [.rbrack])) w)))
  else skip
end

/-- json.go:176-386, `Encode`. `order` is the order in which the runtime goes through the map of the nodes. -/
def encodeTo {ω ε : Type} (bytes : Tok → List UInt8) (out : Writer ω ε) (c : Codec) (order : AMap Nat Nat → AMap Nat Nat)
    (s : State) : Piece ω ε := fun w =>
  match s.getNodes with
  | none => none
  | some ns =>
    let nodeMap := number 0 ns []
    ((put bytes out [.lbrace]).andThen ((writeNodeArrayTo bytes out c s nodeMap order).andThen
      ((writeEdgeArrayTo bytes out c s nodeMap).andThen (put bytes out [.rbrace])))) w

end Json
end LPG
