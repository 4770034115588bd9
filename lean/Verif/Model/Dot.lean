import Verif.Model.Queries
/-!
# DOT rendering (dotrenderer.go)

`ω` is everything that the writer and the functions of the renderer can change, `ε` the errors. `fmt.Fprintf` calls
`Write` once, with the whole text. The functions of the renderer do not change the graph.
-/
namespace LPG
namespace Dot

/-- `io.Writer`: the state after `Write`, and the error. -/
abbrev Writer (ω ε : Type) := ω → String → ω × Option ε

/-- dotrenderer.go:23-29, `DOTRenderer`. `none`: nil. -/
structure Renderer (ω ε : Type) where
  node : Option (String → Nat → ω → ω × Bool × Option ε)
  edge : Option (String → String → Nat → ω → ω × Bool × Option ε)

variable {ω ε : Type}

/-- dotrenderer.go:47-53, `DefaultDOTNodeRender`. -/
def defaultNode (out : Writer ω ε) (id : String) (w : ω) : ω × Option ε := out w ("  " ++ id ++ ";\n")

/-- dotrenderer.go:55-69, `DefaultDOTEdgeRender`. -/
def defaultEdge (out : Writer ω ε) (s : State) (a b : String) (e : Nat) (w : ω) : ω × Option ε :=
  let lbl := s.edgeGetLabel e
  if lbl ≠ "" then out w ("  " ++ a ++ " -> " ++ b ++ " [label=\"" ++ lbl ++ "\"];\n")
  else out w ("  " ++ a ++ " -> " ++ b ++ ";\n")

/-- dotrenderer.go:31-37, `RenderNode`. -/
def renderNode (d : Renderer ω ε) (out : Writer ω ε) (id : String) (n : Nat) (w : ω) : ω × Bool × Option ε :=
  match d.node with
  | none => let r := defaultNode out id w; (r.1, true, r.2)
  | some f => f id n w

/-- dotrenderer.go:39-45, `RenderEdge`. -/
def renderEdge (d : Renderer ω ε) (out : Writer ω ε) (s : State) (a b : String) (e : Nat) (w : ω) :
    ω × Bool × Option ε :=
  match d.edge with
  | none => let r := defaultEdge out s a b e w; (r.1, true, r.2)
  | some f => f a b e w

/-- `fmt.Sprintf("n%d", x)`. -/
def nodeId (x : Nat) : String := "n" ++ toString x

/-- dotrenderer.go:75-86: the loop over the nodes. -/
def renderNodes (d : Renderer ω ε) (out : Writer ω ε) (x : Nat) (nodeMap : AMap Nat String) :
    List Nat → ω → ω × AMap Nat String × Option ε
  | [], w => (w, nodeMap, none)
  | n :: ns, w =>
    match renderNode d out (nodeId x) n w with
    | (w, _, some err) => (w, nodeMap, some err)
    | (w, true, none) => renderNodes d out (x + 1) (nodeMap.set n (nodeId x)) ns w
    | (w, false, none) => renderNodes d out x nodeMap ns w

/-- dotrenderer.go:87-97: the loop over the edges. -/
def renderEdges (d : Renderer ω ε) (out : Writer ω ε) (s : State) (nodeMap : AMap Nat String) :
    List Nat → ω → ω × Option ε
  | [], w => (w, none)
  | e :: es, w =>
    match nodeMap.get (s.edgeGetFrom e), nodeMap.get (s.edgeGetTo e) with
    | some a, some b =>
      match renderEdge d out s a b e w with
      | (w, _, some err) => (w, some err)
      | (w, _, none) => renderEdges d out s nodeMap es w
    | _, _ => renderEdges d out s nodeMap es w

/-- dotrenderer.go:71-99, `RenderNodesEdges`. `none`: an iteration does not end. -/
def renderNodesEdges (d : Renderer ω ε) (out : Writer ω ε) (s : State) (w : ω) : Option (ω × Option ε) :=
  match s.getNodes with
  | none => none
  | some ns =>
    match renderNodes d out 0 [] ns w with
    | (w, _, some err) => some (w, some err)
    | (w, nodeMap, none) =>
      match s.getEdges with
      | none => none
      | some es => some (renderEdges d out s nodeMap es w)

/-- dotrenderer.go:101-118, `Render`. -/
def render (d : Renderer ω ε) (out : Writer ω ε) (s : State) (name : String) (w : ω) : Option (ω × Option ε) :=
  match out w ("digraph " ++ name ++ " {\n") with
  | (w, some err) => some (w, some err)
  | (w, none) =>
    match out w "rankdir=\"LR\";\n" with
    | (w, some err) => some (w, some err)
    | (w, none) =>
      match renderNodesEdges d out s w with
      | none => none
      | some (w, some err) => some (w, some err)
      | some (w, none) => some (out w "}\n")

end Dot
end LPG
