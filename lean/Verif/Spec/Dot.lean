import Verif.Model.Dot
/-!
# What DOT rendering has to do

Rendering is a sequence of events: a text is written, a node or an edge is rendered under names. Each event may fail.
-/
namespace LPG
namespace Dot

/-- A node was rendered as `name`, or excluded. -/
structure NodeEv (ε : Type) where
  name : String
  node : Nat
  rendered : Bool
  err : Option ε

/-- An edge between the nodes that are called `src` and `dst` was rendered. -/
structure EdgeEv (ε : Type) where
  src : String
  dst : String
  edge : Nat
  err : Option ε

inductive Ev (ε : Type) where
  | text (t : String) (err : Option ε)
  | node (x : NodeEv ε)
  | edge (x : EdgeEv ε)

variable {ω ε : Type}

def Ev.err : Ev ε → Option ε
  | .text _ err => err
  | .node x => x.err
  | .edge x => x.err

/-- The statement for an edge in the default form. -/
def edgeLine (a b label : String) : String :=
  if label = "" then "  " ++ a ++ " -> " ++ b ++ ";\n" else "  " ++ a ++ " -> " ++ b ++ " [label=\"" ++ label ++ "\"];\n"

/-- An event takes the world from one state to another one. -/
inductive Happens (d : Renderer ω ε) (out : Writer ω ε) (label : Nat → String) : ω → Ev ε → ω → Prop
  | text {w t err w'} : out w t = (w', err) → Happens d out label w (.text t err) w'
  | node {f w name n r err w'} : d.node = some f → f name n w = (w', r, err) →
      Happens d out label w (.node ⟨name, n, r, err⟩) w'
  | nodeDefault {w name n err w'} : d.node = none → out w ("  " ++ name ++ ";\n") = (w', err) →
      Happens d out label w (.node ⟨name, n, true, err⟩) w'
  | edge {f w a b e r err w'} : d.edge = some f → f a b e w = (w', r, err) →
      Happens d out label w (.edge ⟨a, b, e, err⟩) w'
  | edgeDefault {w a b e err w'} : d.edge = none → out w (edgeLine a b (label e)) = (w', err) →
      Happens d out label w (.edge ⟨a, b, e, err⟩) w'

/-- Events one after another. -/
inductive Trace (d : Renderer ω ε) (out : Writer ω ε) (label : Nat → String) : ω → List (Ev ε) → ω → Prop
  | nil {w} : Trace d out label w [] w
  | cons {w x w' xs w''} : Happens d out label w x w' → Trace d out label w' xs w'' → Trace d out label w (x :: xs) w''

/-- The nodes that are rendered, with their names. -/
def rendered (ns : List (NodeEv ε)) : List (Nat × String) :=
  (ns.filter (fun x => x.rendered && x.err.isNone)).map (fun x => (x.node, x.name))

/-- A complete rendering of the nodes `N` and the edges `E`: a header, each node once, under a name that no other
rendered node has, each edge between rendered nodes once, with the names of its ends, and the end. -/
structure Complete (title : String) (N E : List Nat) (src dst : Nat → Nat) (ns : List (NodeEv ε)) (es : List (EdgeEv ε))
    (evs : List (Ev ε)) : Prop where
  shape : ∃ e1 e2 e3, evs = [.text ("digraph " ++ title ++ " {\n") e1, .text "rankdir=\"LR\";\n" e2] ++ ns.map .node ++
    es.map .edge ++ [.text "}\n" e3]
  nodes : ns.map NodeEv.node = N
  names : ((rendered ns).map Prod.snd).Nodup
  edges : es.map EdgeEv.edge =
    E.filter (fun e => src e ∈ (rendered ns).map Prod.fst ∧ dst e ∈ (rendered ns).map Prod.fst)
  ends : ∀ x ∈ es, (src x.edge, x.src) ∈ rendered ns ∧ (dst x.edge, x.dst) ∈ rendered ns

/-- What `Render` has to do with a graph with the nodes `N` and the edges `E`, if the world is `w` before and `w'`
afterwards and the result is `err`: the events of a complete rendering up to the first one that fails, or all of them. -/
def Renders (d : Renderer ω ε) (out : Writer ω ε) (title : String) (N E : List Nat) (src dst : Nat → Nat)
    (label : Nat → String) (w w' : ω) (err : Option ε) : Prop :=
  ∃ done rest ns es, Complete title N E src dst ns es (done ++ rest) ∧ Trace d out label w done w' ∧
    match err with
    | none => rest = [] ∧ ∀ x ∈ done, x.err = none
    | some err => ∃ init last, done = init ++ [last] ∧ last.err = some err ∧ ∀ x ∈ init, x.err = none

end Dot
end LPG
