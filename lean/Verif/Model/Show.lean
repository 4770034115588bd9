import Verif.Model.Path
import Mathlib.Data.List.Forall2
/-!
# The texts of nodes, edges, paths and sets of strings (node.go, edge.go, path.go, properties.go, stringset.go)

A text is its list of characters. Go ranges over a map in any order, and in another order each time, so there is a
relation between an object and the texts that `String` may return for it. `fmt.Sprintf("%v", v)` is an arbitrary function
of the value. Simplification: a value that contains the node itself in a slice or in a map, whose text would not end, is
not considered.
-/
namespace LPG
namespace Show

abbrev Text := List Char

/-- What is not in this package: `text v` is what `%v` prints, `handle v` says that the dynamic type of `v` is `*Node` or
`*Edge`, `space` is `unicode.IsSpace`. -/
structure Env where
  text : Value → Text
  handle : Value → Bool
  space : Char → Bool

/-- `strings.Join` -/
def join (sep : Text) : List Text → Text
  | [] => []
  | [x] => x
  | x :: y :: r => x ++ sep ++ join sep (y :: r)

/-- `strings.TrimSpace` -/
def trimSpace (E : Env) (t : Text) : Text := ((t.dropWhile E.space).reverse.dropWhile E.space).reverse

/-- properties.go:211-223, `properties.String`: the loop; the list is in the order in which the map is visited. -/
def elements (E : Env) : Props → List Text
  | [] => []
  | (k, v) :: ps =>
    if E.handle v then elements E ps else (k.toList ++ ':' :: E.text v) :: elements E ps

/-- properties.go:211-223, `properties.String`. -/
def propsText (E : Env) (ps : Props) : Text := '{' :: join [' '] (elements E ps) ++ ['}']

/-- node.go:126-133, `Node.String`; the labels are in the order of `Slice` (stringset.go:126-132). -/
def nodeText (E : Env) (labels : List String) (ps : Props) : Text :=
  let ls := join [':'] (labels.map String.toList)
  let ls := if labels.length > 0 then ':' :: ls else ls
  '(' :: ls ++ ' ' :: propsText E ps ++ [')']

/-- edge.go:92-95, `Edge.String`. -/
def edgeText (E : Env) (label : String) (ps : Props) : Text :=
  '[' :: ':' :: label.toList ++ ' ' :: propsText E ps ++ [']']

/-- stringset.go:140-142, `StringSet.String`. -/
def setText (xs : List String) : Text := join [',', ' '] (xs.map String.toList)

/-- path.go:196-211, `Path.String`: the loop. For each element of the path the texts of the two ends of its edge, and
`Reverse`. -/
def pathLoop : List (Text × Text × Bool) → Text
  | [] => []
  | (a, b, r) :: es => a ++ ['-', '>'] ++ b ++ [' '] ++ (if r then "Reverse ".toList else []) ++ pathLoop es

/-- path.go:196-211, `Path.String`. -/
def pathText (E : Env) (es : List (Text × Text × Bool)) : Text := trimSpace E (pathLoop es)

/-- `String` of the node may return `t`. -/
def OfNode (E : Env) (s : State) (n : Nat) (t : Text) : Prop :=
  ∃ ls ps, ls.Perm (s.nLabels n) ∧ ps.Perm (s.nProps n) ∧ t = nodeText E ls ps

/-- `String` of the edge may return `t`. -/
def OfEdge (E : Env) (s : State) (e : Nat) (t : Text) : Prop :=
  ∃ ps, ps.Perm (s.eProps e) ∧ t = edgeText E (s.eLabel e) ps

/-- `String` of the path may return `t`. -/
def OfPath (E : Env) (s : State) (p : Path) (t : Text) : Prop :=
  ∃ ts : List (Text × Text × Bool),
    List.Forall₂ (fun el x => OfNode E s (s.eFrom el.edge) x.1 ∧ OfNode E s (s.eTo el.edge) x.2.1 ∧ x.2.2 = el.reverse)
      p.path ts ∧ t = pathText E ts

end Show
end LPG
