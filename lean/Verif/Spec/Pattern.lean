import Verif.Model.Pattern
import Verif.Spec.Match
import Verif.Spec.VPath
/-!
# What a pattern should match

A match gives every node item of the pattern a node and every edge item a trail, that is a sequence of edges. Nothing here
refers to plans, start elements or the marks that a path puts on its elements.
-/
namespace LPG
open Pat

/-- Following the edge `e` in direction `d` leads from `a` to `b`. -/
def Along (g : Ends) (d : State.Dir) (a e b : Nat) : Prop :=
  match d with
  | .outgoing => g.src e = a ∧ g.dst e = b
  | .incoming => g.dst e = a ∧ g.src e = b
  | .any => (g.src e = a ∧ g.dst e = b) ∨ (g.dst e = a ∧ g.src e = b)

/-- Following the edges one after the other in direction `d` leads from `a` to `b`. -/
def Joins (g : Ends) (d : State.Dir) : Nat → List Nat → Nat → Prop
  | a, [], b => a = b
  | a, e :: es, b => ∃ c, Along g d a e c ∧ Joins g d c es b

/-- The value of an item in a match. -/
inductive Val where
  | node (n : Nat)
  | trail (es : List Nat)
deriving DecidableEq, Repr

/-- The values of the items. -/
abbrev Match := List Val

/-- The direction of an edge item, read from left to right. -/
def itemDir (p : Item) : State.Dir := if p.toLeft then .incoming else if p.undirected then .any else .outgoing

/-- The node satisfies the item: a node of the graph with the labels and the properties, and one of the nodes of the symbol if
the name is bound. -/
def NodeFits (σ : Spec) (symbols : Symbols) (p : Item) (n : Nat) : Prop :=
  n ∈ σ.nodes ∧ σ.NodeMatches p.labels p.props n ∧
  (p.name ≠ "" → ∀ sym, AMap.get symbols p.name = some sym → ∃ xs, sym.nodes = some xs ∧ n ∈ xs)

/-- The trail satisfies the item and leads from `a` to `b`: at least one edge, no edge twice, all edges are in the graph, with
the label and the properties, and in the set of the symbol if the name is bound; the length is within the bounds. -/
def EdgeFits (σ : Spec) (symbols : Symbols) (p : Item) (a : Nat) (es : List Nat) (b : Nat) : Prop :=
  es ≠ [] ∧ es.Nodup ∧ (∀ e ∈ es, e ∈ σ.edges ∧ σ.EdgeMatches p.labels p.props e) ∧
  Joins σ.ends (itemDir p) a es b ∧ LengthOk p.min p.max es.length ∧
  (p.name ≠ "" → ∀ sym, AMap.get symbols p.name = some sym → ∃ xs, sym.edges = some xs ∧ ∀ e ∈ es, e ∈ xs)

/-- The match satisfies every item of the pattern, whose items are nodes and edges in turn. -/
def Matches (σ : Spec) (symbols : Symbols) (pat : Pattern) (M : Match) : Prop :=
  M.length = pat.length ∧ ∀ i (_ : i < pat.length),
    if i % 2 = 0 then ∃ n, M[i]? = some (.node n) ∧ NodeFits σ symbols (itemAt pat i) n
    else ∃ a es b, M[i - 1]? = some (.node a) ∧ M[i]? = some (.trail es) ∧ M[i + 1]? = some (.node b) ∧
      EdgeFits σ symbols (itemAt pat i) a es b

/-- The match satisfies the item, whatever its values for other items. -/
def ItemFits (σ : Spec) (symbols : Symbols) (pat : Pattern) (M : Match) (i : Nat) : Prop :=
  if i % 2 = 0 then ∃ n, M[i]? = some (.node n) ∧ NodeFits σ symbols (itemAt pat i) n
  else ∃ a es b, M[i - 1]? = some (.node a) ∧ M[i]? = some (.trail es) ∧ M[i + 1]? = some (.node b) ∧
    EdgeFits σ symbols (itemAt pat i) a es b

/-- The value of the item at `index` is one of `xs`, or consists of edges in `xs`. -/
def StartsIn (xs : List Nat) (index : Nat) (M : Match) : Prop :=
  match M[index]? with
  | some (.node n) => n ∈ xs
  | some (.trail es) => ∀ e ∈ es, e ∈ xs
  | none => True

/-- Items with the same name that is not bound have the same value. -/
def NamesAgree (symbols : Symbols) (pat : Pattern) (M : Match) : Prop :=
  ∀ i j, i < pat.length → j < pat.length → (itemAt pat i).name = (itemAt pat j).name → (itemAt pat i).name ≠ "" →
    AMap.get symbols (itemAt pat i).name = none → M[i]? = M[j]?

/-- The same for the node items only. -/
def NodesAgree (symbols : Symbols) (pat : Pattern) (M : Match) : Prop :=
  ∀ i j, i < pat.length → j < pat.length → i % 2 = 0 → j % 2 = 0 → (itemAt pat i).name = (itemAt pat j).name →
    (itemAt pat i).name ≠ "" → AMap.get symbols (itemAt pat i).name = none → M[i]? = M[j]?

/-- A search that starts at `index` goes to the right first, then to the left: the items up to `j`. -/
def UpTo (index j k : Nat) : Prop := if index ≤ j then index ≤ k ∧ k ≤ j else j ≤ k

/-- The search comes to `j` after `i`, both are node items with the same free name, and no item between them has this name. -/
structure NextUse (symbols : Symbols) (pat : Pattern) (index i j : Nat) : Prop where
  left : i < pat.length ∧ i % 2 = 0
  right : j < pat.length ∧ j % 2 = 0
  after : UpTo index j i ∧ i ≠ j
  name : (itemAt pat i).name = (itemAt pat j).name
  ne : (itemAt pat j).name ≠ ""
  free : AMap.get symbols (itemAt pat j).name = none
  next : ∀ k, k < pat.length → UpTo index j k → ¬ UpTo index i k → k ≠ j → (itemAt pat k).name ≠ (itemAt pat j).name

/-- Where a name is used again, the match respects it, or it could have: with the same values up to the first use there are
values up to the second use that fit the pattern and respect the name. -/
def Respected (σ : Spec) (symbols : Symbols) (pat : Pattern) (index : Nat) (M : Match) : Prop :=
  ∀ i j, NextUse symbols pat index i j → ∃ P : Match, P.length = pat.length ∧ (∀ k, k < pat.length → UpTo index i k → P[k]? = M[k]?) ∧
    (∀ k, k < pat.length → UpTo index j k → ItemFits σ symbols pat P k) ∧ P[j]? = P[i]?

/-- The symbols without the names of edge items: these names are free. -/
def nodeSymbols (symbols : Symbols) (pat : Pattern) : Symbols :=
  symbols.filter fun kv => (List.range pat.length).all fun i => decide (i % 2 = 1 → (itemAt pat i).name ≠ kv.1)

/-- What a search may begin with at the item `index`: all nodes or edges of the graph that satisfy the item, or the edges that
the name of the item is bound to. -/
def Starters (σ : Spec) (symbols : Symbols) (pat : Pattern) (index : Nat) (xs : List Nat) : Prop :=
  if index % 2 = 0 then (∀ n ∈ xs, n ∈ σ.nodes) ∧ ∀ n, NodeFits σ symbols (itemAt pat index) n → n ∈ xs
  else (∀ e ∈ xs, e ∈ σ.edges) ∧
    ((∀ e ∈ σ.edges, σ.EdgeMatches (itemAt pat index).labels (itemAt pat index).props e → e ∈ xs) ∨
      (itemAt pat index).name ≠ "" ∧ ∃ sym, AMap.get symbols (itemAt pat index).name = some sym ∧ xs = sym.edges.getD [])

/-- The steps lead from `a` to `b`. -/
def Linked (g : Ends) : Nat → List PathElement → Nat → Prop
  | a, [], b => a = b
  | a, pe :: es, b => pe.getSourceNode g = a ∧ Linked g (pe.getTargetNode g) es b

/-- The path visits exactly these edges, from `a` to `b`. -/
def Visits (g : Ends) (p : Path) (a : Nat) (es : List Nat) (b : Nat) : Prop :=
  p.only = none ∧ p.path.map (·.edge) = es ∧ Linked g a p.path b

/-- The edges of the trails of a match, in the order of the pattern. -/
def Match.edges : Match → List Nat
  | [] => []
  | .node _ :: M => Match.edges M
  | .trail es :: M => es ++ Match.edges M

/-- The path is the matched path: it visits the matched edges in the order of the pattern, from the first node to the last.
If the pattern is a single node, it is that node. -/
def PathShows (g : Ends) (M : Match) (p : Path) : Prop :=
  ∃ a b, M.head? = some (.node a) ∧ M.getLast? = some (.node b) ∧
    (M.length = 1 → p = { only := some a }) ∧ (M.length ≠ 1 → Visits g p a (Match.edges M) b)

/-- The value reported for the item `i`, when the search started at `start`. A trail found from its right end is reported
from right to left; an edge at which the search started is reported from its source to its target. -/
def ItemShows (g : Ends) (start : Nat) (M : Match) (i : Nat) (v : Res) : Prop :=
  (∃ n, M[i]? = some (.node n) ∧ v = .node n) ∨
  (∃ a es b p, M[i - 1]? = some (.node a) ∧ M[i]? = some (.trail es) ∧ M[i + 1]? = some (.node b) ∧ v = .path p ∧
    (start < i → Visits g p a es b) ∧ (i < start → Visits g p b es.reverse a) ∧
    (i = start → p = { path := es.map (fun e => ⟨e, false⟩) }))

/-- The reported symbols: every name of the pattern has a value, and that is the value of an item with that name. -/
def SymbolsShow (g : Ends) (start : Nat) (pat : Pattern) (M : Match) (syms : AMap String Res) : Prop :=
  ∀ name, (∀ v, AMap.get syms name = some v →
      name ≠ "" ∧ ∃ i, i < pat.length ∧ (itemAt pat i).name = name ∧ ItemShows g start M i v) ∧
    ((∃ i, i < pat.length ∧ (itemAt pat i).name = name) → name ≠ "" → (AMap.get syms name).isSome)

/-- The value is a trail of loops. -/
def Val.loops (σ : Spec) : Option Val → Bool
  | some (.trail es) => es.all (fun e => decide (σ.src e = σ.dst e))
  | _ => false

/-- The item is undirected and for one edge, and this edge is a loop in the match. -/
def loopAt (σ : Spec) (pat : Pattern) (M : Match) (i : Nat) : Bool :=
  decide (i % 2 = 1 ∧ itemDir (itemAt pat i) = .any ∧ (itemAt pat i).min = 1 ∧ (itemAt pat i).max = 1) && Val.loops σ M[i]?

/-- The number of undirected items for one edge for which the match has a loop. -/
def Match.loops (σ : Spec) (pat : Pattern) (M : Match) : Nat := (List.range pat.length).countP (loopAt σ pat M)

/-- What a value adds to the path of a report: all edges of a trail, or only the last one. -/
def Val.shown (lastOnly : Bool) : Option Val → List Nat
  | some (.trail es) => if lastOnly then es.getLast?.toList else es
  | _ => []

/-- The edges of the path of a report, when the search started at `start`: of every trail before the start only the last
edge, then the whole trails. -/
def Match.shown (start : Nat) (M : Match) : List Nat :=
  (List.range M.length).flatMap fun i => Val.shown (decide (i < start)) M[i]?

/-- The node at which the path of a report begins, when the search started at `start`: the first node of the match. If the first
trail is before the start, only its last edge is in the path, which begins where this edge begins. If the search started at the
first edge and this is from right to left, the path begins where the edge begins. -/
def ShownFrom (g : Ends) (pat : Pattern) (start : Nat) (M : Match) (n : Nat) : Prop :=
  ∃ a es b, M[0]? = some (.node a) ∧ M[1]? = some (.trail es) ∧ M[2]? = some (.node b) ∧
    (start = 0 → n = a) ∧ (start = 1 → n = if itemDir (itemAt pat 1) = .incoming then b else a) ∧
    (1 < start → ∀ e ∈ es.getLast?, Along g (itemDir (itemAt pat 1)) n e b)

/-- The node at which it ends: the last node of the match. If the search started at the last edge and this is from right to left,
the path ends where the edge ends. -/
def ShownTo (pat : Pattern) (start : Nat) (M : Match) (n : Nat) : Prop :=
  M[if start = pat.length - 2 ∧ itemDir (itemAt pat start) = .incoming then pat.length - 3 else pat.length - 1]? = some (.node n)

/-- The edges of the report fit together: the last edge of every trail before the start, except the first trail, begins where
the trail begins, and an edge from right to left at which the search started is a loop, if there are other edges. -/
def Glues (g : Ends) (pat : Pattern) (start : Nat) (M : Match) : Prop :=
  (∀ i a es b, 3 ≤ i → i < start → M[i - 1]? = some (.node a) → M[i]? = some (.trail es) → M[i + 1]? = some (.node b) →
    ∀ e ∈ es.getLast?, Along g (itemDir (itemAt pat i)) a e b) ∧
  (start % 2 = 1 → itemDir (itemAt pat start) = .incoming → pat.length ≠ 3 → M[start - 1]? = M[start + 1]?)

/-- The report of a search from `start` has the whole path: the trails before the start are single edges, and an edge from
right to left at which the search started is a loop. -/
def Whole (pat : Pattern) (start : Nat) (M : Match) : Prop :=
  (∀ i es, i < start → M[i]? = some (.trail es) → es.length = 1) ∧
  (start % 2 = 1 → itemDir (itemAt pat start) = .incoming → M[start - 1]? = M[start + 1]?)

end LPG
