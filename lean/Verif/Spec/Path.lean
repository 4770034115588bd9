import Verif.Model.Path
/-!
# What a path is

A path visits a list of nodes over a list of steps. The definitions do not use the functions of the model except the
ends of a step.
-/
namespace LPG

/-- A path is either a single node or a list of steps, not both. -/
def Path.WF (p : Path) : Prop := p.only ≠ none → p.path = []

/-- The nodes visited. -/
def Path.visits (g : Ends) (p : Path) : List Nat :=
  match p.only, p.path with
  | some n, _ => [n]
  | none, [] => []
  | none, e :: es => e.getSourceNode g :: (e :: es).map (fun x => x.getTargetNode g)

/-- Every step begins where the previous one ends. -/
def Connected (g : Ends) (es : List PathElement) : Prop :=
  ∀ i (h : i + 1 < es.length), es[i].getTargetNode g = es[i + 1].getSourceNode g

/-- The path `p` followed by `q`; `none` if `q` does not begin at the last node of `p`. -/
def Path.join (g : Ends) (p q : Path) : Option Path :=
  if p.visits g = [] then some q
  else if q.visits g = [] then some p
  else if (p.visits g).getLast? = (q.visits g).head? then
    some (if p.path = [] then q else if q.path = [] then p else { only := none, path := p.path ++ q.path })
  else none

/-- `q` is an initial segment of `p`. -/
def Path.InitialSegment (g : Ends) (q p : Path) : Prop := q.visits g <+: p.visits g ∧ q.path <+: p.path

/-- The path objects a program can get hold of, also after recovering from a panic. -/
inductive Path.Built (g : Ends) : Path → Prop
  | zero : Built g {}
  | elements (es : List PathElement) : Built g (newPathFromElements es)
  | node {n : Option Nat} {p : Path} : pathFromNode n = some p → Built g p
  | clone {p : Path} : Built g p → Built g p.clone
  | setOnlyNode {p : Path} (n : Option Nat) : Built g p → Built g (p.setOnlyNode n)
  | clear {p : Path} : Built g p → Built g p.clear
  | append {p q : Path} {es : List PathElement} : Built g p → p.append g es = .ok q → Built g q
  | appendPanic {p q : Path} {es : List PathElement} : Built g p → p.append g es = .error q → Built g q
  | appendPath {p q p' q' : Path} : Built g p → Built g q → p.appendPath g q = .ok (p', q') → Built g p'
  | appendPathArg {p q p' q' : Path} : Built g p → Built g q → p.appendPath g q = .ok (p', q') → Built g q'
  | appendPathPanic {p q p' q' : Path} : Built g p → Built g q → p.appendPath g q = .error (p', q') → Built g p'
  | appendPathPanicArg {p q p' q' : Path} : Built g p → Built g q → p.appendPath g q = .error (p', q') → Built g q'
  | slice {p q : Path} {s e : Int} : Built g p → p.slice g s e = some q → Built g q
  | removeLast {p : Path} (s : State) : Built g p → Built g (p.removeLast s).2
  | removeFirst {p : Path} (s : State) : Built g p → Built g (p.removeFirst s).2

end LPG
