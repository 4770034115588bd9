import Verif.Model.Live
import Verif.Spec.Conditions
/-!
# What a loop over the nodes should do when the body changes the graph
-/
namespace LPG

/-- the operations, in order -/
def Seen.ops : List Seen → List Op
  | [] => []
  | .did o :: log => o :: Seen.ops log
  | _ :: log => Seen.ops log

/-- the items, in order -/
def Seen.visited : List Seen → List Nat
  | [] => []
  | .item x :: log => x :: Seen.visited log
  | _ :: log => Seen.visited log

/-- the operations that a program calls -/
def Event.ops : List Event → List Op
  | [] => []
  | .op o :: evs => o :: Event.ops evs
  | .next :: evs => Event.ops evs

/-- The log of a program: each call of `Next` yielded an item or was the last, and each operation was called. -/
inductive Happened : List Event → List Seen → Prop where
  | nil : Happened [] []
  | item {evs : List Event} {log : List Seen} (x : Nat) : Happened evs log → Happened (.next :: evs) (.item x :: log)
  | last {evs : List Event} {log : List Seen} : Happened evs log → Happened (.next :: evs) (.last :: log)
  | did {evs : List Event} {log : List Seen} (o : Op) : Happened evs log → Happened (.op o :: evs) (.did o :: log)

/-- A program with an iterator goes as its calls go: it is what happened, and the graph is left as the operations alone leave
it (`after`); and it returns if they do. -/
structure Undisturbed {S ι : Type} (after : Option S) (evs : List Event) (result : Option (List Seen × S × ι)) : Prop where
  happened : ∀ log s it, result = some (log, s, it) → Happened evs log ∧ after = some s
  returns : ∀ s, after = some s → ∃ log it, result = some (log, s, it)

/-- The nodes that are removed have been visited before (`Y`: those visited so far). -/
def RemovesVisited : List Nat → List Seen → Prop
  | _, [] => True
  | Y, .item x :: log => RemovesVisited (Y ++ [x]) log
  | Y, .last :: log => RemovesVisited Y log
  | Y, .did (.detachRemove n) :: log => n ∈ Y ∧ RemovesVisited Y log
  | Y, .did _ :: log => RemovesVisited Y log

instance decRemovesVisited : ∀ (Y : List Nat) (log : List Seen), Decidable (RemovesVisited Y log)
  | _, [] => isTrue trivial
  | Y, .item x :: log => by
    have := decRemovesVisited (Y ++ [x]) log
    unfold RemovesVisited; infer_instance
  | Y, .last :: log => by
    have := decRemovesVisited Y log
    unfold RemovesVisited; infer_instance
  | Y, .did o :: log => by
    have := decRemovesVisited Y log
    cases o <;> unfold RemovesVisited <;> infer_instance

/-- What the log of a loop over the nodes should be, for an iterator made after the history `ops`: every node at most
once and in the order of creation; only nodes that exist when they are yielded; when the iteration ends, every node that
existed when the iterator was made, or at a later call of `Next` that yielded a node. -/
structure VisitsNodes (ops : List Op) (log : List Seen) : Prop where
  order : (Seen.visited log).Pairwise (· < ·)
  alive : ∀ p x q, log = p ++ .item x :: q → x ∈ (Spec.run (ops ++ Seen.ops p)).nodes
  all : ∀ p q, log = p ++ .last :: q → ∀ n ∈ (Spec.run ops).nodes, n ∈ Seen.visited p
  later : ∀ p x q r, log = p ++ .item x :: q ++ .last :: r →
    ∀ n ∈ (Spec.run (ops ++ Seen.ops p)).nodes, n ∈ Seen.visited (p ++ .item x :: q)

/-- The same, when the body may also remove nodes that were not visited: a yielded node existed at some time since the
iterator was made; when the iteration ends, every node that existed when the iterator was made and that still exists was
visited. -/
structure VisitsSurvivors (ops : List Op) (log : List Seen) : Prop where
  order : (Seen.visited log).Pairwise (· < ·)
  known : ∀ p x q, log = p ++ .item x :: q → ∃ p1 p2, p = p1 ++ p2 ∧ x ∈ (Spec.run (ops ++ Seen.ops p1)).nodes
  all : ∀ p q, log = p ++ .last :: q →
    ∀ n ∈ (Spec.run ops).nodes, n ∈ (Spec.run (ops ++ Seen.ops p)).nodes → n ∈ Seen.visited p

/-- The same, for a graph whose enumeration need not be right: `ns` is what the iteration would have yielded had the graph not
changed. Every node is yielded at most once and in order; a yielded node is one of `ns` or existed at some time since the
iterator was made; when the iteration ends, every node of `ns` that still exists was visited. -/
structure VisitsListed (ns : List Nat) (ops : List Op) (log : List Seen) : Prop where
  order : (Seen.visited log).Pairwise (· < ·)
  known : ∀ p x q, log = p ++ .item x :: q → x ∈ ns ∨ ∃ p1 p2, p = p1 ++ p2 ∧ x ∈ (Spec.run (ops ++ Seen.ops p1)).nodes
  all : ∀ p q, log = p ++ .last :: q →
    ∀ n ∈ ns, n ∈ (Spec.run (ops ++ Seen.ops p)).nodes → n ∈ Seen.visited p

end LPG
