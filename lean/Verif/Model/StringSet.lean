import Verif.Model.Base
/-!
# StringSet (stringset.go)

A `StringSet` is a pointer to a map; several sets may point to the same map (`Clone` copies the pointer only). The
heap holds the maps: an address is mapped to the keys of the map, in an arbitrary order.
-/
namespace LPG

/-- The heap of `map[string]struct{}` objects. -/
structure SHeap where
  mem : Nat → List String
  next : Nat

/-- stringset.go:23-25, `StringSet`: the pointer `M`; `none` is a nil map. -/
abbrev SRef := Option Nat

namespace SHeap

/-- The keys of a map; a nil map reads as empty. -/
def keys (h : SHeap) : SRef → List String
  | none => []
  | some a => h.mem a

/-- `make(map[string]struct{})`. -/
def alloc (h : SHeap) : SHeap × SRef := ({ mem := upd h.mem h.next [], next := h.next + 1 }, some h.next)

/-- `m[x] = struct{}{}`; writing to a nil map would panic, the code only writes to maps it has just made. -/
def put (h : SHeap) (r : SRef) (x : String) : SHeap :=
  match r with
  | none => h
  | some a => if (h.mem a).contains x then h else { h with mem := upd h.mem a (h.mem a ++ [x]) }

/-- A loop of such assignments. -/
def putAll (h : SHeap) (r : SRef) (xs : List String) : SHeap := xs.foldl (fun h x => h.put r x) h

/-- stringset.go:27-33, `NewStringSet`. -/
def newSet (h : SHeap) (xs : List String) : SHeap × SRef :=
  let (h, r) := h.alloc
  (h.putAll r xs, r)

/-- stringset.go:35-37, `Clone`: shares the map. -/
def clone (_ : SHeap) (r : SRef) : SRef := r

/-- stringset.go:84-94, `Add`. Returns the heap and the new value of the receiver. -/
def add (h : SHeap) (r : SRef) (xs : List String) : SHeap × SRef :=
  let m := h.keys r
  let (h, r') := h.alloc
  let h := h.putAll r' m
  (h.putAll r' xs, r')

/-- stringset.go:96-106, `AddSet`. -/
def addSet (h : SHeap) (r s : SRef) : SHeap × SRef :=
  let m := h.keys r
  let (h, r') := h.alloc
  let h := h.putAll r' m
  (h.putAll r' (h.keys s), r')

/-- stringset.go:112-118: the inner loop of `Remove`. -/
def hasLoop (x : String) : List String → Bool
  | [] => false
  | y :: ys => if y = x then true else hasLoop x ys

/-- stringset.go:108-124, `Remove`. -/
def remove (h : SHeap) (r : SRef) (xs : List String) : SHeap × SRef :=
  let m := h.keys r
  let (h, r') := h.alloc
  (h.putAll r' (m.filter (fun x => !hasLoop x xs)), r')

/-- stringset.go:43-46, `Has`. -/
def has (h : SHeap) (r : SRef) (x : String) : Bool := (h.keys r).contains x

/-- stringset.go:48-55 `HasAny` and 57-64 `HasAnySet`: the loop. -/
def hasAny (h : SHeap) (r : SRef) : List String → Bool
  | [] => false
  | x :: xs => if h.has r x then true else h.hasAny r xs

/-- stringset.go:57-64, `HasAnySet`. -/
def hasAnySet (h : SHeap) (r s : SRef) : Bool := h.hasAny r (h.keys s)

/-- stringset.go:66-73 `HasAll` and 75-82 `HasAllSet`: the loop. -/
def hasAll (h : SHeap) (r : SRef) : List String → Bool
  | [] => true
  | x :: xs => if !h.has r x then false else h.hasAll r xs

/-- stringset.go:75-82, `HasAllSet`. -/
def hasAllSet (h : SHeap) (r s : SRef) : Bool := h.hasAll r (h.keys s)

/-- stringset.go:157, `Len`. -/
def len (h : SHeap) (r : SRef) : Nat := (h.keys r).length

/-- stringset.go:39-41, `IsEqual`. -/
def isEqual (h : SHeap) (r s : SRef) : Bool := decide (h.len r = h.len s) && h.hasAllSet r s

/-- stringset.go:126-132, `Slice`: an arbitrary order. -/
def slice (h : SHeap) (r : SRef) : List String := h.keys r

/-- stringset.go:134-138, `SortedSlice`; `sort.Strings` of the standard library. -/
def sortedSlice (h : SHeap) (r : SRef) : List String := (h.slice r).mergeSort (fun a b => decide (a ≤ b))

end SHeap

/-- Assignments to set variables (local variables, or the label fields of nodes): `v := NewStringSet(xs...)`,
`v := w.Clone()` (also what `node.GetLabels` and `node.SetLabels` do: node.go:47, graph.go:415), `v := w`,
`v.Add(xs...)`, `v.AddSet(w)`, `v.Remove(xs...)`. -/
inductive SSOp where
  | new (v : Nat) (xs : List String)
  | clone (v w : Nat)
  | copy (v w : Nat)
  | add (v : Nat) (xs : List String)
  | addSet (v w : Nat)
  | remove (v : Nat) (xs : List String)

/-- The heap and the variables. -/
structure SSState where
  heap : SHeap
  vars : Nat → SRef

/-- All variables start as the zero value `StringSet{}`. -/
def SSState.init : SSState := { heap := { mem := fun _ => [], next := 0 }, vars := fun _ => none }

def SSState.step (s : SSState) : SSOp → SSState
  | .new v xs => let r := s.heap.newSet xs; { heap := r.1, vars := upd s.vars v r.2 }
  | .clone v w => { s with vars := upd s.vars v (s.heap.clone (s.vars w)) }
  | .copy v w => { s with vars := upd s.vars v (s.vars w) }
  | .add v xs => let r := s.heap.add (s.vars v) xs; { heap := r.1, vars := upd s.vars v r.2 }
  | .addSet v w => let r := s.heap.addSet (s.vars v) (s.vars w); { heap := r.1, vars := upd s.vars v r.2 }
  | .remove v xs => let r := s.heap.remove (s.vars v) xs; { heap := r.1, vars := upd s.vars v r.2 }

def SSState.run (ops : List SSOp) : SSState := ops.foldl SSState.step SSState.init

end LPG
