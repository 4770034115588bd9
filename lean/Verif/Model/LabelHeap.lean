import Verif.Model.Live
import Verif.Model.Sets
/-!
# The label index with references (maps.go, sets.go, itr.go)

`Verif.Model.Index` has a label index whose sets are values. Here a set is an object with an address, as in the code: an
iterator holds a cell of the list of such an object, and sees what later calls do to it. A set that becomes empty is taken
out of the map, but the object stays, and an iterator may still hold it.
-/
namespace LPG

/-- maps.go:22-26, `NodeMap`: `m` is the `linkedhashmap` from labels to `*fastSet`, `sets` the objects, `free` the next
address. -/
structure LMap where
  m : AMap String Nat
  sets : Nat → FastSet Nat
  free : Nat
  nolabels : FastSet Nat

namespace LMap

/-- maps.go:28-34, `NewNodeMap`. -/
def empty : LMap := { m := [], sets := fun _ => FastSet.new, free := 0, nolabels := FastSet.new }

/-- maps.go:65-72 and 85-92: add `node` to the set of one label; a new set is a new object. -/
def addTo (h : LMap) (node : Nat) (label : String) : LMap :=
  match h.m.get label with
  | none => { h with m := h.m.set label h.free, sets := upd h.sets h.free (FastSet.new.add node node).1, free := h.free + 1 }
  | some a => { h with sets := upd h.sets a ((h.sets a).add node node).1 }

/-- maps.go:51-59 and 103-111: remove `node` from the set of one label, and an empty set from the map. -/
def removeFrom (h : LMap) (node : Nat) (label : String) : LMap :=
  match h.m.get label with
  | none => h
  | some a =>
    let f := ((h.sets a).remove node).1
    if f.size = 0 then { h with sets := upd h.sets a f, m := h.m.del label } else { h with sets := upd h.sets a f }

/-- maps.go:36-75, `NodeMap.Replace`. -/
def replace (h : LMap) (node : Nat) (old new : List String) : LMap :=
  if old.length = 0 ∧ new.length = 0 then h
  else
    let h := if old.length = 0 then { h with nolabels := (h.nolabels.remove node).1 } else h
    if new.length = 0 then { h with nolabels := (h.nolabels.add node node).1 }
    else
      let h := (old.filter (fun l => !new.contains l)).foldl (fun h l => h.removeFrom node l) h
      (new.filter (fun l => !old.contains l)).foldl (fun h l => h.addTo node l) h

/-- maps.go:77-94, `NodeMap.Add`. -/
def add (h : LMap) (node : Nat) (labels : List String) : LMap :=
  if labels.length = 0 then { h with nolabels := (h.nolabels.add node node).1 }
  else labels.foldl (fun h l => h.addTo node l) h

/-- maps.go:96-113, `NodeMap.Remove`. -/
def remove (h : LMap) (node : Nat) (labels : List String) : LMap :=
  if labels.length = 0 then { h with nolabels := (h.nolabels.remove node).1 }
  else labels.foldl (fun h l => h.removeFrom node l) h

/-- maps.go:186-196: the loop choosing the smallest set, in the (arbitrary) order of the labels. -/
def minSet (h : LMap) : List String → Option Nat → Option (Option Nat)
  | [], best => some best
  | l :: ls, best =>
    match h.m.get l with
    | none => none
    | some a =>
      match best with
      | none => h.minSet ls (some a)
      | some b => h.minSet ls (some (if (h.sets b).size > (h.sets a).size then a else b))

end LMap

/-- A graph whose label index has references. `base` is the graph of `Verif.Model.Graph`; the label index that is part of it
is not used by the definitions of this file. -/
structure LState where
  base : State
  lbl : LMap

namespace LState

/-- graph.go:37-46, `NewGraph`. -/
def new : LState := { base := State.new, lbl := LMap.empty }

/-- What an operation does to the label index: graph.go:66 (`NewNode`), 413-416 (`setNodeLabels`), 470-474
(`detachRemoveNode`). The other operations do not touch it. -/
def lblStep (h : LState) : Op → LMap
  | .newNode ls _ => h.lbl.add h.base.idBase (newStringSet ls)
  | .setLabels n ls => h.lbl.replace n (h.base.nLabels n) ls
  | .detachRemove n => h.lbl.remove n (h.base.nLabels n)
  | _ => h.lbl

/-- One operation. -/
def step (h : LState) (op : Op) : Option LState :=
  match LPG.step h.base op with
  | none => none
  | some s => some { base := s, lbl := h.lblStep op }

/-- A history, from a given state. -/
def runFrom : LState → List Op → Option LState
  | h, [] => some h
  | h, op :: ops =>
    match h.step op with
    | none => none
    | some h => runFrom h ops

/-- A history, from a new graph. -/
def run (ops : List Op) : Option LState := runFrom LState.new ops

end LState

/-- The iterators that `IteratorAllLabels` returns: `emptyIterator` (maps.go:190), or a `filterIterator` over the
`listIterator` (itr.go:234-237) of the set with address `a`, whose `next` is a cell and the node in it. -/
inductive LblIt where
  | empty
  | cells (a : Nat) (next : Option (Nat × Nat))

namespace LState

/-- maps.go:184-206, `IteratorAllLabels`, sets.go:77-79. `none`: nil pointer dereference at line 197. -/
def openLabels (h : LState) (ls : List String) : Option LblIt :=
  match h.lbl.minSet ls none with
  | none => some .empty
  | some none => none
  | some (some a) => some (.cells a (h.lbl.sets a).l.head?)

/-- `container/list`, `Element.Next`, repeated: the cells after `c`. There are none if `c` is not in the list any more. -/
def cellsAfter (c : Nat) : List (Nat × Nat) → List (Nat × Nat)
  | [] => []
  | d :: l => if d.1 = c then l else cellsAfter c l

/-- itr.go:105-114, `filterIterator.Next`, over the cells that `listIterator.Next` (239-245) goes through: the first item that
passes, and the cell after it. -/
def scan (p : Nat → Bool) : List (Nat × Nat) → Option Nat × Option (Nat × Nat)
  | [] => (none, none)
  | c :: l => if p c.2 then (some c.2, l.head?) else scan p l

/-- `Next` and `Node` of such an iterator (maps.go:200-203: the filter reads the labels that the node has now). -/
def advLabels (ls : List String) (h : LState) : LblIt → Option (Option Nat × LblIt)
  | .empty => some (none, .empty)
  | .cells a none => some (none, .cells a none)
  | .cells a (some c) =>
    let r := scan (fun n => ls.all (fun l => (h.base.nLabels n).contains l)) (c :: cellsAfter c.1 (h.lbl.sets a).l)
    some (r.1, .cells a r.2)

/-- A program that holds an iterator returned by `GetNodesWithAllLabels(ls)`. -/
def liveLabels (h : LState) (ls : List String) (evs : List Event) : Option (List Seen × LState × LblIt) :=
  match h.openLabels ls with
  | none => none
  | some it => live LState.step (advLabels ls) h it evs

end LState

end LPG
