import Verif.Model.Graph
/-!
# Property maps as heap objects (graph.go:48-111, 418-468, 535-566)

`Verif.Model.Graph` stores the property map of a node or edge by value. Here the maps are heap objects that the
caller and the graph may share. An object is a node or an edge; only its `properties` field and, for a node, its
label set matter. The indexes and lists are left out: they do not touch the maps.
-/
namespace LPG

/-- The caller's variables `var` and slices `slice` and the `properties` fields `obj` of the objects created so far
(ids below `nobj`); `none` is a nil map. `labels` is the content of the label set of an object, which
`NewStringSet` builds in a map of its own. -/
structure PHeap where
  mem : Nat → Props
  next : Nat
  var : Nat → Option Nat
  slice : Nat → List String
  obj : Nat → Option Nat
  labels : Nat → List String
  nobj : Nat

namespace PHeap

def new : PHeap :=
  { mem := fun _ => [], next := 0, var := fun _ => none, slice := fun _ => [], obj := fun _ => none,
    labels := fun _ => [], nobj := 0 }

/-- Reading through a map pointer; a nil map reads as empty. -/
def deref (h : PHeap) : Option Nat → Props
  | none => []
  | some a => h.mem a

/-- the content of the map held by a variable of the caller -/
def readVar (h : PHeap) (x : Nat) : Props := h.deref (h.var x)

/-- node.go `ForEachProperty`/`GetProperty`, edge.go likewise: the properties of an object -/
def readObj (h : PHeap) (o : Nat) : Props := h.deref (h.obj o)

/-- What the caller and the library can do with the maps. -/
inductive POp where
  /-- `x = make(map[string]interface{})` -/
  | make (x : Nat)
  /-- `x = y` -/
  | assign (x y : Nat)
  /-- `x[k] = v` -/
  | write (x : Nat) (k : String) (v : Value)
  /-- `delete(x, k)` -/
  | erase (x : Nat) (k : String)
  /-- `sl = ...` and any write to the elements of the slice -/
  | writeSlice (sl : Nat) (ls : List String)
  /-- `NewNode(sl, x)` or `NewEdge(.., x)` (graph.go:49-58, 77-86) -/
  | newObj (sl x : Nat)
  /-- `FastNewNode(set, x)` or `FastNewEdge(.., x)` (graph.go:63-73, 92-111) -/
  | fastNewObj (ls : List String) (x : Nat)
  /-- `SetProperty` -/
  | setProp (o : Nat) (k : String) (v : Value)
  /-- `RemoveProperty` -/
  | removeProp (o : Nat) (k : String)

/-- The range loop of `NewNode` and `NewEdge` (graph.go:53-55, 81-83). -/
def copyLoop (p : Props) : List (String × Value) → Props
  | [] => p
  | (k, v) :: r => copyLoop (p.set k v) r

/-- One step. `none`: the caller writes to a nil map (a panic in the caller's code) or uses an object that does not
exist. -/
def step (h : PHeap) : POp → Option PHeap
  | .make x => some { h with mem := upd h.mem h.next [], next := h.next + 1, var := upd h.var x (some h.next) }
  | .assign x y => some { h with var := upd h.var x (h.var y) }
  | .write x k v =>
    match h.var x with
    | none => none
    | some a => some { h with mem := upd h.mem a ((h.mem a).set k v) }
  | .erase x k =>
    match h.var x with
    | none => some h
    | some a => some { h with mem := upd h.mem a ((h.mem a).del k) }
  | .writeSlice sl ls => some { h with slice := upd h.slice sl ls }
  | .newObj sl x =>
    let h := { h with labels := upd h.labels h.nobj (newStringSet (h.slice sl)) }
    if (h.readVar x).length > 0 then
      some { h with mem := upd h.mem h.next (copyLoop [] (h.readVar x)), next := h.next + 1,
                    obj := upd h.obj h.nobj (some h.next), nobj := h.nobj + 1 }
    else some { h with obj := upd h.obj h.nobj none, nobj := h.nobj + 1 }
  | .fastNewObj ls x =>
    some { h with labels := upd h.labels h.nobj ls, obj := upd h.obj h.nobj (h.var x), nobj := h.nobj + 1 }
  | .setProp o k v =>
    if o < h.nobj then
      match h.obj o with
      | none => some { h with mem := upd h.mem h.next (AMap.set [] k v), next := h.next + 1, obj := upd h.obj o (some h.next) }
      | some a => some { h with mem := upd h.mem a ((h.mem a).set k v) }
    else none
  | .removeProp o k =>
    if o < h.nobj then
      match h.obj o with
      | none => some h
      | some a => some { h with mem := upd h.mem a ((h.mem a).del k) }
    else none

def runFrom : PHeap → List POp → Option PHeap
  | h, [] => some h
  | h, op :: ops =>
    match h.step op with
    | none => none
    | some h => runFrom h ops

end PHeap
end LPG
