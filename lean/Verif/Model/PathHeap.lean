import Verif.Model.Path
/-!
# Paths as objects on a heap (path.go)

Here a path is an object whose field `path` is a Go slice: a part of an array that other slices may share. `Model/Path.lean`
treats a path as a value; `Props/C52.lean` says when that is right. Edges are not removed from the graph here: the calls
`Edge.Remove` of `RemoveLast` and `RemoveFirst` do not touch paths.
-/
namespace LPG
namespace PathHeap

/-- A slice: `len` elements of the array `arr` from `off` on; `cap` is the capacity. The nil slice has capacity 0. -/
structure Slice where
  arr : Nat := 0
  off : Nat := 0
  len : Nat := 0
  cap : Nat := 0
deriving DecidableEq, Repr

/-- path.go:23-26, `Path`. -/
structure Obj where
  only : Option Nat := none
  path : Slice := {}
deriving DecidableEq, Repr

/-- The arrays, the path objects in the order of their creation, and the slices held by the caller. -/
structure Heap where
  next : Nat := 0
  arrays : Nat → List PathElement := fun _ => []
  objs : List Obj := []
  slices : List Slice := []

/-- The elements of a slice. -/
def Heap.read (h : Heap) (sl : Slice) : List PathElement := ((h.arrays sl.arr).drop sl.off).take sl.len

/-- The zero value of `PathElement` (its edge is nil, which is never looked at). -/
def zero : PathElement := ⟨0, false⟩

/-- `es` written into `xs` at `i`. -/
def write (xs : List PathElement) (i : Nat) (es : List PathElement) : List PathElement :=
  xs.take i ++ es ++ xs.drop (i + es.length)

/-- `make([]PathElement, len(es), cap)` filled with `es`. -/
def Heap.alloc (h : Heap) (es : List PathElement) (cap : Nat) : Heap × Slice :=
  ({ h with next := h.next + 1,
            arrays := upd h.arrays h.next (es ++ List.replicate (cap - es.length) zero) },
   { arr := h.next, off := 0, len := es.length, cap := Nat.max cap es.length })

/-- The builtin `append(sl, es...)`. `grow` is the capacity of the new array as it was chosen by the runtime: any number that is
at least the length. -/
def Heap.append (grow : Nat → Nat → Nat) (h : Heap) (sl : Slice) (es : List PathElement) : Heap × Slice :=
  if sl.len + es.length ≤ sl.cap then
    ({ h with arrays := upd h.arrays sl.arr (write (h.arrays sl.arr) (sl.off + sl.len) es) }, { sl with len := sl.len + es.length })
  else h.alloc (h.read sl ++ es) (grow sl.cap (sl.len + es.length))

/-- The path object as a value. -/
def Heap.value (h : Heap) (o : Obj) : Path := { only := o.only, path := h.read o.path }

/-- The object of a handle; handles are the numbers of the objects. -/
def Heap.obj (h : Heap) (i : Nat) : Obj := h.objs.getD i {}

def Heap.sliceAt (h : Heap) (i : Nat) : Slice := h.slices.getD i {}

/-- An assignment to the object. -/
def Heap.setObj (h : Heap) (i : Nat) (o : Obj) : Heap := { h with objs := h.objs.set i o }

/-- A new object. -/
def Heap.newObj (h : Heap) (o : Obj) : Heap := { h with objs := h.objs ++ [o] }

/-- What a program does with paths. -/
inductive POp where
  /-- the caller makes a slice with some capacity -/
  | makeSlice (es : List PathElement) (cap : Nat)
  /-- the caller writes into its slice -/
  | writeSlice (v i : Nat) (e : PathElement)
  /-- `NewPathFromElements(v[:n]...)` -/
  | fromSlice (v n : Nat)
  /-- `NewPathFromElements(a, b, ...)` -/
  | fromElements (es : List PathElement)
  | fromNode (n : Nat)
  | clone (p : Nat)
  | setOnlyNode (p : Nat) (n : Option Nat)
  | clear (p : Nat)
  | append (p : Nat) (es : List PathElement)
  | appendPath (p q : Nat)
  | slice (p : Nat) (s e : Int)
  | removeLast (p : Nat)
  | removeFirst (p : Nat)

/-- path.go:116-143, `Append`: the heap afterwards, also if it panics. The elements are read before they are written. -/
def appendObj (g : Ends) (grow : Nat → Nat → Nat) (h : Heap) (p : Nat) (es : List PathElement) : Heap :=
  let o := h.obj p
  match es with
  | [] => h
  | e :: es' =>
    if (h.value o).numNodes = 0 then
      let r := h.alloc (e :: es') 0
      r.1.setObj p { o with path := r.2 }
    else if ((h.value o).last g).isSome ∧ (h.value o).last g ≠ some (e.getSourceNode g) then h
    else if Path.linked g ((h.value o).last g) (e :: es') then
      let r := h.append grow o.path (e :: es')
      r.1.setObj p { only := none, path := r.2 }
    else h.setObj p { o with only := none }

/-- path.go:147-167, `AppendPath`. Receiver and argument may be the same object. -/
def appendPathObj (g : Ends) (grow : Nat → Nat → Nat) (h : Heap) (p q : Nat) : Heap :=
  if (h.value (h.obj p)).numNodes = 0 then
    let r := h.alloc (h.read (h.obj q).path) 0
    r.1.setObj p { (r.1.obj p) with path := r.2 }
  else if (h.value (h.obj p)).numNodes = 1 then
    let h := h.setObj p { (h.obj p) with only := none }
    appendObj g grow h p (h.read (h.obj q).path)
  else if (h.value (h.obj q)).numNodes = 0 then h
  else if (h.value (h.obj q)).numNodes = 1 then
    let h := h.setObj q { (h.obj q) with only := none }
    appendObj g grow h p (h.read (h.obj q).path)
  else appendObj g grow h p (h.read (h.obj q).path)

/-- One call. Handles of objects and slices that do not exist: nothing happens. -/
def step (g : Ends) (grow : Nat → Nat → Nat) (h : Heap) : POp → Heap
  | .makeSlice es cap =>
    let r := h.alloc es cap
    { r.1 with slices := r.1.slices ++ [r.2] }
  | .writeSlice v i e =>
    let sl := h.sliceAt v
    if i < sl.len then { h with arrays := upd h.arrays sl.arr (write (h.arrays sl.arr) (sl.off + i) [e]) } else h
  -- path.go:33-35: the parameter is the slice of the caller
  | .fromSlice v n =>
    let sl := h.sliceAt v
    if n ≤ sl.len then h.newObj { path := { sl with len := n } } else h
  -- path.go:33-35: the parameter is a new slice
  | .fromElements es =>
    let r := h.alloc es 0
    r.1.newObj { path := r.2 }
  -- path.go:46-53
  | .fromNode n => h.newObj { only := some n }
  -- path.go:56-63
  | .clone p =>
    if p < h.objs.length then
      let r := h.alloc (h.read (h.obj p).path) 0
      r.1.newObj { only := (h.obj p).only, path := r.2 }
    else h
  -- path.go:66-70
  | .setOnlyNode p n => h.setObj p { only := n }
  -- path.go:73-77
  | .clear p => h.setObj p {}
  | .append p es => if p < h.objs.length then appendObj g grow h p es else h
  | .appendPath p q => if p < h.objs.length ∧ q < h.objs.length then appendPathObj g grow h p q else h
  -- path.go:259-290: `make` and `copy`, or a single node
  | .slice p s e =>
    match (h.value (h.obj p)).slice g s e with
    | none => h
    | some v =>
      let r := h.alloc v.path 0
      r.1.newObj { only := v.only, path := r.2 }
  -- path.go:295-305: `p.path[:len(p.path)-1]`
  | .removeLast p =>
    let o := h.obj p
    match o.only with
    | some _ => h.setObj p { o with only := none }
    | none => h.setObj p { o with path := { o.path with len := o.path.len - 1 } }
  -- path.go:309-319: `p.path[1:]`
  | .removeFirst p =>
    let o := h.obj p
    match o.only with
    | some _ => h.setObj p { o with only := none }
    | none =>
      if o.path.len > 0 then
        h.setObj p { o with path := { o.path with off := o.path.off + 1, len := o.path.len - 1, cap := o.path.cap - 1 } }
      else h

def run (g : Ends) (grow : Nat → Nat → Nat) (ops : List POp) : Heap := ops.foldl (step g grow) {}

end PathHeap
end LPG
