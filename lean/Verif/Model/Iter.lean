import Verif.Model.Queries
import Verif.Model.Sets
/-!
# Iterators (itr.go, list.go, edgemap.go)

The other files work with the list of items that an iterator yields. Here an iterator is an object with a state and
the three methods of the interface `Iterator`.
-/
namespace LPG

/-- itr.go:22-33, `Iterator`. A state is the content of the iterator object. `next` is `Next()`: it returns the result
and the new state; `none` is a panic or a call that does not return. `val` is `Value()` (`none`: nil or panic), `size`
is `MaxSize()`. `Node()` and `Edge()` (itr.go:201-203, 210-212) are `Value()` with another type. -/
structure Machine (σ α : Type) where
  next : σ → Option (Bool × σ)
  val : σ → Option α
  size : σ → Int

/-- An iterator object. -/
structure Itr (α : Type) where
  σ : Type
  m : Machine σ α
  s : σ

/-- `MaxSize()` of the object. -/
def Itr.size {α : Type} (i : Itr α) : Int := i.m.size i.s

namespace Machine
variable {σ φ α β : Type}

/-- itr.go:43-49, 59-65, `NodeSlice` and `EdgeSlice`. -/
def collect (m : Machine σ α) (s : σ) (acc : List α) : Option (List α) :=
  match m.next s with
  | none => none
  | some (false, _) => some acc
  | some (true, s) =>
    match m.val s with
    | none => none
    | some x => collect m s (acc ++ [x])
partial_fixpoint

/-- itr.go:93-97, `emptyIterator`. -/
def empty : Machine Unit α := { next := fun _ => some (false, ()), val := fun _ => none, size := fun _ => 0 }

/-- itr.go:100-104, `filterIterator`: the underlying iterator, the variables of the closure `filter`, `current`. -/
structure FilterSt (σ φ α : Type) where
  itr : σ
  env : φ
  current : Option α

/-- itr.go:106-115, `filterIterator.Next`. The filter may have variables of its own, and may panic. -/
def filterNext (m : Machine σ α) (f : φ → α → Option (Bool × φ)) (st : FilterSt σ φ α) :
    Option (Bool × FilterSt σ φ α) :=
  match m.next st.itr with
  | none => none
  | some (false, s) => some (false, { st with itr := s })
  | some (true, s) =>
    match m.val s with
    | none => none
    | some x =>
      match f st.env x with
      | none => none
      | some (true, g) => some (true, { itr := s, env := g, current := some x })
      | some (false, g) => filterNext m f { itr := s, env := g, current := none }
partial_fixpoint

/-- itr.go:100-121, `filterIterator`. -/
def filter (m : Machine σ α) (f : φ → α → Option (Bool × φ)) : Machine (FilterSt σ φ α) α :=
  { next := filterNext m f, val := fun st => st.current, size := fun st => m.size st.itr }

/-- The closure without variables. -/
def pureFilter (p : α → Bool) : Unit → α → Option (Bool × Unit) := fun _ x => some (p x, ())

/-- itr.go:140-152, the closure of `makeUniqueIterator`; the variable is `seenItems`. -/
def uniqueFilter [BEq α] (seen : List α) (x : α) : Option (Bool × List α) :=
  if seen.contains x then some (false, seen) else some (true, x :: seen)

/-- itr.go:138-153, `makeUniqueIterator`. -/
def unique [BEq α] (m : Machine σ α) : Machine (FilterSt σ (List α) α) α := m.filter uniqueFilter

/-- itr.go:124-137, `procIterator`. -/
def proc (m : Machine σ α) (f : α → Option β) : Machine σ β :=
  { next := m.next, val := fun s => (m.val s).bind f, size := m.size }

/-- itr.go:162-174, `funcIterator.Next`: the state is `current` and the variables of the closure `iteratorFunc`. -/
def funcNext (m : Machine σ α) (gen : φ → Option (Option σ × φ)) (st : Option σ × φ) : Option (Bool × Option σ × φ) :=
  match st.1 with
  | some s =>
    match m.next s with
    | none => none
    | some (true, s) => some (true, some s, st.2)
    | some (false, _) =>
      match gen st.2 with
      | none => none
      | some (none, g) => some (false, none, g)
      | some (some s, g) => funcNext m gen (some s, g)
  | none =>
    match gen st.2 with
    | none => none
    | some (none, g) => some (false, none, g)
    | some (some s, g) => funcNext m gen (some s, g)
partial_fixpoint

/-- itr.go:156-180, `funcIterator`. -/
def func (m : Machine σ α) (gen : φ → Option (Option σ × φ)) : Machine (Option σ × φ) α :=
  { next := funcNext m gen, val := fun st => st.1.bind m.val, size := fun _ => -1 }

/-- itr.go:217-232, `withSize`. -/
def withSize (m : Machine σ α) (size : Int) : Machine σ α := { m with size := fun _ => size }

/-- itr.go:234-251, `listIterator`: the state is the rest of the `container/list` from `next` on, and `current`. -/
def list (size : Int) : Machine (List α × Option α) α :=
  { next := fun st =>
      match st.1 with
      | [] => some (false, ([], none))
      | x :: xs => some (true, (xs, some x)),
    val := fun st => st.2, size := fun _ => size }

/-- itr.go:253-292, the iterator created by `newNodesFromEdges`: `node e` is the end of the edge chosen by 283-288, the
variable is `seen`. It is the loop of `filterIterator.Next` with another `Value`. -/
def nodesFromEdges (m : Machine σ Nat) (node : Nat → Nat) : Machine (FilterSt σ (List Nat) Nat) Nat :=
  { next := filterNext m (fun seen e => uniqueFilter seen (node e)),
    val := fun st => (m.val st.itr).map node,
    size := fun st => m.size st.itr }

end Machine

namespace Itr
variable {α : Type}

/-- One of several iterators: its position in the list, and its state. -/
def sum (its : List (Itr α)) : Machine (Σ i : Fin its.length, (its.get i).σ) α :=
  { next := fun x => ((its.get x.1).m.next x.2).map (fun r => (r.1, ⟨x.1, r.2⟩)),
    val := fun x => (its.get x.1).m.val x.2,
    size := fun x => (its.get x.1).m.size x.2 }

/-- A function that returns the elements of a slice one after the other, and then nil (itr.go:185-192). -/
def pop {σ : Type} : List σ → Option (Option σ × List σ)
  | [] => some (none, [])
  | x :: xs => some (some x, xs)

/-- itr.go:183-195, `MultiIterator`. -/
def multi (its : List (Itr α)) : Itr α :=
  { σ := Option (Σ i : Fin its.length, (its.get i).σ) × List (Σ i : Fin its.length, (its.get i).σ)
    m := (sum its).func pop
    s := (none, (List.finRange its.length).map (fun i => ⟨i, (its.get i).s⟩)) }

def empty : Itr α := ⟨Unit, Machine.empty, ()⟩

/-- `&listIterator{next: l.Front(), size: size}`. -/
def list (xs : List α) (size : Int) : Itr α := ⟨_, Machine.list size, (xs, none)⟩

def filter (i : Itr α) (p : α → Bool) : Itr α :=
  ⟨_, i.m.filter (Machine.pureFilter p), { itr := i.s, env := (), current := none }⟩

def unique [BEq α] (i : Itr α) : Itr α := ⟨_, i.m.unique, { itr := i.s, env := [], current := none }⟩

def withSize (i : Itr α) (size : Int) : Itr α := ⟨_, i.m.withSize size, i.s⟩

/-- list.go:60-85 `edgeListIterator` and 125-150 `nodeListIterator`: the state is `current` and `next`; `link` is the
next pointer of the objects. -/
def chain (link : Nat → Option Nat) (head : Option Nat) (n : Int) : Itr Nat :=
  { σ := Option Nat × Option Nat
    m := { next := fun st =>
             match st.2 with
             | some x => some (true, (some x, link x))
             | none => some (false, (none, none)),
           val := fun st => st.1, size := fun _ => n }
    s := (none, head) }

/-- edgemap.go:109-124, `singleEdgeIterator`. -/
def single (e : Option Nat) : Itr Nat :=
  { σ := Bool
    m := { next := fun done => if done then some (false, done) else some (true, true),
           val := fun _ => e, size := fun _ => 1 }
    s := false }

end Itr

/-- edgemap.go:188-192, `allEdgesItr`: `rest` is the list of label lists from `labelListNext` on. -/
structure AllEdgesSt where
  rest : List EList
  next : Option Nat
  current : Option Nat

/-- edgemap.go:195-211, `allEdgesItr.Next`. -/
def allEdgesNext (link : Nat → Option Nat) : Option Nat → List EList → Bool × AllEdgesSt
  | some e, rest => (true, { rest := rest, next := link e, current := some e })
  | none, [] => (false, { rest := [], next := none, current := none })
  | none, l :: rest => allEdgesNext link l.head rest

/-- edgemap.go:188-221, `allEdgesItr`. -/
def allEdgesItr (link : Nat → Option Nat) (s : AllEdgesSt) (size : Int) : Itr Nat :=
  { σ := AllEdgesSt
    m := { next := fun s => some (allEdgesNext link s.next s.rest), val := fun s => s.current, size := fun _ => size }
    s := s }

namespace EdgeMap

/-- edgemap.go:126-143, `edgeMap.iterator`. -/
def iter (P : Slot) (em : EdgeMap) : Itr Nat :=
  if em.n = 0 then .empty
  else if em.n = 1 then .single em.only
  else
    match em.lists.map Prod.snd with
    | [] => allEdgesItr (fun x => (P x).next) { rest := [], next := none, current := none } em.n
    | l :: ls => allEdgesItr (fun x => (P x).next) { rest := ls, next := l.head, current := none } em.n

/-- edgemap.go:145-158, `edgeMap.iteratorLabel`. `none`: nil dereference. -/
def iterLabel (P : Slot) (label : Nat → String) (em : EdgeMap) (l : String) : Option (Itr Nat) :=
  let byMap : Itr Nat := match em.lists.get l with
    | none => .empty
    | some el => .chain (fun x => (P x).next) el.head el.n
  if em.n = 0 then some .empty
  else if em.n = 1 then
    match em.only with
    | none => none
    | some o => if l = label o then some (.single em.only) else some byMap
  else some byMap

/-- The list iterator that edgemap.go:175-181 gets for a label that is in `labelMap`. -/
abbrev LabelSt := Option Nat × Option Nat

/-- edgemap.go:172-183, the function that returns the next iterator; the variable is `strings`. It is only used when
`em.n ≠ 0, 1`, where `iteratorLabel` returns the list iterator of the label. -/
def anyGen (em : EdgeMap) : List String → Option (Option LabelSt × List String)
  | [] => some (none, [])
  | l :: ls =>
    match em.lists.get l with
    | none => anyGen em ls
    | some el => some (some (none, el.head), ls)

/-- edgemap.go:160-186, `edgeMap.iteratorAnyLabel`. -/
def iterAny (P : Slot) (label : Nat → String) (em : EdgeMap) (ls : List String) : Option (Itr Nat) :=
  if em.n = 0 then some .empty
  else if em.n = 1 then
    match em.only with
    | none => none
    | some o => if ls.contains (label o) then some (.single em.only) else some .empty
  else some { σ := Option LabelSt × List String
              m := (Itr.chain (fun x => (P x).next) none (-1)).m.func (anyGen em)
              s := (none, ls) }

end EdgeMap

/-- btreeindex.go:73-82, the function that returns the next iterator; the variable is the rest of the entries of the
tree. -/
def SetTree.valueGen : SetTree → Option (Option (List Nat × Option Nat) × SetTree)
  | [] => some (none, [])
  | e :: t => some (some (FSet.items e.2, none), t)

namespace Index

/-- btreeindex.go:68-83 and hashindex.go:80-85, `valueItr`. -/
def valueIter : Index → Itr Nat
  | .btree t => { σ := Option (List Nat × Option Nat) × SetTree
                  m := (Machine.list (-1)).func SetTree.valueGen
                  s := (none, t) }
  | .hash h => if !h.init then .empty else .list (h.elements.map Prod.snd) h.elements.length

/-- btreeindex.go:55-66 and hashindex.go:65-78, `find`. -/
def findIter : Index → Value → Option (Itr Nat)
  | .btree t, k =>
    match SetTree.get t k with
    | none => none
    | some none => some .empty
    | some (some s) => some ((Itr.list (FSet.items s) s.length).withSize s.length)
  | .hash h, v =>
    if !h.init then some .empty
    else match hkey (unwrap1 v) with
      | none => none
      | some k =>
        match h.values.get k with
        | none => some .empty
        | some fs => some (Itr.withSize ⟨_, (Machine.list fs.length).proc (fun c => AMap.get h.elements c), (fs.items, none)⟩
            fs.length)

end Index

/-- maps.go:184-206, `IteratorAllLabels`. `none`: nil dereference of `minSet`. -/
def NodeMap.allLabelsIter (nm : NodeMap) (labelsOf : Nat → List String) (ls : List String) : Option (Itr Nat) :=
  match nm.minSet ls none with
  | none => some .empty
  | some none => none
  | some (some s) =>
    some (((Itr.list (FSet.items s) s.length).withSize s.length).filter
      (fun n => ls.all (fun l => (labelsOf n).contains l)))

namespace State

/-- graph.go:127-129, `GetNodes`. -/
def getNodesItr (s : State) : Itr Nat := .chain s.nptr.next s.allNodes.head s.allNodes.n

/-- graph.go:144-146, `GetEdges`. -/
def getEdgesItr (s : State) : Itr Nat := s.allEdges.iter s.slot0

/-- graph.go:153-155, `Graph.GetEdgesWithAnyLabel`. -/
def getEdgesWithAnyLabelItr (s : State) (ls : List String) : Option (Itr Nat) := s.allEdges.iterAny s.slot0 s.eLabel ls

/-- graph.go:136-138, `GetNodesWithAllLabels`. -/
def getNodesWithAllLabelsItr (s : State) (ls : List String) : Option (Itr Nat) := s.byLabel.allLabelsIter s.nLabels ls

/-- node.go:66, 79, 98: the two iterators one after the other, with the sum of their sizes. -/
def bothItr (i1 i2 : Itr Nat) : Itr Nat := (Itr.multi [i1, i2]).withSize (i1.size + i2.size)

/-- The two iterators, if both are obtained without panic. -/
def bothOpt : Option (Itr Nat) → Option (Itr Nat) → Option (Itr Nat)
  | some i1, some i2 => some (bothItr i1 i2)
  | _, _ => none

/-- node.go:57-67, `Node.GetEdges`. -/
def nodeEdgesItr (s : State) (n : Nat) : Dir → Itr Nat
  | .incoming => (s.incoming n).iter s.slot2
  | .outgoing => (s.outgoing n).iter s.slot1
  | .any => bothItr ((s.incoming n).iter s.slot2) ((s.outgoing n).iter s.slot1)

/-- node.go:70-80, `Node.GetEdgesWithLabel`. -/
def nodeEdgesWithLabelItr (s : State) (n : Nat) (l : String) : Dir → Option (Itr Nat)
  | .incoming => (s.incoming n).iterLabel s.slot2 s.eLabel l
  | .outgoing => (s.outgoing n).iterLabel s.slot1 s.eLabel l
  | .any => bothOpt ((s.incoming n).iterLabel s.slot2 s.eLabel l) ((s.outgoing n).iterLabel s.slot1 s.eLabel l)

/-- node.go:84-93: one direction of `GetEdgesWithAnyLabel`. -/
def any1Itr (s : State) (em : EdgeMap) (p : Slot) (ls : List String) : Option (Itr Nat) :=
  if ls.length = 0 then some (em.iter p) else em.iterAny p s.eLabel ls

/-- node.go:83-99, `Node.GetEdgesWithAnyLabel`. -/
def nodeEdgesWithAnyLabelItr (s : State) (n : Nat) (ls : List String) : Dir → Option (Itr Nat)
  | .incoming => s.any1Itr (s.incoming n) s.slot2 ls
  | .outgoing => s.any1Itr (s.outgoing n) s.slot1 ls
  | .any => bothOpt (s.any1Itr (s.incoming n) s.slot2 ls) (s.any1Itr (s.outgoing n) s.slot1 ls)

/-- graph.go:173-189, `GetNodesWithProperty`. -/
def getNodesWithPropertyItr (s : State) (k : String) : Itr Nat :=
  match AMap.get s.nodeIx k with
  | some ix => ix.valueIter
  | none => s.getNodesItr.filter (fun n => (s.nodeProperty n k).isSome)

/-- graph.go:197-214, `GetEdgesWithProperty`. -/
def getEdgesWithPropertyItr (s : State) (k : String) : Itr Nat :=
  match AMap.get s.edgeIx k with
  | some ix => ix.valueIter
  | none => s.getEdgesItr.filter (fun e => (s.edgeProperty e k).isSome)

end State

end LPG
