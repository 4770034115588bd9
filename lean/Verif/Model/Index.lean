import Verif.Model.Base
import Verif.Model.Value
/-!
# Label index and property indexes (sets.go, maps.go, hashindex.go, btreeindex.go, indexes.go)

A `fastSet` appears here as the insertion ordered map it implements; `Verif.Model.Sets` has the cell-level
model of the data structure and `Verif.Props.C20C21C46` the proof that it behaves like this one.
-/
namespace LPG

/-- sets.go:23-79, `fastSet`, as an insertion ordered map from ids to items. -/
abbrev FSet (α : Type) := AMap Nat α

/-- sets.go:43-51, `fastSet.add`: no change if the id exists. -/
def FSet.add {α : Type} (s : FSet α) (id : Nat) (a : α) : FSet α :=
  match AMap.get s id with
  | some _ => s
  | none => s ++ [(id, a)]

/-- sets.go:62-70, `fastSet.remove`. -/
def FSet.remove {α : Type} (s : FSet α) (id : Nat) : FSet α := AMap.del s id

/-- sets.go:77-79, `fastSet.iterator`, run to its end. -/
def FSet.items {α : Type} (s : FSet α) : List α := s.map Prod.snd

/-! ## Label index -/

/-- maps.go:22-26, `NodeMap`. `m` is the `linkedhashmap`; the items of the sets are the nodes. -/
structure NodeMap where
  m : AMap String (FSet Nat)
  nolabels : FSet Nat
deriving Repr

/-- maps.go:28-34, `NewNodeMap`. -/
def NodeMap.empty : NodeMap := { m := [], nolabels := [] }

/-- maps.go:65-72 and 85-92: add `node` to the set of one label, creating the set if needed. -/
def NodeMap.addTo (nm : NodeMap) (node : Nat) (label : String) : NodeMap :=
  match nm.m.get label with
  | none => { nm with m := nm.m.set label (FSet.add [] node node) }
  | some s => { nm with m := nm.m.set label (FSet.add s node node) }

/-- maps.go:51-59 and 103-111: remove `node` from the set of one label, dropping an empty set. -/
def NodeMap.removeFrom (nm : NodeMap) (node : Nat) (label : String) : NodeMap :=
  match nm.m.get label with
  | none => nm
  | some s =>
    let s := FSet.remove s node
    if s.length = 0 then { nm with m := nm.m.del label } else { nm with m := nm.m.set label s }

/-- maps.go:36-75, `NodeMap.Replace`. When the new set is empty the function returns at line 45 without
removing the node from the sets of its old labels. -/
def NodeMap.replace (nm : NodeMap) (node : Nat) (old new : List String) : NodeMap :=
  if old.length = 0 ∧ new.length = 0 then nm
  else
    let nm := if old.length = 0 then { nm with nolabels := FSet.remove nm.nolabels node } else nm
    if new.length = 0 then { nm with nolabels := FSet.add nm.nolabels node node }
    else
      let nm := (old.filter (fun l => !new.contains l)).foldl (fun nm l => nm.removeFrom node l) nm
      (new.filter (fun l => !old.contains l)).foldl (fun nm l => nm.addTo node l) nm

/-- maps.go:77-94, `NodeMap.Add`. -/
def NodeMap.add (nm : NodeMap) (node : Nat) (labels : List String) : NodeMap :=
  if labels.length = 0 then { nm with nolabels := FSet.add nm.nolabels node node }
  else labels.foldl (fun nm l => nm.addTo node l) nm

/-- maps.go:96-113, `NodeMap.Remove`. -/
def NodeMap.remove (nm : NodeMap) (node : Nat) (labels : List String) : NodeMap :=
  if labels.length = 0 then { nm with nolabels := FSet.remove nm.nolabels node }
  else labels.foldl (fun nm l => nm.removeFrom node l) nm

/-- maps.go:186-196: the loop choosing the smallest set, in the (arbitrary) order of `ls`. `none`: some label
has no set (line 190). `some none`: no label at all, `minSet` is still nil. -/
def NodeMap.minSet (nm : NodeMap) : List String → Option (FSet Nat) → Option (Option (FSet Nat))
  | [], best => some best
  | l :: ls, best =>
    match nm.m.get l with
    | none => none
    | some s =>
      match best with
      | none => nm.minSet ls (some s)
      | some b => nm.minSet ls (some (if b.length > s.length then s else b))

/-- maps.go:184-206, `NodeMap.IteratorAllLabels`, run to its end, with the value of `MaxSize()`. `none`: nil
pointer dereference at line 197 (`minSet.iterator()` with a nil `minSet`). `labelsOf` gives the current
labels of a node. -/
def NodeMap.allLabels (nm : NodeMap) (labelsOf : Nat → List String) (ls : List String) :
    Option (List Nat × Int) :=
  match nm.minSet ls none with
  | none => some ([], 0)
  | some none => none
  | some (some s) => some (s.items.filter (fun n => ls.all (fun l => (labelsOf n).contains l)), s.length)

/-! ## Property indexes -/

/-- hashindex.go:32-34: one level of `WithNativeValue` is removed. -/
def unwrap1 : Value → Value
  | .native v => v
  | v => v

/-- Comparable Go values as map keys. -/
inductive HKey where
  | nil
  | int (i : Int)
  | str (s : String)
  | other (tag : Nat)
  | native (k : HKey)
deriving DecidableEq, Repr

/-- The key under which a value is found in a `map[interface{}]...`; `none` if the dynamic type is not
hashable, in which case indexing the map panics. Simplification: a wrapper that still implements
`WithNativeValue` after one unwrapping is treated as a struct holding its native value. -/
def hkey : Value → Option HKey
  | .nil => some .nil
  | .int i => some (.int i)
  | .str s => some (.str s)
  | .other t true => some (.other t)
  | .native v => (hkey v).map .native
  | _ => none

/-- hashindex.go:22-25, `hashIndex`. `elements` is a `container/list`; its elements have identities
(cells), and the sets hold cells. `init` is `values != nil`. -/
structure HashIx where
  init : Bool
  values : AMap HKey (FSet Nat)
  elements : List (Nat × Nat)
  nextCell : Nat
deriving Repr

def HashIx.empty : HashIx := { init := false, values := [], elements := [], nextCell := 0 }

/-- hashindex.go:27-43, `hashIndex.add`. -/
def HashIx.add (ix : HashIx) (v : Value) (id : Nat) : Option HashIx :=
  match hkey (unwrap1 v) with
  | none => none
  | some k =>
    let c := ix.nextCell
    let fs := (ix.values.get k).getD []
    some { init := true, values := ix.values.set k (FSet.add fs id c),
           elements := ix.elements ++ [(c, id)], nextCell := c + 1 }

/-- hashindex.go:45-62, `hashIndex.remove`. -/
def HashIx.remove (ix : HashIx) (v : Value) (id : Nat) : Option HashIx :=
  if !ix.init then some ix
  else match hkey (unwrap1 v) with
    | none => none
    | some k =>
      match ix.values.get k with
      | none => some ix
      | some fs =>
        match AMap.get fs id with
        | none => some ix
        | some c => some { ix with values := ix.values.set k (FSet.remove fs id),
                                   elements := ix.elements.filter (fun p => p.1 ≠ c) }

/-- hashindex.go:65-78, `hashIndex.find`, run to its end, with `MaxSize()`. The set holds list elements; the
`procIterator` maps an element to its value. -/
def HashIx.find (ix : HashIx) (v : Value) : Option (List Nat × Int) :=
  if !ix.init then some ([], 0)
  else match hkey (unwrap1 v) with
    | none => none
    | some k =>
      match ix.values.get k with
      | none => some ([], 0)
      | some fs => some (fs.items.filterMap (fun c => AMap.get ix.elements c), fs.length)

/-- hashindex.go:80-85, `hashIndex.valueItr`, run to its end. -/
def HashIx.valueItr (ix : HashIx) : List Nat := ix.elements.map Prod.snd

/-- btreeindex.go:22-24, `setTree`: the B-tree as the list of its entries in key order (a nil tree behaves as
an empty one). -/
abbrev SetTree := List (Value × FSet Nat)

/-- `btree.Tree.Get`. `none` is the panic of the comparator. Simplification: the tree compares the key with
the entries on one search path; here the lookup panics if the key is incomparable with any entry. -/
def SetTree.get (t : SetTree) (k : Value) : Option (Option (FSet Nat)) :=
  if t.any (fun e => (cmp k e.1).isNone) then none
  else some ((t.find? (fun e => cmp k e.1 = some 0)).map Prod.snd)

/-- `btree.Tree.Put` for a key that is not in the tree: insert in key order. -/
def SetTree.put : SetTree → Value → FSet Nat → SetTree
  | [], k, s => [(k, s)]
  | e :: t, k, s => if cmp k e.1 = some (-1) then (k, s) :: e :: t else e :: SetTree.put t k s

/-- Replace the set stored in the entry for `k` (in Go the entry holds a pointer to the set). -/
def SetTree.update (t : SetTree) (k : Value) (s : FSet Nat) : SetTree :=
  t.map (fun e => if cmp k e.1 = some 0 then (e.1, s) else e)

/-- `btree.Tree.Remove`. -/
def SetTree.delete (t : SetTree) (k : Value) : SetTree := t.filter (fun e => ¬ cmp k e.1 = some 0)

/-- btreeindex.go:26-37, `setTree.add`. -/
def SetTree.add (t : SetTree) (k : Value) (id : Nat) : Option SetTree :=
  match SetTree.get t k with
  | none => none
  | some none => some (SetTree.put t k (FSet.add [] id id))
  | some (some s) => some (SetTree.update t k (FSet.add s id id))

/-- btreeindex.go:39-52, `setTree.remove`. -/
def SetTree.remove (t : SetTree) (k : Value) (id : Nat) : Option SetTree :=
  match SetTree.get t k with
  | none => none
  | some none => some t
  | some (some s) =>
    let s := FSet.remove s id
    if s.length = 0 then some (SetTree.delete t k) else some (SetTree.update t k s)

/-- btreeindex.go:55-66, `setTree.find`, run to its end, with `MaxSize()`. -/
def SetTree.find (t : SetTree) (k : Value) : Option (List Nat × Int) :=
  match SetTree.get t k with
  | none => none
  | some none => some ([], 0)
  | some (some s) => some (s.items, s.length)

/-- btreeindex.go:68-83, `setTree.valueItr`, run to its end. -/
def SetTree.valueItr (t : SetTree) : List Nat := (t.map (fun e => FSet.items e.2)).flatten

/-- indexes.go:24-29, `IndexType`. -/
inductive IndexType where
  | btree
  | hash
deriving DecidableEq, Repr

/-- indexes.go:17-22, the interface `index` with its two implementations. -/
inductive Index where
  | btree (t : SetTree)
  | hash (h : HashIx)
deriving Repr

/-- indexes.go:52-57 and 139-144: a new empty index. -/
def Index.new : IndexType → Index
  | .btree => .btree []
  | .hash => .hash HashIx.empty

def Index.add : Index → Value → Nat → Option Index
  | .btree t, v, id => (SetTree.add t v id).map .btree
  | .hash h, v, id => (h.add v id).map .hash

def Index.remove : Index → Value → Nat → Option Index
  | .btree t, v, id => (SetTree.remove t v id).map .btree
  | .hash h, v, id => (h.remove v id).map .hash

def Index.find : Index → Value → Option (List Nat × Int)
  | .btree t, v => SetTree.find t v
  | .hash h, v => h.find v

def Index.valueItr : Index → List Nat
  | .btree t => SetTree.valueItr t
  | .hash h => h.valueItr

/-- indexes.go:36-37: the maps `nodeProperties` / `edgeProperties`. -/
abbrev Indexes := AMap String Index

/-- graph.go:431-433, 548-550, indexes.go:113-117, 158-162: add to the index of a key if there is one. -/
def Indexes.add (ixs : Indexes) (key : String) (v : Value) (id : Nat) : Option Indexes :=
  match AMap.get ixs key with
  | none => some ixs
  | some ix => (ix.add v id).map (fun ix => AMap.set ixs key ix)

/-- graph.go:425-427, 463-466, 542-544, 561-564, indexes.go:125-129, 168-172: remove from the index of a key
if there is one. -/
def Indexes.remove (ixs : Indexes) (key : String) (v : Value) (id : Nat) : Option Indexes :=
  match AMap.get ixs key with
  | none => some ixs
  | some ix => (ix.remove v id).map (fun ix => AMap.set ixs key ix)

/-- indexes.go:112-118 and 157-163: the loop adding all properties of an object. -/
def Indexes.addAll (id : Nat) : AMap String Value → Indexes → Option Indexes
  | [], ixs => some ixs
  | (k, v) :: ps, ixs =>
    match Indexes.add ixs k v id with
    | none => none
    | some ixs => Indexes.addAll id ps ixs

/-- indexes.go:124-130 and 167-173: the loop removing all properties of an object. -/
def Indexes.removeAll (id : Nat) : AMap String Value → Indexes → Option Indexes
  | [], ixs => some ixs
  | (k, v) :: ps, ixs =>
    match Indexes.remove ixs k v id with
    | none => none
    | some ixs => Indexes.removeAll id ps ixs

/-- indexes.go:60-66 and 147-153: index all given objects that have the property. -/
def Index.addObjects (key : String) (props : Nat → AMap String Value) : List Nat → Index → Option Index
  | [], ix => some ix
  | x :: xs, ix =>
    match (props x).get key with
    | none => Index.addObjects key props xs ix
    | some v =>
      match ix.add v x with
      | none => none
      | some ix => Index.addObjects key props xs ix

end LPG
