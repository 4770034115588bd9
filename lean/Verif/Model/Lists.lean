import Verif.Model.Base
/-!
# Intrusive lists and edge maps (list.go, edgemap.go)

Nodes and edges are identified with their ids. A `nil` pointer is `none`.
-/
namespace LPG

/-- list.go:23-26, `edgeElement`. -/
structure Elem where
  next : Option Nat
  prev : Option Nat
deriving DecidableEq, Repr

/-- edge.go:28-31: one of the three `listElements` slots of all edges, as a function from edges. -/
abbrev Slot := Nat → Elem

/-- list.go:17-21, `edgeList`. -/
structure EList where
  head : Option Nat
  tail : Option Nat
  n : Int
deriving DecidableEq, Repr

/-- list.go:28-40, `edgeList.add`. Returns the updated slot and list. -/
def EList.add (P : Slot) (l : EList) (e : Nat) : Slot × EList :=
  let P := upd P e { P e with prev := l.tail }
  let P := match l.tail with
    | none => P
    | some t => upd P t { P t with next := some e }
  let P := upd P e { P e with next := none }
  (P, { head := match l.head with
          | none => some e
          | some h => some h,
        tail := some e, n := l.n + 1 })

/-- list.go:42-58, `edgeList.remove`. There is no check that `e` is in this list. -/
def EList.remove (P : Slot) (l : EList) (e : Nat) : Slot × EList :=
  let (P, l) := match (P e).prev with
    | some p => (upd P p { P p with next := (P e).next }, l)
    | none => (P, { l with head := (P e).next })
  let (P, l) := match (P e).next with
    | some x => (upd P x { P x with prev := (P e).prev }, l)
    | none => (P, { l with tail := (P e).prev })
  let P := upd P e { next := none, prev := none }
  (P, { l with n := l.n - 1 })

/-- list.go:60-73, `edgeListIterator` run to its end: follows `next` from the given edge. `none` means that
more than `fuel` edges were met; the callers use the number of allocated ids, so this only happens if the
pointers form a cycle and the Go loop would not terminate. -/
def walk (next : Nat → Option Nat) : Nat → Option Nat → Option (List Nat)
  | _, none => some []
  | 0, some _ => none
  | fuel + 1, some x =>
    match walk next fuel (next x) with
    | none => none
    | some xs => some (x :: xs)

/-- edgemap.go:27-34, `edgeMap`. `lists` is `edgeLabelLists` (a `container/list` in insertion order) together
with `labelMap`: every element of the list is the value of exactly one label (edgemap.go:51-60, 92-95), so
the pair is an insertion ordered map from labels to edge lists. `n` is what `size` returns (edgemap.go:107); `isEmpty`
(edgemap.go:105) is not used. -/
structure EdgeMap where
  lists : AMap String EList
  only : Option Nat
  n : Int
deriving DecidableEq, Repr

/-- The zero value `edgeMap{}`. -/
def EdgeMap.empty : EdgeMap := { lists := [], only := none, n := 0 }

/-- edgemap.go:48-60, the closure `doAdd` for an edge with label `lbl`. -/
def EdgeMap.doAdd (P : Slot) (em : EdgeMap) (lbl : String) (e : Nat) : Slot × EdgeMap :=
  let l : EList := match em.lists.get lbl with
    | none => { head := none, tail := none, n := 0 }
    | some l => l
  let (P, l) := l.add P e
  (P, { em with lists := em.lists.set lbl l })

/-- edgemap.go:41-71, `edgeMap.add`. `label` gives the current label of every edge. `none`: nil pointer
dereference in `doAdd(em.only)`. -/
def EdgeMap.add (P : Slot) (label : Nat → String) (em : EdgeMap) (e : Nat) : Option (Slot × EdgeMap) :=
  if em.n = 0 then some (P, { em with only := some e, n := 1 })
  else if em.n = 1 then
    match em.only with
    | none => none
    | some o =>
      let em := { em with lists := [] }
      let (P, em) := em.doAdd P (label o) o
      let em := { em with only := none }
      let (P, em) := em.doAdd P (label e) e
      some (P, { em with n := 2 })
  else
    let (P, em) := em.doAdd P (label e) e
    some (P, { em with n := em.n + 1 })

/-- edgemap.go:73-103, `edgeMap.remove`. The loop at 98-100 over `labelMap` assigns the head of the last list
visited; there is exactly one list when it runs, because the list sizes add up to `n` and empty lists are
dropped (`one_list_left`). -/
def EdgeMap.remove (P : Slot) (label : Nat → String) (em : EdgeMap) (e : Nat) : Slot × EdgeMap :=
  if em.n = 0 then (P, em)
  else if em.n = 1 then
    if some e ≠ em.only then (P, em)
    else (P, { em with only := none, n := 0 })
  else
    match em.lists.get (label e) with
    | none => (P, em)
    | some l =>
      let (P, l) := l.remove P e
      let em := if l.n = 0 then { em with lists := em.lists.del (label e) }
        else { em with lists := em.lists.set (label e) l }
      let em := { em with n := em.n - 1 }
      let em := if em.n = 1 then
          let em := match em.lists.getLast? with
            | none => em
            | some (_, l) => { em with only := l.head }
          { em with lists := [] }
        else em
      (P, em)

/-- Concatenation of optional lists: runs the iterators one after the other. -/
def concatOpt : List (Option (List Nat)) → Option (List Nat)
  | [] => some []
  | none :: _ => none
  | some xs :: r =>
    match concatOpt r with
    | none => none
    | some ys => some (xs ++ ys)

/-- edgemap.go:126-143 `edgeMap.iterator` and 188-211 `allEdgesItr`, run to its end. `none`: the iteration
does not end, or it yields a nil edge (`only` is nil). -/
def EdgeMap.enum (P : Slot) (fuel : Nat) (em : EdgeMap) : Option (List Nat) :=
  if em.n = 0 then some []
  else if em.n = 1 then em.only.map (fun e => [e])
  else concatOpt (em.lists.map (fun p => walk (fun x => (P x).next) fuel p.2.head))

/-- edgemap.go:145-158, `edgeMap.iteratorLabel`, run to its end. `none` also for the nil dereference
`em.only.label`. -/
def EdgeMap.enumLabel (P : Slot) (label : Nat → String) (fuel : Nat) (em : EdgeMap) (l : String) :
    Option (List Nat) :=
  let byMap := match em.lists.get l with
    | none => some []
    | some el => walk (fun x => (P x).next) fuel el.head
  if em.n = 0 then some []
  else if em.n = 1 then
    match em.only with
    | none => none
    | some o => if l = label o then some [o] else byMap
  else byMap

/-- edgemap.go:160-186, `edgeMap.iteratorAnyLabel`, run to its end; `ls` is `labels.Slice()`, the set in an
arbitrary order. -/
def EdgeMap.enumAny (P : Slot) (label : Nat → String) (fuel : Nat) (em : EdgeMap) (ls : List String) :
    Option (List Nat) :=
  if em.n = 0 then some []
  else if em.n = 1 then
    match em.only with
    | none => none
    | some o => if ls.contains (label o) then some [o] else some []
  else concatOpt ((ls.filter (fun l => (em.lists.get l).isSome)).map (fun l => em.enumLabel P label fuel l))

/-- edgemap.go:160-186: `MaxSize()` of the iterator returned by `iteratorAnyLabel`: 0 for the empty iterator,
1 for the single edge, -1 for the `funcIterator` (itr.go:180). -/
def EdgeMap.anySize (label : Nat → String) (em : EdgeMap) (ls : List String) : Int :=
  if em.n = 0 then 0
  else if em.n = 1 then
    match em.only with
    | none => 0
    | some o => if ls.contains (label o) then 1 else 0
  else -1

/-- list.go:87-91, `nodeList`. -/
structure NList where
  head : Option Nat
  tail : Option Nat
  n : Int
deriving DecidableEq, Repr

/-- The `next`/`prev` fields of all nodes (node.go:25). -/
structure NPtr where
  next : Nat → Option Nat
  prev : Nat → Option Nat

/-- list.go:98-109, `nodeList.add`. `node.next` is not assigned. -/
def NList.add (P : NPtr) (l : NList) (x : Nat) : NPtr × NList :=
  let P := { P with prev := upd P.prev x l.tail }
  let P := match l.tail with
    | none => P
    | some t => { P with next := upd P.next t (some x) }
  (P, { head := match l.head with
          | none => some x
          | some h => some h,
        tail := some x, n := l.n + 1 })

/-- list.go:111-123, `nodeList.remove`. Line 120 assigns the removed node to `tail`. -/
def NList.remove (P : NPtr) (l : NList) (x : Nat) : NPtr × NList :=
  let (P, l) := match P.prev x with
    | some p => ({ P with next := upd P.next p (P.next x) }, l)
    | none => (P, { l with head := P.next x })
  let (P, l) := match P.next x with
    | some y => ({ P with prev := upd P.prev y (P.prev x) }, l)
    | none => (P, { l with tail := some x })
  (P, { l with n := l.n - 1 })

end LPG
