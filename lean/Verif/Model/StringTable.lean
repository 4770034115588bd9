import Verif.Model.Base
/-!
# stringTable (stringtable.go)
-/
namespace LPG

/-- stringtable.go:24-28 `stringTable` and 30-33 `rcstring` (a pair of `str` and `c`). -/
structure StrTable where
  strs : List (String × Int)
  strmap : AMap String Nat
  firstFree : Int
deriving DecidableEq, Repr

namespace StrTable

/-- stringtable.go:35-39, `init`. -/
def init : StrTable := { strs := [], strmap := [], firstFree := -1 }

/-- stringtable.go:42-64, `allocate`. `none`: index out of range. -/
def allocate (t : StrTable) (s : String) : Option (StrTable × Nat) :=
  match t.strmap.get s with
  | some i =>
    match t.strs[i]? with
    | none => none
    | some r => some ({ t with strs := t.strs.set i (r.1, r.2 + 1) }, i)
  | none =>
    if t.firstFree ≠ -1 then
      if t.firstFree < 0 then none
      else
        let ret := t.firstFree.toNat
        match t.strs[ret]? with
        | none => none
        | some r => some ({ strs := t.strs.set ret (s, 1), strmap := t.strmap.set s ret, firstFree := r.2 }, ret)
    else
      let ret := t.strs.length
      some ({ t with strmap := t.strmap.set s ret, strs := t.strs ++ [(s, 1)] }, ret)

/-- stringtable.go:67-73, `lookup`. -/
def lookup (t : StrTable) (s : String) : Option Nat := t.strmap.get s

/-- stringtable.go:75-82, `str`. `none`: index out of range. -/
def str (t : StrTable) (i : Nat) : Option String := (t.strs[i]?).map Prod.fst

/-- stringtable.go:84-95, `free`. `none`: index out of range. -/
def free (t : StrTable) (i : Nat) : Option StrTable :=
  match t.strs[i]? with
  | none => none
  | some (s, c) =>
    let c := c - 1
    if c > 0 then some { t with strs := t.strs.set i (s, c) }
    else some { strs := t.strs.set i (s, t.firstFree), firstFree := i, strmap := t.strmap.del s }

end StrTable

inductive TabOp where
  | alloc (s : String)
  | free (i : Nat)

/-- One call; the second component is the index returned by `allocate`. -/
def StrTable.step (t : StrTable) : TabOp → Option (StrTable × Nat)
  | .alloc s => t.allocate s
  | .free i => (t.free i).map (fun t => (t, 0))

end LPG
