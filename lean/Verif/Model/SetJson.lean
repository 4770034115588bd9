import Verif.Model.StringSet
import Verif.Model.Json
/-!
# Sets of strings as JSON (stringset.go), and the interner of strings (json.go)
-/
namespace LPG

/-- `json.Unmarshal`: the text must be one value. -/
def Json.readAll (ts : List Json.Tok) : Option Json.JVal :=
  match Json.readValue (2 * ts.length) ts with
  | some (v, []) => some v
  | _ => none

namespace SHeap

/-- stringset.go:144-146, `MarshalJSON`. The order is that of the map. -/
def marshalJSON (h : SHeap) (r : SRef) : List Json.Tok := Json.text (.arr ((h.slice r).map .str))

/-- stringset.go:148-155, `UnmarshalJSON`: the heap, the receiver afterwards, and whether there was no error. -/
def unmarshalJSON (h : SHeap) (r : SRef) (ts : List Json.Tok) : SHeap × SRef × Bool :=
  match (Json.readAll ts).bind (Json.toSlice (Json.toStr "")) with
  | none => (h, r, false)
  | some arr =>
    let (h, r') := h.newSet arr
    (h, r', true)

end SHeap

/-- json.go:41-47, `Intern`: the map afterwards, and the result. -/
def intern (i : AMap String String) (s : String) : AMap String String × String :=
  match i.get s with
  | some k => (i, k)
  | none => (i.set s s, s)

/-- Calls of `Intern`, one after the other. -/
def internAll (i : AMap String String) : List String → AMap String String × List String
  | [] => (i, [])
  | s :: ss =>
    let (i, k) := intern i s
    let (i, ks) := internAll i ss
    (i, k :: ks)

end LPG
