/-!
# Updates of functions and association maps

`upd` models the assignment `x.f = v` for a struct field `f`, seen as a function from addresses to
values. `AMap` models Go maps (and the insertion ordered `linkedhashmap` of gods).
-/
namespace LPG

/-- Function update. Models an assignment to one field of the object at address `a`. -/
def upd {α : Type u} {β : Type v} [DecidableEq α] (f : α → β) (a : α) (b : β) : α → β :=
  fun x => if x = a then b else f x

/-- A Go map (`map[K]V`) as an association list; the position of a key in the list is the (arbitrary)
iteration order. A `nil` map is the empty list: reading a nil map and ranging over it behave like an
empty map, and the code never writes to a nil map. -/
abbrev AMap (α : Type u) (β : Type v) := List (α × β)

namespace AMap
variable {α : Type u} {β : Type v} [DecidableEq α]

/-- `m[k]` with the `ok` flag as an option. -/
def get : AMap α β → α → Option β
  | [], _ => none
  | (k, v) :: m, a => if k = a then some v else get m a

/-- `m[k] = v`; an existing key keeps its position, a new key is added at the end. -/
def set : AMap α β → α → β → AMap α β
  | [], a, b => [(a, b)]
  | (k, v) :: m, a, b => if k = a then (k, b) :: m else (k, v) :: set m a b

/-- `delete(m, k)`. -/
def del : AMap α β → α → AMap α β
  | [], _ => []
  | (k, v) :: m, a => if k = a then del m a else (k, v) :: del m a

def keys (m : AMap α β) : List α := m.map Prod.fst

end AMap

end LPG
