import Verif.Model.Iter
/-!
# What an iterator yields
-/
namespace LPG

/-- `Produces m s xs`: the calls of `Next` from the state `s` on return true as many times as `xs` has items, with
`Value` being these items in order, and then false. -/
inductive Produces {σ α : Type} (m : Machine σ α) : σ → List α → Prop
  | done {s s' : σ} : m.next s = some (false, s') → Produces m s []
  | item {s s' : σ} {x : α} {xs : List α} : m.next s = some (true, s') → m.val s' = some x → Produces m s' xs →
      Produces m s (x :: xs)

/-- The iterator object yields the items `xs`. -/
def Itr.Yields {α : Type} (i : Itr α) (xs : List α) : Prop := Produces i.m i.s xs

/-- `MaxSize` is -1 or an upper bound of the number of items. -/
def Itr.Bounded {α : Type} (i : Itr α) (xs : List α) : Prop := i.size = -1 ∨ (xs.length : Int) ≤ i.size

/-- The items of a list at their first occurrence: those that do not occur at an earlier position. -/
def firstOccs {α : Type} [DecidableEq α] (xs : List α) : List α :=
  (xs.zipIdx.filter (fun p => decide (p.1 ∉ xs.take p.2))).map Prod.fst

/-- A filter with variables, applied to the items one after the other. `none`: the filter panics. -/
def filterAll {φ α : Type} (f : φ → α → Option (Bool × φ)) : φ → List α → Option (List α)
  | _, [] => some []
  | g, x :: xs =>
    match f g x with
    | none => none
    | some (b, g) => (filterAll f g xs).map (fun ys => if b then x :: ys else ys)

end LPG
