import Verif.Model.PathHeap
/-!
# Paths as values

Every path of the program is a value of its own; a call changes the path that it is called on, and `AppendPath` may also
change its argument as `Path.appendPath` says.
-/
namespace LPG
open PathHeap

/-- The values of the paths and of the slices of the caller. -/
structure PVals where
  paths : List Path := []
  slices : List (List PathElement) := []

namespace PVals

def path (w : PVals) (i : Nat) : Path := w.paths.getD i {}
def slice (w : PVals) (i : Nat) : List PathElement := w.slices.getD i []
def set (w : PVals) (i : Nat) (p : Path) : PVals := { w with paths := w.paths.set i p }
def new (w : PVals) (p : Path) : PVals := { w with paths := w.paths ++ [p] }

/-- The value left by a call that returns or panics. -/
def left {α : Type} : Except α α → α
  | .ok a => a
  | .error a => a

def step (g : Ends) (w : PVals) : POp → PVals
  | .makeSlice es _ => { w with slices := w.slices ++ [es] }
  | .writeSlice v i e => { w with slices := w.slices.set v ((w.slice v).set i e) }
  | .fromSlice v n => if n ≤ (w.slice v).length then w.new (Path.newPathFromElements ((w.slice v).take n)) else w
  | .fromElements es => w.new (Path.newPathFromElements es)
  | .fromNode n => w.new { only := some n }
  | .clone p => if p < w.paths.length then w.new (w.path p).clone else w
  | .setOnlyNode p n => w.set p ((w.path p).setOnlyNode n)
  | .clear p => w.set p (w.path p).clear
  | .append p es => w.set p (left ((w.path p).append g es))
  | .appendPath p q =>
    if p < w.paths.length ∧ q < w.paths.length then
      (w.set q (left ((w.path p).appendPath g (w.path q))).2).set p (left ((w.path p).appendPath g (w.path q))).1
    else w
  | .slice p s e =>
    match (w.path p).slice g s e with
    | none => w
    | some v => w.new v
  | .removeLast p =>
    match (w.path p).only with
    | some _ => w.set p { w.path p with only := none }
    | none => w.set p { w.path p with path := (w.path p).path.dropLast }
  | .removeFirst p =>
    match (w.path p).only with
    | some _ => w.set p { w.path p with only := none }
    | none => w.set p { w.path p with path := (w.path p).path.tail }

def run (g : Ends) (ops : List POp) : PVals := ops.foldl (step g) {}

end PVals

/-- A slice that the caller gave to `NewPathFromElements` is not given again, and not written any more. `given` are the slices
given so far. -/
def OwnSlices : List Nat → List POp → Prop
  | _, [] => True
  | given, .fromSlice v _ :: ops => v ∉ given ∧ OwnSlices (v :: given) ops
  | given, .writeSlice v _ _ :: ops => v ∉ given ∧ OwnSlices given ops
  | given, _ :: ops => OwnSlices given ops

instance decOwnSlices : ∀ (given : List Nat) (ops : List POp), Decidable (OwnSlices given ops)
  | _, [] => isTrue trivial
  | given, op :: ops => by
    have := decOwnSlices given ops
    cases op <;> unfold OwnSlices
    case fromSlice v n => have := decOwnSlices (v :: given) ops; infer_instance
    all_goals infer_instance

end LPG
