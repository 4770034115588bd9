import Verif.Props.C51
import Verif.Props.C64
/-!
# C51 and C64: the conditions of C01 and C04 are needed
-/
namespace LPG
open World CopyF

/-- The full property C51 does not hold: graph 1 of `spoiledNeighbour` does not enumerate its newest node. -/
theorem C51_false : ¬ ∀ (ops : List (Nat × Op)) (W : World) (g : Nat), WSpec.ValidHistory ops → World.run ops = some W →
    Shows (W.view g) (WSpec.run ops g) := by
  intro h
  have h1 : (World.run spoiledNeighbour).bind (fun W => (W.view 1).getNodes) = some [1] := by decide +kernel
  cases hr : World.run spoiledNeighbour with
  | none => rw [hr] at h1; cases h1
  | some W =>
    rw [hr] at h1
    have h2 := (h _ W 1 (by decide +kernel) hr).nodes
    have h3 : (W.view 1).getNodes = some [1] := h1
    rw [h3, show (WSpec.run spoiledNeighbour 1).nodes = [1, 8] by decide +kernel] at h2
    cases h2

/-- Functions that write down what they are asked for. -/
def seenFuncs : Funcs (List Nat) :=
  { node := fun n _ w => some (w ++ [n], none)
    edge := fun e _ w => some (w ++ [e]) }

/-- The full property C64 does not hold: after a history that removes the newest node, `CopyGraphf` does not ask for a copy of the
node that is created next (C01). -/
theorem C64_false : ¬ ∀ (ops : List Op) (s : State), Spec.ValidHistory ops → run ops = some s → s.getEdges ≠ none →
    (copyGraphf (fun _ => s) seenFuncs []).map Prod.fst = some (Spec.run ops).nodes := by
  intro h
  obtain ⟨h1, h2, h3⟩ := C01_false_missing
  cases hr : run [.newNode [] [], .newNode [] [], .detachRemove 1, .newNode [] []] with
  | none => rw [hr] at h2; cases h2
  | some s =>
    have he : (run [.newNode [] [], .newNode [] [], .detachRemove 1, .newNode [] []]).bind State.getEdges = some [] := by decide +kernel
    rw [hr] at he
    have he : s.getEdges = some [] := he
    have := h _ s h1 hr (by rw [he]; simp)
    have keeps : Keeps (fun _ => True) (listingAfter [.newNode [] [], .newNode [] [], .detachRemove 1, .newNode [] []]).nodes [] s
        (fun _ => s) seenFuncs :=
      ⟨fun _ _ => ⟨rfl, fun _ _ => rfl, rfl, fun _ _ => ⟨rfl, rfl⟩⟩, fun _ _ _ _ _ _ _ => trivial, fun _ _ _ _ _ _ => trivial⟩
    rw [C64_calls h1 hr he keeps trivial, h3] at this
    revert this
    decide +kernel

end LPG
